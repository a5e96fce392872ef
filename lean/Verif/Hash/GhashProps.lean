import Verif.Hash.Ghash
import Verif.Hash.Props

/-!
# C16: generic hash tables

`ghash_put` does not stop at an existing key, so a key may be stored several times, and
`ghash_delete` clears only one copy.  The table is a finite map as long as nothing is
deleted, but not in general.
-/

namespace Verif.Hash

variable {K V : Type} [DecidableEq K]

/-- One `ghash_t` operation. -/
def ghashStep (hf : K → Nat) (t : Tab K V) : Op K V → M (Tab K V × Option (Option V))
  | .put k v => do let t' ← ghashPut hf 1 t k v; .ok (t', none)
  | .del k => do let t' ← ghashDelete hf t k; .ok (t', none)
  | .get k => do let v ← ghashGet hf t k; .ok (t, some v)

/-- Invariant of tables reachable without deletions. -/
def GRoom (hf : K → Nat) (t : Tab K V) (m : K → Option V) : Prop :=
  ∃ m', GRep hf t m' ∧ (∀ k, (m' k).join = m k) ∧ 4 ≤ t.size ∧ t.members ≤ t.size / 2 + 1

/-- **C16 (partial).**  Without deletions a generic table behaves as a finite map under every
sequence of puts and gets.  (Missing: histories with `ghash_delete`, see the
counterexample.) -/
theorem ghash_refines_map_partial (hf : K → Nat) (n : BitVec 32) (h1 : 3 ≤ n.toNat)
    (h2 : n.toNat ≤ 2 ^ 30) (ops : List (Op K V)) (hops : ∀ op ∈ ops, ∀ k, op ≠ .del k) :
    ∃ t, run (ghashStep hf) (new n) ops = .ok (t, (specRun (fun _ => none) ops).2) ∧
      ∀ k, ghashGet hf t k = .ok ((specRun (fun _ => none) ops).1 k) := by
  obtain ⟨hp, h4⟩ := new_size h1 h2
  have getok : ∀ (t : Tab K V) (m : K → Option V) k, GRoom hf t m → ghashGet hf t k = .ok (m k) := by
    rintro t m k ⟨m', a1, a2, a3, a4⟩
    rw [ghashGet_rep a1 k (by omega), a2]
  obtain ⟨t, g1, g2⟩ := run_sim (ghashStep hf) (fun op => ∀ k, op ≠ .del k) (GRoom hf)
    (by
      intro t m op ho h
      cases op with
      | put k v =>
        obtain ⟨m', a1, a2, a3, a4⟩ := h
        obtain ⟨t', b1, b2, b3, b4⟩ := ghashPut_rep a1 0 k v
        rw [Nat.zero_add] at b1
        refine ⟨t', by simp only [ghashStep, b1, except_bind_ok]; rfl, _, b2, ?_, by omega, b4⟩
        intro k'
        unfold fupd Op.apply
        by_cases c : k' = k
        · simp [c]
        · simp [c, a2]
      | del k => exact absurd rfl (ho k)
      | get k =>
        exact ⟨t, by simp only [ghashStep, getok t m k h, except_bind_ok]; rfl, h⟩)
    ops hops (new n) (fun _ => none)
    ⟨_, empty_grep hf _ hp, fun _ => rfl, h4, by simp [new, empty]⟩
  exact ⟨t, g1, fun k => getok t _ k g2⟩

example : ∀ op ∈ [Op.put 1 (some 5), .put 1 (some 6), .get 1], ∀ k, op ≠ (.del k : Op Nat Nat) := by
  simp

example : (((run (ghashStep (fun _ : Nat => 2)) (new 4#32)
    [.put 1 (some 10), .put 1 (some 11), .get 1, .put 2 (some 20), .put 3 (some 30), .get 1,
      .get 3]).map Prod.snd).toOption) =
    some [none, none, some (some 11), none, none, some (some 11), some (some 30)] := by
  decide +kernel

/-- **C16 is false with deletions**: a key that was put twice and then deleted comes back
with its value once the table has grown.  (Keys 0, 1, 2 with the identity as hash
function; requested size 4.) -/
theorem ghash_delete_counterexample :
    (((run (ghashStep (fun k : Nat => k)) (new 4#32)
      [.put 0 (some 1), .put 0 (some 2), .del 0, .get 0, .put 1 (some 5), .put 2 (some 6),
        .get 0]).map Prod.snd).toOption) =
      some [none, none, none, some none, none, none, some (some 2)] ∧
    (specRun (fun _ : Nat => (none : Option Nat))
      [.put 0 (some 1), .put 0 (some 2), .del 0, .get 0, .put 1 (some 5), .put 2 (some 6),
        .get 0]).2 = [none, none, none, some none, none, none, some none] := by
  decide +kernel

end Verif.Hash
