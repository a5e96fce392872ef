import Verif.Jit.CodeSpec

/-!
# Invariant of a blob
-/

namespace Verif.Jit.Code

theorem upd_same (g : Nat → α) (k : Nat) (v : α) : upd g k v k = v := by simp [upd]

theorem upd_other (g : Nat → α) {k x : Nat} (v : α) (h : x ≠ k) : upd g k v x = g x := by
  simp [upd, h]

theorem place_append (p : Nat) : ∀ (xs ys : List Item),
    place p (xs ++ ys) = place p xs ++ place (p + total xs) ys
  | [], ys => by simp [place, total]
  | x :: xs, ys => by
    simp only [List.cons_append, place, total]
    rw [place_append, Nat.add_assoc]

theorem total_append : ∀ (xs ys : List Item), total (xs ++ ys) = total xs + total ys
  | [], ys => by simp [total]
  | x :: xs, ys => by simp only [List.cons_append, total]; rw [total_append]; omega

theorem place_bound (p : Nat) : ∀ (xs : List Item) q it, (q, it) ∈ place p xs →
    p ≤ q ∧ q + it.len ≤ p + total xs
  | [], q, it, h => by cases h
  | x :: xs, q, it, h => by
    simp only [place, total] at *
    rcases List.mem_cons.mp h with h | h
    · cases h; omega
    · have := place_bound (p + x.len) xs q it h
      omega

theorem place_sorted (p : Nat) : ∀ (xs : List Item),
    (place p xs).Pairwise fun a b => a.1 + a.2.len ≤ b.1
  | [] => List.Pairwise.nil
  | x :: xs => by
    refine List.pairwise_cons.mpr ⟨?_, place_sorted _ xs⟩
    intro b hb
    exact (place_bound _ xs b.1 b.2 hb).1

theorem pairwise_mem {α : Type} {R : α → α → Prop} {l : List α} (h : l.Pairwise R) {x y : α}
    (hx : x ∈ l) (hy : y ∈ l) : x = y ∨ R x y ∨ R y x := by
  induction h with
  | nil => cases hx
  | @cons a l h1 _ ih =>
    rcases List.mem_cons.mp hx with ex | mx <;> rcases List.mem_cons.mp hy with ey | my
    · exact Or.inl (ex.trans ey.symm)
    · subst ex; exact Or.inr (Or.inl (h1 y my))
    · subst ey; exact Or.inr (Or.inr (h1 x mx))
    · exact ih mx my

/-- The end of a jump. -/
def endOf (p : Nat) (opc : List Nat) (w : Width) : Nat := p + opc.length + w.len

def tag : Width → Nat
  | .w8 => 8
  | .w32 => 32

/-- The memory has the item, where the jumps in `pend` still wait for their label. -/
def ItemAt (mem : Nat → Nat) (lab : Nat → Option Nat) (pend : Nat × Nat → Prop) (p : Nat) :
    Item → Prop
  | .bytes bs => HasBytes mem p bs
  | .label _ => True
  | .branch opc l w => HasBytes mem p opc ∧
      (pend (l, endOf p opc w) → mem (endOf p opc w - 1) = tag w) ∧
      (¬ pend (l, endOf p opc w) → ∃ d : Nat, lab l = some d ∧ target mem (endOf p opc w) w = d)

theorem Width.len_pos (w : Width) : 1 ≤ w.len := by cases w <;> decide

/-- An item only depends on the memory it occupies. -/
theorem ItemAt.congr {mem mem' : Nat → Nat} {lab : Nat → Option Nat} {pend : Nat × Nat → Prop}
    {p : Nat} {it : Item} (h : ItemAt mem lab pend p it)
    (hm : ∀ a, p ≤ a → a < p + it.len → mem' a = mem a) : ItemAt mem' lab pend p it := by
  have hb : ∀ (bs : List Nat), bs.length ≤ it.len → HasBytes mem p bs → HasBytes mem' p bs := by
    intro bs hl hbs i x hi
    have : i < bs.length := by
      rcases List.getElem?_eq_some_iff.mp hi with ⟨hlt, _⟩; exact hlt
    rw [hm _ (by omega) (by omega)]
    exact hbs i x hi
  cases it with
  | bytes bs => exact hb bs (Nat.le_refl _) h
  | label l => trivial
  | branch opc l w =>
    obtain ⟨h1, h2, h3⟩ := h
    have hlen : (Item.branch opc l w).len = opc.length + w.len := rfl
    rw [hlen] at hm hb
    have hwl := w.len_pos
    refine ⟨hb opc (by omega) h1, ?_, ?_⟩
    · intro hp
      rw [hm _ (by unfold endOf; omega) (by unfold endOf; omega)]
      exact h2 hp
    · intro hp
      obtain ⟨d, hd, ht⟩ := h3 hp
      refine ⟨d, hd, ?_⟩
      rw [← ht]
      unfold target
      cases w with
      | w8 =>
        have : (Width.w8).len = 1 := rfl
        simp only
        rw [hm (endOf p opc .w8 - 1) (by unfold endOf; omega) (by unfold endOf; omega)]
      | w32 =>
        have : (Width.w32).len = 4 := rfl
        simp only
        rw [hm (endOf p opc .w32 - 1) (by unfold endOf; omega) (by unfold endOf; omega),
          hm (endOf p opc .w32 - 2) (by unfold endOf; omega) (by unfold endOf; omega),
          hm (endOf p opc .w32 - 3) (by unfold endOf; omega) (by unfold endOf; omega),
          hm (endOf p opc .w32 - 4) (by unfold endOf; omega) (by unfold endOf; omega)]

/-- The items at `base` are in the memory. -/
def Holds (mem : Nat → Nat) (lab : Nat → Option Nat) (pend : Nat × Nat → Prop) (base : Nat)
    (items : List Item) : Prop :=
  ∀ p it, (p, it) ∈ place base items → ItemAt mem lab pend p it

theorem write_out (mem : Nat → Nat) (p : Nat) (bs : List Nat) (a : Nat)
    (h : a < p ∨ p + bs.length ≤ a) : write mem p bs a = mem a := by
  unfold write
  rw [if_neg (by omega)]

theorem write_in (mem : Nat → Nat) (p : Nat) (bs : List Nat) (i : Nat) (h : i < bs.length) :
    write mem p bs (p + i) = bs.getD i 0 := by
  unfold write
  rw [if_pos (by omega)]
  congr 1
  omega

theorem write_has (mem : Nat → Nat) (p : Nat) (bs : List Nat) : HasBytes (write mem p bs) p bs := by
  intro i x hi
  have hlt : i < bs.length := by
    rcases List.getElem?_eq_some_iff.mp hi with ⟨hlt, _⟩; exact hlt
  rw [write_in mem p bs i hlt, List.getD_eq_getElem?_getD, hi]
  rfl

/-! ## Displacements -/

theorem byteOf_lt (rel : Int) (k : Nat) : byteOf rel k < 256 := by
  unfold byteOf
  have h1 := Int.emod_nonneg (rel / (256 ^ k : Nat)) (by decide : (256 : Int) ≠ 0)
  have h2 := Int.emod_lt_of_pos (rel / (256 ^ k : Nat)) (by decide : (0 : Int) < 256)
  omega

theorem byteOf_val (rel : Int) (k : Nat) : (byteOf rel k : Int) = rel / (256 ^ k : Nat) % 256 := by
  unfold byteOf
  exact Int.toNat_of_nonneg (Int.emod_nonneg _ (by decide))

theorem disp8 {rel : Int} (h1 : -128 ≤ rel) (h2 : rel ≤ 127) : sext 8 (byteOf rel 0) = rel := by
  have := byteOf_val rel 0
  have hlt := byteOf_lt rel 0
  simp only [Nat.pow_zero] at this
  unfold sext
  simp only [Nat.reduceSub, Nat.reducePow]
  split <;> omega

theorem disp32 {rel : Int} (h1 : -2147483648 ≤ rel) (h2 : rel ≤ 2147483647) :
    sext 32 (byteOf rel 0 + 256 * byteOf rel 1 + 65536 * byteOf rel 2 + 16777216 * byteOf rel 3)
      = rel := by
  have e0 := byteOf_val rel 0
  have e1 := byteOf_val rel 1
  have e2 := byteOf_val rel 2
  have e3 := byteOf_val rel 3
  simp only [Nat.pow_zero, Nat.pow_one, Nat.reducePow] at e0 e1 e2 e3
  unfold sext
  simp only [Nat.reduceSub, Nat.reducePow]
  split <;> omega

/-- A range in which displacements of 32 bits reach everywhere. -/
def Near (e d : Nat) : Prop := e ≤ d + pageSize ∧ d ≤ e + pageSize

/-- `jit_x86_patch` writes only the displacement and gives the right target. -/
theorem patchAt_spec {mem mem' : Nat → Nat} {e d : Nat} {w : Width} (ht : mem (e - 1) = tag w)
    (he : w.len ≤ e) (hn : Near e d) (h : patchAt mem e d = .ok mem') :
    target mem' e w = d ∧ (∀ a, a < e - w.len ∨ e ≤ a → mem' a = mem a) := by
  unfold patchAt at h
  unfold Near pageSize at hn
  cases w with
  | w8 =>
    have ht : mem (e - 1) = 8 := ht
    have hl : (Width.w8).len = 1 := rfl
    rw [hl] at he
    simp only [if_pos ht] at h
    split at h
    · rename_i hr
      have h := Res.ok.inj h
      subst h
      refine ⟨?_, ?_⟩
      · show (e : Int) + sext 8 (write mem (e - 1) [byteOf ((d : Int) - (e : Int)) 0] (e - 1)) = d
        have hw := write_in mem (e - 1) [byteOf ((d : Int) - (e : Int)) 0] 0 (by simp)
        simp only [Nat.add_zero] at hw
        rw [hw]
        simp only [List.getD_cons_zero]
        rw [disp8 hr.1 hr.2]
        omega
      · intro a ha
        rw [hl] at ha
        refine write_out _ _ _ _ ?_
        simp only [List.length_singleton]
        omega
    · cases h
  | w32 =>
    have ht : mem (e - 1) = 32 := ht
    have hl : (Width.w32).len = 4 := rfl
    rw [hl] at he
    have hne : ¬ mem (e - 1) = 8 := by omega
    simp only [if_neg hne, if_pos ht] at h
    have h := Res.ok.inj h
    subst h
    refine ⟨?_, ?_⟩
    · generalize hbs : [byteOf ((d : Int) - (e : Int)) 0, byteOf ((d : Int) - (e : Int)) 1,
        byteOf ((d : Int) - (e : Int)) 2, byteOf ((d : Int) - (e : Int)) 3] = bs
      have hlen : bs.length = 4 := by rw [← hbs]; rfl
      have w0 := write_in mem (e - 4) bs 0 (by omega)
      have w1 := write_in mem (e - 4) bs 1 (by omega)
      have w2 := write_in mem (e - 4) bs 2 (by omega)
      have w3 := write_in mem (e - 4) bs 3 (by omega)
      rw [show e - 4 + 0 = e - 4 by omega] at w0
      rw [show e - 4 + 1 = e - 3 by omega] at w1
      rw [show e - 4 + 2 = e - 2 by omega] at w2
      rw [show e - 4 + 3 = e - 1 by omega] at w3
      unfold target
      simp only
      rw [w0, w1, w2, w3]
      subst hbs
      simp only [List.getD_cons_zero, List.getD_cons_succ]
      rw [disp32 (by omega) (by omega)]
      omega
    · intro a ha
      rw [hl] at ha
      refine write_out _ _ _ _ ?_
      simp only [List.length_cons, List.length_nil]
      omega

/-- No assertion fails in `jit_x86_patch`. -/
theorem patchAt_assert {mem : Nat → Nat} {e d : Nat} {w : Width} (ht : mem (e - 1) = tag w) :
    patchAt mem e d ≠ .assert := by
  unfold patchAt
  cases w with
  | w8 =>
    have ht : mem (e - 1) = 8 := ht
    simp only [if_pos ht]
    split <;> intro h <;> cases h
  | w32 =>
    have ht : mem (e - 1) = 32 := ht
    have hne : ¬ mem (e - 1) = 8 := by omega
    simp only [if_neg hne, if_pos ht]
    intro h; cases h

/-- Patching one jump. -/
theorem Holds.patch {mem mem' : Nat → Nat} {lab : Nat → Option Nat} {pend : Nat × Nat → Prop}
    {base : Nat} {items : List Item} {p : Nat} {opc : List Nat} {l : Nat} {w : Width} {d : Nat}
    (h : Holds mem lab pend base items) (hm : (p, Item.branch opc l w) ∈ place base items)
    (hp : pend (l, endOf p opc w)) (hd : lab l = some d) (hn : Near (endOf p opc w) d)
    (hok : patchAt mem (endOf p opc w) d = .ok mem') :
    Holds mem' lab (fun x => pend x ∧ x ≠ (l, endOf p opc w)) base items ∧
      (∀ a, a < p ∨ endOf p opc w ≤ a → mem' a = mem a) := by
  have hit : ItemAt mem lab pend p (.branch opc l w) := h p _ hm
  obtain ⟨h1, h2, h3⟩ := hit
  have hs := patchAt_spec (h2 hp) (by unfold endOf; omega) hn hok
  have hout : ∀ a, a < p ∨ endOf p opc w ≤ a → mem' a = mem a := by
    intro a ha
    refine hs.2 a ?_
    unfold endOf at *
    omega
  refine ⟨?_, hout⟩
  intro q it hq
  have hlen : (Item.branch opc l w).len = opc.length + w.len := rfl
  by_cases heq : (q, it) = (p, Item.branch opc l w)
  · cases heq
    refine ⟨?_, ?_, ?_⟩
    · intro i x hi
      have hlt : i < opc.length := by
        rcases List.getElem?_eq_some_iff.mp hi with ⟨hlt, _⟩; exact hlt
      rw [hs.2 _ (by unfold endOf; omega)]
      exact h1 i x hi
    · intro hpp; exact absurd rfl hpp.2
    · intro _; exact ⟨d, hd, hs.1⟩
  · -- another item does not overlap
    have hsort := pairwise_mem (place_sorted base items) hq hm
    have hdis : q + it.len ≤ p ∨ endOf p opc w ≤ q := by
      rcases hsort with h | h | h
      · exact absurd h heq
      · exact Or.inl h
      · right
        simp only [hlen] at h
        unfold endOf; omega
    have hc : ItemAt mem' lab pend q it := by
      refine (h q it hq).congr ?_
      intro a ha1 ha2
      exact hout a (by omega)
    cases it with
    | bytes bs => exact hc
    | label k => trivial
    | branch opc' l' w' =>
      obtain ⟨c1, c2, c3⟩ := hc
      have hwl := w'.len_pos
      have hwl2 := w.len_pos
      have hne : (l', endOf q opc' w') ≠ (l, endOf p opc w) := by
        intro he
        have he2 := congrArg Prod.snd he
        simp only [endOf] at he2
        have hl' : (Item.branch opc' l' w').len = opc'.length + w'.len := rfl
        rw [hl'] at hdis
        unfold endOf at hdis
        omega
      exact ⟨c1, fun hp => c2 hp.1, fun hp => c3 (fun h => hp ⟨h, hne⟩)⟩

/-- Jumps which wait for a label are jumps of the code. -/
def Pending (base : Nat) (items : List Item) (x : Nat × Nat) : Prop :=
  ∃ p opc w, (p, Item.branch opc x.1 w) ∈ place base items ∧ x.2 = endOf p opc w

/-- The loop of `code_blob_mark`. -/
theorem patchAll_spec {lab : Nat → Option Nat} {base : Nat} {items : List Item} {l d : Nat}
    (hd : lab l = some d) (hnear : ∀ x, Pending base items x → Near x.2 d) :
    ∀ (todo : List (Nat × Nat)) (mem mem' : Nat → Nat) (pend : Nat × Nat → Prop)
      (rest : List (Nat × Nat)),
      Holds mem lab (fun x => pend x ∨ x ∈ todo) base items →
      (∀ x ∈ todo, Pending base items x) → todo.Nodup → (∀ x ∈ todo, ¬ pend x) →
      patchAll l d mem todo = .ok (mem', rest) →
      Holds mem' lab (fun x => pend x ∨ x ∈ rest) base items ∧
        rest = todo.filter (fun x => x.1 ≠ l) ∧
        (∀ a, a < base ∨ base + total items ≤ a → mem' a = mem a)
  | [], mem, mem', pend, rest, h, _, _, _, hok => by
    cases hok
    exact ⟨h, rfl, fun _ _ => rfl⟩
  | (k, e) :: r, mem, mem', pend, rest, h, hp, hnd, hnp, hok => by
    have hnd' := List.nodup_cons.mp hnd
    simp only [patchAll] at hok
    by_cases hk : k = l
    · rw [if_pos hk] at hok
      subst hk
      cases hpa : patchAt mem e d with
      | fatal => rw [hpa] at hok; cases hok
      | assert => rw [hpa] at hok; cases hok
      | ok mem1 =>
        rw [hpa] at hok
        have hok : patchAll k d mem1 r = .ok (mem', rest) := hok
        obtain ⟨p, opc, w, hmem, he⟩ := hp (k, e) (by simp)
        simp only at hmem he
        subst he
        have hst := h.patch hmem (Or.inr (by simp)) hd
          (hnear (k, endOf p opc w) ⟨p, opc, w, hmem, rfl⟩) hpa
        have h1 : Holds mem1 lab (fun x => pend x ∨ x ∈ r) base items := by
          intro q it hq
          have := hst.1 q it hq
          cases it with
          | bytes bs => exact this
          | label _ => trivial
          | branch opc' l' w' =>
            obtain ⟨c1, c2, c3⟩ := this
            refine ⟨c1, ?_, ?_⟩
            · intro hh
              refine c2 ⟨?_, ?_⟩
              · rcases hh with hh | hh
                · exact Or.inl hh
                · exact Or.inr (List.mem_cons_of_mem _ hh)
              · intro heq
                rcases hh with hh | hh
                · rw [heq] at hh
                  exact hnp _ (by simp) hh
                · rw [heq] at hh
                  exact hnd'.1 hh
            · intro hh
              refine c3 ?_
              rintro ⟨hh2, hne⟩
              rcases hh2 with hh2 | hh2
              · exact hh (Or.inl hh2)
              · rcases List.mem_cons.mp hh2 with hh2 | hh2
                · exact hne hh2
                · exact hh (Or.inr hh2)
        have ih := patchAll_spec hd hnear r mem1 mem' pend rest h1
          (fun x hx => hp x (List.mem_cons_of_mem _ hx)) hnd'.2
          (fun x hx => hnp x (List.mem_cons_of_mem _ hx)) hok
        refine ⟨ih.1, ?_, ?_⟩
        · rw [ih.2.1]; simp
        · intro a ha
          rw [ih.2.2 a ha]
          have hb := place_bound base items p _ hmem
          have hlen : (Item.branch opc k w).len = opc.length + w.len := rfl
          rw [hlen] at hb
          exact hst.2 a (by unfold endOf; omega)
    · rw [if_neg hk] at hok
      cases hpa : patchAll l d mem r with
      | fatal => rw [hpa] at hok; cases hok
      | assert => rw [hpa] at hok; cases hok
      | ok x =>
        obtain ⟨m1, r1⟩ := x
        rw [hpa] at hok
        have hok := Res.ok.inj hok
        cases hok
        have ih := patchAll_spec hd hnear r mem m1 (fun x => pend x ∨ x = (k, e)) r1
          (by
            intro q it hq
            have := h q it hq
            cases it with
            | bytes bs => exact this
            | label _ => trivial
            | branch opc' l' w' =>
              obtain ⟨c1, c2, c3⟩ := this
              refine ⟨c1, ?_, ?_⟩
              · intro hh
                refine c2 ?_
                rcases hh with (hh | hh) | hh
                · exact Or.inl hh
                · exact Or.inr (by rw [hh]; simp)
                · exact Or.inr (List.mem_cons_of_mem _ hh)
              · intro hh
                refine c3 ?_
                intro hh2
                refine hh ?_
                rcases hh2 with hh2 | hh2
                · exact Or.inl (Or.inl hh2)
                · rcases List.mem_cons.mp hh2 with hh2 | hh2
                  · exact Or.inl (Or.inr hh2)
                  · exact Or.inr hh2)
          (fun x hx => hp x (List.mem_cons_of_mem _ hx)) hnd'.2
          (by
            intro x hx hh
            rcases hh with hh | hh
            · exact hnp x (List.mem_cons_of_mem _ hx) hh
            · rw [hh] at hx; exact hnd'.1 hx)
          hpa
        refine ⟨?_, ?_, ih.2.2⟩
        · intro q it hq
          have := ih.1 q it hq
          cases it with
          | bytes bs => exact this
          | label _ => trivial
          | branch opc' l' w' =>
            obtain ⟨c1, c2, c3⟩ := this
            refine ⟨c1, ?_, ?_⟩
            · intro hh
              refine c2 ?_
              rcases hh with hh | hh
              · exact Or.inl (Or.inl hh)
              · rcases List.mem_cons.mp hh with hh | hh
                · exact Or.inl (Or.inr hh)
                · exact Or.inr hh
            · intro hh
              refine c3 ?_
              intro hh2
              refine hh ?_
              rcases hh2 with (hh2 | hh2) | hh2
              · exact Or.inl hh2
              · exact Or.inr (by rw [hh2]; simp)
              · exact Or.inr (List.mem_cons_of_mem _ hh2)
        · rw [ih.2.1]
          simp [hk]

/-- No assertion fails in the loop of `code_blob_mark`. -/
theorem patchAll_assert {l d : Nat} {base : Nat} {items : List Item} {lab : Nat → Option Nat}
    (hd : lab l = some d) (hnear : ∀ x, Pending base items x → Near x.2 d) :
    ∀ (todo : List (Nat × Nat)) (mem : Nat → Nat) (pend : Nat × Nat → Prop),
      Holds mem lab (fun x => pend x ∨ x ∈ todo) base items →
      (∀ x ∈ todo, Pending base items x) → todo.Nodup →
      patchAll l d mem todo ≠ .assert
  | [], mem, pend, _, _, _ => by intro h; cases h
  | (k, e) :: r, mem, pend, h, hp, hnd => by
    have hnd' := List.nodup_cons.mp hnd
    simp only [patchAll]
    obtain ⟨p, opc, w, hmem, he⟩ := hp (k, e) (by simp)
    simp only at hmem he
    have htag : mem (e - 1) = tag w := by
      have := (h p _ hmem).2.1
      rw [he]
      exact this (Or.inr (by rw [he]; simp))
    by_cases hk : k = l
    · rw [if_pos hk]
      subst hk
      cases hpa : patchAt mem e d with
      | fatal => intro h; cases h
      | assert => exact absurd hpa (patchAt_assert htag)
      | ok mem1 =>
        show patchAll k d mem1 r ≠ .assert
        subst he
        have hst := h.patch hmem (Or.inr (by simp)) hd
          (hnear (k, endOf p opc w) ⟨p, opc, w, hmem, rfl⟩) hpa
        refine patchAll_assert hd hnear r mem1 (fun x => pend x ∧ x ≠ (k, endOf p opc w)) ?_
          (fun x hx => hp x (List.mem_cons_of_mem _ hx)) hnd'.2
        intro q it hq
        have := hst.1 q it hq
        cases it with
        | bytes bs => exact this
        | label _ => trivial
        | branch opc' l' w' =>
          obtain ⟨c1, c2, c3⟩ := this
          refine ⟨c1, ?_, ?_⟩
          · intro hh
            refine c2 ?_
            rcases hh with hh | hh
            · exact ⟨Or.inl hh.1, hh.2⟩
            · refine ⟨Or.inr (List.mem_cons_of_mem _ hh), ?_⟩
              intro heq
              rw [heq] at hh
              exact hnd'.1 hh
          · intro hh
            refine c3 ?_
            rintro ⟨hh2, hne⟩
            refine hh ?_
            rcases hh2 with hh2 | hh2
            · exact Or.inl ⟨hh2, hne⟩
            · rcases List.mem_cons.mp hh2 with hh2 | hh2
              · exact absurd hh2 hne
              · exact Or.inr hh2
    · rw [if_neg hk]
      have ih := patchAll_assert hd hnear r mem (fun x => pend x ∨ x = (k, e)) (by
          intro q it hq
          have := h q it hq
          cases it with
          | bytes bs => exact this
          | label _ => trivial
          | branch opc' l' w' =>
            obtain ⟨c1, c2, c3⟩ := this
            refine ⟨c1, ?_, ?_⟩
            · intro hh
              refine c2 ?_
              rcases hh with (hh | hh) | hh
              · exact Or.inl hh
              · exact Or.inr (by rw [hh]; simp)
              · exact Or.inr (List.mem_cons_of_mem _ hh)
            · intro hh
              refine c3 ?_
              intro hh2
              refine hh ?_
              rcases hh2 with hh2 | hh2
              · exact Or.inl (Or.inl hh2)
              · rcases List.mem_cons.mp hh2 with hh2 | hh2
                · exact Or.inl (Or.inr hh2)
                · exact Or.inr hh2)
        (fun x hx => hp x (List.mem_cons_of_mem _ hx)) hnd'.2
      cases hpa : patchAll l d mem r with
      | fatal => intro h; cases h
      | assert => exact absurd hpa ih
      | ok x => intro h; cases h

end Verif.Jit.Code
