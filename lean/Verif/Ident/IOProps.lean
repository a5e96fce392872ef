import Verif.Ident.IOModel
import Verif.Fbuf.VarintProps

/-!
# C07: identifiers survive a write/read cycle
-/

namespace Verif.Ident

open Verif.Fbuf

/-- An identifier as `ident_new` creates it: not empty, no zero byte, shorter than the limit
of `ident_install`. -/
structure Good (n : Name) : Prop where
  ne : n ≠ []
  nz : ∀ b ∈ n, b ≠ 0
  len : n.length < 65535

/-- The identifiers written through context `g`, in order. -/
def writtenBy (g : Nat) (evs : List (Nat × Option Name)) : List (Option Name) :=
  (evs.filter fun e => e.1 = g).map Prod.snd

theorem takeWhile_all (n : Name) (h : ∀ b ∈ n, b ≠ 0) : n.takeWhile (· ≠ 0) = n := by
  induction n with
  | nil => rfl
  | cons a l ih =>
    rw [List.takeWhile_cons]
    simp only [ne_eq, h a (by simp), not_false_eq_true, decide_true, if_true]
    congr 1
    exact ih fun b hb => h b (by simp [hb])

theorem index_pos (k : Nat) (hk : k < 2 ^ 31) :
    (BitVec.ofNat 32 (BitVec.ofNat 64 (k % 2 ^ 32)).toNat).toInt = k := by
  rw [BitVec.toNat_ofNat, BitVec.toInt_eq_toNat_cond, BitVec.toNat_ofNat]
  have e : k % 2 ^ 32 % 2 ^ 64 % 2 ^ 32 = k := by omega
  rw [e]
  split
  · rfl
  · omega

theorem index_neg (k : Nat) (hk : k < 2 ^ 31) :
    (BitVec.ofNat 32 (BitVec.ofInt 64 (-(k : Int))).toNat).toInt = -(k : Int) := by
  rw [BitVec.toInt_eq_toNat_cond, BitVec.toNat_ofNat, BitVec.toNat_ofInt]
  by_cases c : k = 0
  · subst c; decide
  · have e : ((-(k : Int)) % (2 ^ 64 : Nat)).toNat = 2 ^ 64 - k := by omega
    rw [e]
    have e2 : (2 ^ 64 - k) % 2 ^ 32 = 2 ^ 32 - k := by omega
    rw [e2]
    split
    · omega
    · omega

/-- Invariant relating the state of the process and the reader of the file of `g`. -/
structure Inv (g : Nat) (s : Sys) (ctx : RdCtx) : Prop where
  fmt : ctx.newFormat = true
  null : ctx.cache[0]? = some none
  next : ctx.cache.length = s.next g
  known : ∀ n, s.gen n = g → ctx.cache[s.index n]? = some (some n)

/-- **C07.**  Any number of writer contexts may write identifiers in turn (`evs`), repeating
them, sharing them between contexts, and writing null.  For every context, reading its
file back returns exactly the identifiers written through it, in order.  (Fewer than
2^31 - 2 writes; generation 0 is never used.) -/
theorem ident_roundtrip (evs : List (Nat × Option Name))
    (hgood : ∀ e ∈ evs, ∀ n, e.2 = some n → Good n) (hg : ∀ e ∈ evs, e.1 ≠ 0)
    (hlen : evs.length < 2 ^ 31 - 2) (g : Nat) (hg0 : g ≠ 0) (rest : List Nat) :
    readAll (writtenBy g evs).length readBegin (fileOf g Sys.init evs ++ rest) =
      .ok (writtenBy g evs) rest := by
  have gen : ∀ (evs : List (Nat × Option Name)) (s : Sys) (ctx : RdCtx),
      (∀ e ∈ evs, ∀ n, e.2 = some n → Good n) → Inv g s ctx →
      ctx.cache.length + evs.length < 2 ^ 31 - 1 →
      readAll (writtenBy g evs).length ctx (fileOf g s evs ++ rest) = .ok (writtenBy g evs) rest := by
    intro evs
    induction evs with
    | nil => intros; rfl
    | cons e evs ih =>
      intro s ctx hgood h hl
      obtain ⟨c, i⟩ := e
      have ih' := ih
      simp only [List.length_cons] at hl
      have hgood' : ∀ e ∈ evs, ∀ n, e.2 = some n → Good n := fun e he => hgood e (by simp [he])
      by_cases hc : c = g
      · subst hc
        have hw : writtenBy c ((c, i) :: evs) = i :: writtenBy c evs := by
          simp [writtenBy]
        rw [hw]
        simp only [List.length_cons]
        unfold fileOf
        rw [if_pos rfl]
        -- it is enough to read this identifier and keep the invariant
        have key : ∀ (bs : List Nat), ∃ ctx', read ctx ((write s c i).1 ++ bs) = .ok (i, ctx') bs ∧
            Inv c (write s c i).2 ctx' ∧ ctx'.cache.length ≤ ctx.cache.length + 1 := by
          intro bs
          cases i with
          | none =>
            refine ⟨ctx, ?_, h, by omega⟩
            unfold read write readIndex
            simp only [h.fmt, if_true, getInt_putInt]
            have e1 : (BitVec.ofNat 32 (1#64).toNat).toInt = 1 := by decide
            rw [e1]
            simp [h.null]
          | some n =>
            have gn := hgood (c, some n) (by simp) n rfl
            unfold write
            by_cases hk : s.gen n = c
            · have hkn := h.known n hk
              have hlt : s.index n < ctx.cache.length := (List.getElem?_eq_some_iff.1 hkn).1
              refine ⟨ctx, ?_, by simp only [if_pos hk]; exact h, by omega⟩
              simp only [if_pos hk]
              unfold read readIndex
              simp only [h.fmt, if_true, getInt_putInt]
              rw [index_pos _ (by omega)]
              rw [if_neg (by omega), if_neg (by omega)]
              have : (((s.index n + 1 : Nat) : Int) - 1).toNat = s.index n := by omega
              rw [this, hkn]
            · have hn1 := gn.len
              have hpos : 0 < n.length := List.length_pos_iff.2 gn.ne
              refine ⟨{ ctx with cache := ctx.cache ++ [some n] }, ?_, ?_, by simp⟩
              · simp only [if_neg hk]
                unfold read readIndex
                simp only [h.fmt, if_true, List.append_assoc, getInt_putInt]
                rw [index_neg _ (by omega)]
                rw [if_pos (by omega)]
                have e1 : (- -((n.length : Nat) : Int)).toNat = n.length := by omega
                simp only [e1]
                rw [if_neg (by simp), List.take_left, List.drop_left]
                unfold internString
                rw [takeWhile_all n gn.nz]
                simp [gn.ne, h.fmt]
              · simp only [if_neg hk]
                have hn0 : 0 < ctx.cache.length := (List.getElem?_eq_some_iff.1 h.null).1
                refine ⟨h.fmt, ?_, ?_, ?_⟩
                · simp only
                  rw [List.getElem?_append_left hn0]; exact h.null
                · simp [h.next]
                · intro m hm
                  simp only at hm ⊢
                  by_cases cm : m = n
                  · subst cm
                    simp only [if_true]
                    rw [← h.next]; simp
                  · rw [if_neg cm] at hm ⊢
                    have := h.known m hm
                    have hlt := (List.getElem?_eq_some_iff.1 this).1
                    rw [List.getElem?_append_left hlt]; exact this
        obtain ⟨ctx', r1, r2, r3⟩ := key (fileOf c (write s c i).2 evs ++ rest)
        unfold readAll
        rw [List.append_assoc, r1]
        simp only
        rw [ih' _ ctx' hgood' r2 (by omega)]
      · have hw : writtenBy g ((c, i) :: evs) = writtenBy g evs := by
          simp [writtenBy, hc]
        rw [hw]
        unfold fileOf
        rw [if_neg hc, List.nil_append]
        apply ih' _ ctx hgood' _ (by omega)
        cases i with
        | none => exact h
        | some n =>
          unfold write
          by_cases hk : s.gen n = c
          · simp only [if_pos hk]; exact h
          · simp only [if_neg hk]
            refine ⟨h.fmt, h.null, ?_, ?_⟩
            · simp only
              rw [if_neg (fun e => hc e.symm)]; exact h.next
            · intro m hm
              simp only at hm ⊢
              by_cases cm : m = n
              · rw [if_pos cm] at hm; exact absurd hm hc
              · rw [if_neg cm] at hm ⊢; exact h.known m hm
  apply gen evs Sys.init readBegin hgood ⟨rfl, rfl, rfl, ?_⟩
  · simp only [readBegin, List.length_singleton]; omega
  · intro n hn
    exact absurd hn.symm hg0

/-- A case that meets the hypotheses: two contexts share identifiers. -/
example : (∀ e ∈ [(1, some [97]), (2, some [97]), (1, none), (1, some [97])],
    ∀ n, e.2 = some n → Good n) ∧
    readAll 3 readBegin (fileOf 1 Sys.init
      [(1, some [97]), (2, some [97]), (1, none), (1, some [97])]) =
      .ok [some [97], none, some [97]] [] := by
  refine ⟨?_, by decide +kernel⟩
  intro e he n hn
  simp only [List.mem_cons, List.not_mem_nil, or_false] at he
  rcases he with rfl | rfl | rfl | rfl <;> simp only [Option.some.injEq, reduceCtorEq] at hn <;>
    (subst hn; exact ⟨by simp, by simp, by simp⟩)

/-- The hypothesis that identifiers are not empty is needed: an empty identifier (which
`ident_from` creates from a name that ends in the separator) is written as index 0, which
the reader takes for the format before version 1.13; the next identifier is lost. -/
theorem empty_ident_counterexample :
    readAll 2 readBegin (fileOf 1 Sys.init [(1, some []), (1, some [97])]) ≠
      .ok [some [], some [97]] [] := by decide +kernel

/-- `ident_write_begin` (ident.c 321-333) when the counter, which has 16 bits, gives out a
generation that an earlier context had: the numbering starts again, but the identifiers
which that context wrote still have its generation. -/
def Sys.reuse (s : Sys) (g : Nat) : Sys := { s with next := fun h => if h = g then 1 else s.next h }

/-- Contexts must have different generations (in the model they are identified by them): in
the file of the 65536th context after one that wrote the same identifier there is only a
number that means nothing. -/
theorem generation_counterexample :
    readAll 1 readBegin (fileOf 1 ((write Sys.init 1 (some [97])).2.reuse 1) [(1, some [97])]) = .fatal := by
  decide +kernel

end Verif.Ident
