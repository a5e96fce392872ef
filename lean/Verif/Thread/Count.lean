/-!
# Counting threads

How many of the threads `0 .. n-1` satisfy a predicate.
-/

namespace Verif.Thread

/-- Function update. -/
def upd {α : Type} (f : Nat → α) (a : Nat) (v : α) : Nat → α := fun x => if x = a then v else f x

@[simp] theorem upd_same {α : Type} (f : Nat → α) (a : Nat) (v : α) : upd f a v a = v := by
  simp [upd]

@[simp] theorem upd_ne {α : Type} (f : Nat → α) (a : Nat) (v : α) (x : Nat) (h : x ≠ a) :
    upd f a v x = f x := by
  simp [upd, h]

theorem upd_apply {α : Type} (f : Nat → α) (a : Nat) (v : α) (x : Nat) :
    upd f a v x = if x = a then v else f x := rfl

/-- Number of `t < n` with `p t`. -/
def count (p : Nat → Bool) : Nat → Nat
  | 0 => 0
  | n + 1 => count p n + (if p n then 1 else 0)

theorem count_congr (p q : Nat → Bool) (n : Nat) (h : ∀ t < n, p t = q t) :
    count p n = count q n := by
  induction n with
  | zero => rfl
  | succ n ih =>
    simp only [count, ih (fun t ht => h t (by omega)), h n (by omega)]

/-- Changing the predicate at one place. -/
theorem count_change (p q : Nat → Bool) (n t : Nat) (ht : t < n) (h : ∀ x, x ≠ t → p x = q x) :
    count q n + (if p t then 1 else 0) = count p n + (if q t then 1 else 0) := by
  induction n with
  | zero => omega
  | succ n ih =>
    simp only [count]
    by_cases c : t = n
    · subst c
      rw [count_congr p q t (fun x hx => h x (by omega))]
      omega
    · have := ih (by omega)
      rw [h n (fun e => c e.symm)]
      omega

theorem count_pos (p : Nat → Bool) (n t : Nat) (ht : t < n) (h : p t = true) : 0 < count p n := by
  induction n with
  | zero => omega
  | succ n ih =>
    simp only [count]
    by_cases c : t = n
    · subst c; simp [h]
    · have := ih (by omega); omega

theorem count_zero_iff (p : Nat → Bool) (n : Nat) : count p n = 0 ↔ ∀ t < n, p t = false := by
  induction n with
  | zero => simp [count]
  | succ n ih =>
    simp only [count]
    constructor
    · intro h t ht
      by_cases c : t = n
      · subst c; cases e : p t <;> simp_all
      · exact ih.1 (by omega) t (by omega)
    · intro h
      rw [ih.2 (fun t ht => h t (by omega)), h n (by omega)]; simp

theorem count_le (p : Nat → Bool) (n : Nat) : count p n ≤ n := by
  induction n with
  | zero => simp [count]
  | succ n ih => simp only [count]; split <;> omega

theorem count_eq_iff (p : Nat → Bool) (n : Nat) : count p n = n ↔ ∀ t < n, p t = true := by
  induction n with
  | zero => simp [count]
  | succ n ih =>
    simp only [count]
    have := count_le p n
    constructor
    · intro h t ht
      by_cases c : t = n
      · subst c
        cases e : p t with
        | true => rfl
        | false => rw [e] at h; simp at h; omega
      · exact ih.1 (by split at h <;> omega) t (by omega)
    · intro h
      rw [ih.2 (fun t ht => h t (by omega)), h n (by omega)]; simp

theorem count_false (n : Nat) : count (fun _ => false) n = 0 := by
  rw [count_zero_iff]; simp

end Verif.Thread
