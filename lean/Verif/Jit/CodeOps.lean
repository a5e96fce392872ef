import Verif.Jit.CodeBlob

/-!
# Operations on a blob
-/

namespace Verif.Jit.Code

/-- A blob that has not overflowed. -/
structure Live (mem : Nat → Nat) (b : Blob) : Prop where
  pos : b.wptr = b.base + total b.items
  holds : Holds mem (fun l => lookup l b.labels) (fun x => x ∈ b.patches) b.base b.items
  labs : ∀ l d, lookup l b.labels = some d → (d, Item.label l) ∈ place b.base b.items
  pend : ∀ x ∈ b.patches, Pending b.base b.items x ∧ lookup x.1 b.labels = none
  nodup : b.patches.Nodup

structure BlobOk (mem : Nat → Nat) (b : Blob) : Prop where
  lo : b.base ≤ b.wptr
  hi : b.wptr ≤ b.base + b.size
  sz : b.size ≤ pageSize
  ovf : b.overflow = true → b.patches = []
  live : b.overflow = false → Live mem b

/-- What operations on a blob leave as it is. -/
structure Same (mem mem' : Nat → Nat) (b b' : Blob) : Prop where
  sp : b'.sp = b.sp
  name : b'.name = b.name
  base : b'.base = b.base
  size : b'.size = b.size
  mem : ∀ a, a < b.base ∨ b.base + b.size ≤ a → mem' a = mem a

theorem Same.refl (mem : Nat → Nat) (b : Blob) : Same mem mem b b :=
  ⟨rfl, rfl, rfl, rfl, fun _ _ => rfl⟩

theorem Same.trans {mem mem' mem'' : Nat → Nat} {b b' b'' : Blob} (h : Same mem mem' b b')
    (h' : Same mem' mem'' b' b'') : Same mem mem'' b b'' := by
  refine ⟨h'.sp.trans h.sp, h'.name.trans h.name, h'.base.trans h.base, h'.size.trans h.size, ?_⟩
  intro a ha
  rw [h'.mem a (by rw [h.base, h.size]; exact ha), h.mem a ha]

theorem Live.congr {mem mem' : Nat → Nat} {b : Blob} (h : Live mem b)
    (hm : ∀ a, b.base ≤ a → a < b.wptr → mem' a = mem a) : Live mem' b := by
  refine ⟨h.pos, ?_, h.labs, h.pend, h.nodup⟩
  intro p it hp
  have hb := place_bound _ _ _ _ hp
  refine (h.holds p it hp).congr ?_
  intro a h1 h2
  refine hm a (by omega) ?_
  rw [h.pos]; omega

theorem BlobOk.congr {mem mem' : Nat → Nat} {b : Blob} (h : BlobOk mem b)
    (hm : ∀ a, b.base ≤ a → a < b.base + b.size → mem' a = mem a) : BlobOk mem' b := by
  refine ⟨h.lo, h.hi, h.sz, h.ovf, ?_⟩
  intro ho
  refine (h.live ho).congr ?_
  intro a h1 h2
  have := h.hi
  exact hm a h1 (by omega)

theorem Live.near {mem : Nat → Nat} {b : Blob} (h : BlobOk mem b) (hl : Live mem b) {x : Nat × Nat}
    (hx : Pending b.base b.items x) {d : Nat} (h1 : b.base ≤ d) (h2 : d ≤ b.base + b.size) :
    Near x.2 d := by
  obtain ⟨p, opc, w, hm, he⟩ := hx
  have hb := place_bound _ _ _ _ hm
  have hlen : (Item.branch opc x.1 w).len = opc.length + w.len := rfl
  rw [hlen] at hb
  have := h.hi
  have := h.sz
  have := hl.pos
  unfold Near
  rw [he]
  unfold endOf
  omega

/-- Adding an item at the end. -/
theorem holds_append {mem : Nat → Nat} {lab : Nat → Option Nat} {pend : Nat × Nat → Prop}
    {base : Nat} {items : List Item} {it : Item} (bs : List Nat)
    (h : Holds mem lab pend base items)
    (hit : ItemAt (write mem (base + total items) bs) lab pend (base + total items) it) :
    Holds (write mem (base + total items) bs) lab pend base (items ++ [it]) := by
  intro p x hp
  rw [place_append] at hp
  rcases List.mem_append.mp hp with hp | hp
  · have hb := place_bound _ _ _ _ hp
    refine (h p x hp).congr ?_
    intro a h1 h2
    exact write_out _ _ _ _ (by omega)
  · simp only [place, List.mem_singleton] at hp
    cases hp
    exact hit

theorem pending_append {base : Nat} {items : List Item} {it : Item} {x : Nat × Nat}
    (h : Pending base items x) : Pending base (items ++ [it]) x := by
  obtain ⟨p, opc, w, hm, he⟩ := h
  refine ⟨p, opc, w, ?_, he⟩
  rw [place_append]
  exact List.mem_append.mpr (Or.inl hm)

theorem lab_append {base : Nat} {items : List Item} {it : Item} {y : Nat × Item}
    (h : y ∈ place base items) : y ∈ place base (items ++ [it]) := by
  rw [place_append]
  exact List.mem_append.mpr (Or.inl h)

theorem emit_ok {mem : Nat → Nat} {b : Blob} (h : BlobOk mem b) (bs : List Nat) :
    BlobOk (emit mem b bs (.bytes bs)).1 (emit mem b bs (.bytes bs)).2 ∧
      Same mem (emit mem b bs (.bytes bs)).1 b (emit mem b bs (.bytes bs)).2 := by
  unfold emit
  by_cases ho : b.overflow = true
  · rw [if_pos ho]; exact ⟨h, Same.refl _ _⟩
  · rw [if_neg ho]
    have ho' : b.overflow = false := by simpa using ho
    have hl := h.live ho'
    by_cases hlen : b.wptr + bs.length > b.base + b.size
    · rw [if_pos hlen]
      exact ⟨⟨h.lo, h.hi, h.sz, fun _ => rfl, fun h => by cases h⟩, ⟨rfl, rfl, rfl, rfl, fun _ _ => rfl⟩⟩
    · rw [if_neg hlen]
      have h1 := h.lo
      refine ⟨⟨by show b.base ≤ b.wptr + bs.length; omega,
        by show b.wptr + bs.length ≤ b.base + b.size; omega, h.sz, fun h => absurd h ho, ?_⟩, ?_⟩
      · intro _
        refine ⟨?_, ?_, ?_, ?_, hl.nodup⟩
        · show b.wptr + bs.length = b.base + total (b.items ++ [.bytes bs])
          rw [total_append, hl.pos]
          simp only [total, Item.len]; omega
        · show Holds (write mem b.wptr bs) _ _ b.base (b.items ++ [.bytes bs])
          rw [hl.pos]
          exact holds_append bs hl.holds (write_has _ _ _)
        · intro l d hd; exact lab_append (hl.labs l d hd)
        · intro x hx; exact ⟨pending_append (hl.pend x hx).1, (hl.pend x hx).2⟩
      · refine ⟨rfl, rfl, rfl, rfl, ?_⟩
        intro a ha
        exact write_out _ _ _ _ (by omega)

theorem lookup_cons (l k v : Nat) (r : List (Nat × Nat)) :
    lookup l ((k, v) :: r) = if k = l then some v else lookup l r := rfl

theorem mark_ok {mem mem' : Nat → Nat} {b b' : Blob} {l : Nat} (h : BlobOk mem b)
    (hnew : lookup l b.labels = none) (hm : mark mem b l = .ok (mem', b')) :
    BlobOk mem' b' ∧ Same mem mem' b b' := by
  unfold mark at hm
  by_cases ho : b.overflow = true
  · rw [if_pos ho] at hm; cases hm; exact ⟨h, Same.refl _ _⟩
  · rw [if_neg ho] at hm
    have ho' : b.overflow = false := by simpa using ho
    have hl := h.live ho'
    cases hpa : patchAll l b.wptr mem b.patches with
    | fatal => rw [hpa] at hm; cases hm
    | assert => rw [hpa] at hm; cases hm
    | ok x =>
      obtain ⟨m1, rest⟩ := x
      rw [hpa] at hm
      have hm := Res.ok.inj hm
      cases hm
      have hh : Holds mem (fun k => lookup k ((l, b.wptr) :: b.labels))
          (fun x => False ∨ x ∈ b.patches) b.base b.items := by
        intro p it hp
        have hi := hl.holds p it hp
        cases it with
        | bytes bs => exact hi
        | label _ => trivial
        | branch opc k w =>
          obtain ⟨c1, c2, c3⟩ := hi
          refine ⟨c1, fun hh => c2 (hh.resolve_left id), ?_⟩
          intro hh
          obtain ⟨d, hd, ht⟩ := c3 (fun h => hh (Or.inr h))
          refine ⟨d, ?_, ht⟩
          show lookup k ((l, b.wptr) :: b.labels) = some d
          rw [lookup_cons]
          by_cases hk : l = k
          · subst hk; simp only [hnew] at hd; cases hd
          · rw [if_neg hk]; exact hd
      have hs := patchAll_spec (lab := fun k => lookup k ((l, b.wptr) :: b.labels)) (d := b.wptr)
        (by simp [lookup_cons]) (fun x hx => hl.near h hx h.lo h.hi) b.patches mem m1
        (fun _ => False) rest hh (fun x hx => (hl.pend x hx).1) hl.nodup (fun _ _ h => h) hpa
      obtain ⟨s1, s2, s3⟩ := hs
      refine ⟨⟨h.lo, h.hi, h.sz, fun h => absurd h ho, ?_⟩, ⟨rfl, rfl, rfl, rfl, ?_⟩⟩
      · intro _
        refine ⟨?_, ?_, ?_, ?_, ?_⟩
        · show b.wptr = b.base + total (b.items ++ [.label l])
          rw [total_append, hl.pos]; simp only [total, Item.len]; omega
        · show Holds m1 _ (fun x => x ∈ rest) b.base (b.items ++ [.label l])
          intro p it hp
          rw [place_append] at hp
          rcases List.mem_append.mp hp with hp | hp
          · have := s1 p it hp
            cases it with
            | bytes bs => exact this
            | label _ => trivial
            | branch opc k w =>
              obtain ⟨c1, c2, c3⟩ := this
              exact ⟨c1, fun hh => c2 (Or.inr hh), fun hh => c3 (fun h => hh (h.resolve_left id))⟩
          · simp only [place, List.mem_singleton] at hp
            cases hp; trivial
        · intro k d hd
          show (d, Item.label k) ∈ place b.base (b.items ++ [.label l])
          have hd : lookup k ((l, b.wptr) :: b.labels) = some d := hd
          rw [lookup_cons] at hd
          by_cases hk : l = k
          · rw [if_pos hk] at hd
            cases hd
            subst hk
            rw [place_append, hl.pos]
            exact List.mem_append.mpr (Or.inr (by simp [place]))
          · rw [if_neg hk] at hd
            exact lab_append (hl.labs k d hd)
        · intro x hx
          have hx : x ∈ rest := hx
          rw [s2] at hx
          have hx' := List.mem_filter.mp hx
          refine ⟨pending_append (hl.pend x hx'.1).1, ?_⟩
          show lookup x.1 ((l, b.wptr) :: b.labels) = none
          rw [lookup_cons, if_neg]
          · exact (hl.pend x hx'.1).2
          · intro h
            have := hx'.2
            simp [h] at this
        · show rest.Nodup
          rw [s2]
          exact hl.nodup.filter _
      · intro a ha
        refine s3 a ?_
        have := hl.pos
        have := h.hi
        omega

theorem mark_assert {mem : Nat → Nat} {b : Blob} {l : Nat} (h : BlobOk mem b)
    (hnew : lookup l b.labels = none) : mark mem b l ≠ .assert := by
  unfold mark
  by_cases ho : b.overflow = true
  · rw [if_pos ho]; intro h; cases h
  · rw [if_neg ho]
    have ho' : b.overflow = false := by simpa using ho
    have hl := h.live ho'
    have := patchAll_assert (l := l) (lab := fun k => lookup k ((l, b.wptr) :: b.labels)) (d := b.wptr)
        (by simp [lookup_cons]) (fun x hx => hl.near h hx h.lo h.hi) b.patches mem
        (fun _ => False) (by
          intro p it hp
          have hi := hl.holds p it hp
          cases it with
          | bytes bs => exact hi
          | label _ => trivial
          | branch opc k w =>
            obtain ⟨c1, c2, c3⟩ := hi
            refine ⟨c1, fun hh => c2 (hh.resolve_left id), ?_⟩
            intro hh
            obtain ⟨d, hd, ht⟩ := c3 (fun h => hh (Or.inr h))
            refine ⟨d, ?_, ht⟩
            show lookup k ((l, b.wptr) :: b.labels) = some d
            rw [lookup_cons]
            by_cases hk : l = k
            · subst hk; simp only [hnew] at hd; cases hd
            · rw [if_neg hk]; exact hd)
        (fun x hx => (hl.pend x hx).1) hl.nodup
    cases hpa : patchAll l b.wptr mem b.patches with
    | fatal => intro h; cases h
    | assert => exact absurd hpa this
    | ok x => intro h; cases h

theorem holder_len (w : Width) : (holder w).length = w.len := by cases w <;> rfl

/-- A jump after its bytes are written. -/
theorem branch_item {mem : Nat → Nat} {lab : Nat → Option Nat} {pend : Nat × Nat → Prop} {p : Nat}
    {opc : List Nat} {l : Nat} {w : Width} (hp : pend (l, endOf p opc w)) :
    ItemAt (write mem p (opc ++ holder w)) lab pend p (.branch opc l w) := by
  have hb := write_has mem p (opc ++ holder w)
  refine ⟨?_, ?_, fun h => absurd hp h⟩
  · intro i x hi
    have hlt : i < opc.length := by
      rcases List.getElem?_eq_some_iff.mp hi with ⟨hlt, _⟩; exact hlt
    exact hb i x (by rw [List.getElem?_append_left hlt]; exact hi)
  · intro _
    have hwl := w.len_pos
    have := hb (opc.length + (w.len - 1)) (tag w) (by
      rw [List.getElem?_append_right (by omega), show opc.length + (w.len - 1) - opc.length = w.len - 1 by omega]
      cases w <;> rfl)
    rw [← this]
    congr 1
    unfold endOf; omega

theorem branch_cases {mem : Nat → Nat} {b : Blob} (h : BlobOk mem b) (opc : List Nat) (l : Nat)
    (w : Width) :
    branch mem b opc l w ≠ .assert ∧
      ∀ mem' b', branch mem b opc l w = .ok (mem', b') → BlobOk mem' b' ∧ Same mem mem' b b' := by
  unfold branch emit
  by_cases ho : b.overflow = true
  · simp only [if_pos ho]
    unfold patch
    simp only [if_pos ho]
    refine ⟨fun h => by (try cases h), ?_⟩
    intro mem' b' hm
    cases hm
    exact ⟨h, Same.refl _ _⟩
  · simp only [if_neg ho]
    have ho' : b.overflow = false := by simpa using ho
    have hl := h.live ho'
    by_cases hlen : b.wptr + (opc ++ holder w).length > b.base + b.size
    · simp only [if_pos hlen]
      unfold patch
      simp only [if_true]
      refine ⟨fun h => by (try cases h), ?_⟩
      intro mem' b' hm
      cases hm
      exact ⟨⟨h.lo, h.hi, h.sz, fun _ => rfl, fun h => by cases h⟩, ⟨rfl, rfl, rfl, rfl, fun _ _ => rfl⟩⟩
    · simp only [if_neg hlen]
      have hlo := h.lo
      have hpos := hl.pos
      have hwl := w.len_pos
      have hbl : (opc ++ holder w).length = opc.length + w.len := by
        rw [List.length_append, holder_len]
      have hend : b.wptr + (opc ++ holder w).length = endOf b.wptr opc w := by
        unfold endOf; omega
      -- the new jump waits
      have hend_ne : ∀ x, Pending b.base b.items x → x.2 < endOf b.wptr opc w := by
        intro x hx
        obtain ⟨p, o, w', hm, he⟩ := hx
        have hb := place_bound _ _ _ _ hm
        have hlen' : (Item.branch o x.1 w').len = o.length + w'.len := rfl
        rw [hlen'] at hb
        rw [he]
        unfold endOf
        omega
      have hbase : Holds mem (fun k => lookup k b.labels)
          (fun x => x ∈ (l, endOf b.wptr opc w) :: b.patches) b.base b.items := by
        intro p it hp
        have hi := hl.holds p it hp
        cases it with
        | bytes bs => exact hi
        | label _ => trivial
        | branch o k w' =>
          obtain ⟨c1, c2, c3⟩ := hi
          have hlt := hend_ne (k, endOf p o w') ⟨p, o, w', hp, rfl⟩
          refine ⟨c1, ?_, fun hh => c3 (fun h => hh (List.mem_cons_of_mem _ h))⟩
          intro hh
          rcases List.mem_cons.mp hh with hh | hh
          · have := congrArg Prod.snd hh
            simp only at this hlt
            omega
          · exact c2 hh
      have hnew : Holds (write mem b.wptr (opc ++ holder w)) (fun k => lookup k b.labels)
          (fun x => x ∈ (l, endOf b.wptr opc w) :: b.patches) b.base
          (b.items ++ [.branch opc l w]) := by
        rw [hl.pos] at hbase ⊢
        exact holds_append _ hbase (branch_item (by simp))
      have hmem : (b.wptr, Item.branch opc l w) ∈ place b.base (b.items ++ [.branch opc l w]) := by
        rw [place_append, hl.pos]
        exact List.mem_append.mpr (Or.inr (by simp [place]))
      have hbpos : b.wptr + (opc ++ holder w).length
          = b.base + total (b.items ++ [.branch opc l w]) := by
        rw [total_append, hl.pos]; simp only [total, Item.len]; omega
      have hout : ∀ a, a < b.base ∨ b.base + b.size ≤ a →
          write mem b.wptr (opc ++ holder w) a = mem a := by
        intro a ha
        exact write_out _ _ _ _ (by omega)
      have hlabs : ∀ k d, lookup k b.labels = some d →
          (d, Item.label k) ∈ place b.base (b.items ++ [.branch opc l w]) :=
        fun k d hd => lab_append (hl.labs k d hd)
      unfold patch
      simp only [if_neg ho]
      cases hlk : lookup l b.labels with
      | none =>
        simp only
        refine ⟨fun h => (by cases h), ?_⟩
        intro mem' b' hm
        cases hm
        refine ⟨⟨by show b.base ≤ b.wptr + (opc ++ holder w).length; omega,
          by show b.wptr + (opc ++ holder w).length ≤ b.base + b.size; omega, h.sz,
          fun h => absurd h ho, ?_⟩, ⟨rfl, rfl, rfl, rfl, hout⟩⟩
        intro _
        refine ⟨hbpos, ?_, hlabs, ?_, ?_⟩
        · show Holds (write mem b.wptr (opc ++ holder w)) _
            (fun x => x ∈ (l, b.wptr + (opc ++ holder w).length) :: b.patches) _ _
          rw [hend]
          exact hnew
        · intro x hx
          have hx : x ∈ (l, b.wptr + (opc ++ holder w).length) :: b.patches := hx
          rcases List.mem_cons.mp hx with hx | hx
          · subst hx
            exact ⟨⟨b.wptr, opc, w, hmem, hend⟩, hlk⟩
          · exact ⟨pending_append (hl.pend x hx).1, (hl.pend x hx).2⟩
        · show ((l, b.wptr + (opc ++ holder w).length) :: b.patches).Nodup
          refine List.nodup_cons.mpr ⟨?_, hl.nodup⟩
          intro hx
          have := hend_ne _ (hl.pend _ hx).1
          simp only at this
          omega
      | some d =>
        simp only
        have hd := hl.labs l d hlk
        have hdb := place_bound _ _ _ _ hd
        simp only [Item.len, Nat.add_zero] at hdb
        have hnear : Near (endOf b.wptr opc w) d := by
          have := h.hi
          have := h.sz
          unfold Near
          rw [← hend]
          omega
        have htag : write mem b.wptr (opc ++ holder w) (endOf b.wptr opc w - 1) = tag w :=
          (hnew _ _ hmem).2.1 (by simp)
        rw [hend]
        refine ⟨?_, ?_⟩
        · cases hpa : patchAt (write mem b.wptr (opc ++ holder w)) (endOf b.wptr opc w) d with
          | fatal => intro h; cases h
          | assert => exact absurd hpa (patchAt_assert htag)
          | ok m => intro h; cases h
        · intro mem' b' hm
          cases hpa : patchAt (write mem b.wptr (opc ++ holder w)) (endOf b.wptr opc w) d with
          | fatal => rw [hpa] at hm; cases hm
          | assert => rw [hpa] at hm; cases hm
          | ok m =>
            rw [hpa] at hm
            have hm := Res.ok.inj hm
            cases hm
            have hst := hnew.patch hmem (by simp) hlk hnear hpa
            rw [hend] at hbpos
            refine ⟨⟨by show b.base ≤ endOf b.wptr opc w; omega,
              by show endOf b.wptr opc w ≤ b.base + b.size; omega, h.sz,
              fun h => absurd h ho, ?_⟩, ⟨rfl, rfl, rfl, rfl, ?_⟩⟩
            · intro _
              refine ⟨hbpos, ?_, hlabs, ?_, hl.nodup⟩
              · intro p it hp
                have := hst.1 p it hp
                cases it with
                | bytes bs => exact this
                | label _ => trivial
                | branch o k w' =>
                  obtain ⟨c1, c2, c3⟩ := this
                  refine ⟨c1, ?_, ?_⟩
                  · intro hh
                    refine c2 ⟨List.mem_cons_of_mem _ hh, ?_⟩
                    intro heq
                    have hlt := hend_ne _ (hl.pend _ hh).1
                    have := congrArg Prod.snd heq
                    simp only at this hlt
                    omega
                  · intro hh
                    refine c3 ?_
                    rintro ⟨h1, h2⟩
                    rcases List.mem_cons.mp h1 with h1 | h1
                    · exact h2 h1
                    · exact hh h1
              · intro x hx; exact ⟨pending_append (hl.pend x hx).1, (hl.pend x hx).2⟩
            · intro a ha
              rw [hst.2 a (by unfold endOf at *; omega)]
              exact hout a ha

/-- The code of a finished blob is what its items say. -/
theorem Live.linked {mem : Nat → Nat} {b : Blob} (h : Live mem b) (hp : b.patches = []) :
    Linked mem b.base b.items := by
  intro p it hm
  have hi := h.holds p it hm
  cases it with
  | bytes bs => exact hi
  | label l => trivial
  | branch opc l w =>
    obtain ⟨c1, c2, c3⟩ := hi
    obtain ⟨d, hd, ht⟩ := c3 (by rw [hp]; simp)
    exact ⟨c1, d, h.labs l d hd, ht⟩

end Verif.Jit.Code
