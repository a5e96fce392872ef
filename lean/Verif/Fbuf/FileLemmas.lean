import Verif.Fbuf.FileModel
import Verif.Fbuf.VarintProps
import Verif.Fbuf.AdlerProps
import Verif.Fastlz.Props

/-! Helper lemmas for the file buffer round trip. -/

namespace Verif.Fbuf

theorem andff (n : Nat) : n &&& 0xff = n % 256 := by
  have := Nat.and_two_pow_sub_one_eq_mod n 8
  simpa using this

theorem or_shift (a b k : Nat) (h : b < 2 ^ k) : a <<< k ||| b = a * 2 ^ k + b := by
  rw [← Nat.shiftLeft_add_eq_or_of_lt h, Nat.shiftLeft_eq]

theorem unpackBE32_packBE32 (n : Nat) (h : n < 2 ^ 32) (l : List Nat) :
    unpackBE32 (packBE32 n ++ l) = some n := by
  simp only [packBE32, List.cons_append, List.nil_append, unpackBE32, andff,
    Nat.shiftRight_eq_div_pow, Option.some.injEq]
  rw [or_shift _ _ 8 (by omega), or_shift _ _ 8 (by omega), or_shift _ _ 16 (by omega)]
  omega

theorem packBE32_length (n : Nat) : (packBE32 n).length = 4 := rfl

theorem getLE_range (v : Nat) (rest : List Nat) : ∀ (k i acc : Nat), acc = v % 2 ^ (8 * i) →
    getLE k i acc ((List.range' i k).map (fun j => (v >>> (8 * j)) &&& 0xff) ++ rest)
      = .ok (v % 2 ^ (8 * (i + k))) rest := by
  intro k
  induction k with
  | zero => intro i acc h; simp [getLE, h]
  | succ k ih =>
    intro i acc h
    simp only [List.range'_succ, List.map_cons, List.cons_append, getLE]
    rw [ih (i + 1)]
    · rw [show i + 1 + k = i + (k + 1) by omega]
    · rw [andff, Nat.or_comm, or_shift _ _ _ (by rw [h]; exact Nat.mod_lt _ (Nat.two_pow_pos _)), h,
        show 8 * (i + 1) = 8 * i + 8 by omega, Nat.pow_add, Nat.mod_mul,
        Nat.shiftRight_eq_div_pow, Nat.mul_comm, Nat.add_comm]

theorem getLE_putLE (k v : Nat) (h : v < 2 ^ (8 * k)) (rest : List Nat) :
    getLE k 0 0 (putLE k v ++ rest) = .ok v rest := by
  unfold putLE
  rw [List.range_eq_range', getLE_range v rest k 0 0 (by simp [Nat.mod_one])]
  simp [Nat.mod_eq_of_lt h]

theorem readField_bytes (f : Field) (rest : List Nat) :
    readField f.kind (f.bytes ++ rest) = .ok f rest := by
  cases f with
  | u8 v => simp [readField, Field.kind, Field.bytes, getLE_putLE 1 _ v.isLt, Rd.map]
  | u16 v => simp [readField, Field.kind, Field.bytes, getLE_putLE 2 _ v.isLt, Rd.map]
  | u32 v => simp [readField, Field.kind, Field.bytes, getLE_putLE 4 _ v.isLt, Rd.map]
  | u64 v => simp [readField, Field.kind, Field.bytes, getLE_putLE 8 _ v.isLt, Rd.map]
  | double v => simp [readField, Field.kind, Field.bytes, getLE_putLE 8 _ v.isLt, Rd.map]
  | raw bs => simp [readField, Field.kind, Field.bytes]
  | uint v => simp [readField, Field.kind, Field.bytes, getUint_putUint _ v.isLt, Rd.map]
  | int v => simp [readField, Field.kind, Field.bytes, getInt_putInt, Rd.map]

theorem readFields_bytes (fs : List Field) (rest : List Nat) :
    readFields (fs.map Field.kind) (fs.flatMap Field.bytes ++ rest) = .ok fs rest := by
  induction fs with
  | nil => simp [readFields]
  | cons f fs ih =>
    simp only [List.map_cons, List.flatMap_cons, List.append_assoc, readFields, readField_bytes, ih,
      Rd.map]

/-- Raw data consists of bytes. -/
def Field.Valid : Field → Prop
  | .raw bs => IsBytes bs
  | _ => True

theorem putLE_length (k v : Nat) : (putLE k v).length = k := by simp [putLE]

theorem putLE_isBytes (k v : Nat) : IsBytes (putLE k v) := by
  intro b hb
  simp only [putLE, List.mem_map] at hb
  obtain ⟨i, _, rfl⟩ := hb
  rw [andff]; omega

theorem Field.bytes_isBytes (f : Field) (h : f.Valid) : IsBytes f.bytes := by
  cases f with
  | raw bs => exact h
  | uint v => exact putUint_bytes _
  | int v => exact putUint_bytes _
  | _ => exact putLE_isBytes _ _

theorem Field.bytes_length (f : Field) : f.bytes.length ≤ f.more := by
  cases f with
  | raw bs => exact Nat.le_refl _
  | uint v => exact (putUint_length _ v.isLt).2
  | int v => exact (putUint_length _ (zigzag v).isLt).2
  | _ => simp [Field.bytes, Field.more, putLE_length]

/-- Supported checksum configurations. -/
def Cs.Supported : Cs → Prop
  | .none => True
  | .adler impl => impl.Supported

/-- Writer invariant: `content` is what has been written so far (including padding). -/
structure WInv (w : Wr) (content : List Nat) : Prop where
  content_eq : w.blocks.flatten ++ w.pend = content
  bytes : IsBytes content
  pend_le : w.pend.length ≤ blockSize
  blocks_ok : ∀ b ∈ w.blocks, 1 ≤ b.length ∧ b.length ≤ blockSize
  total : w.wtotal = w.blocks.flatten.length
  sum_eq : w.sum = w.blocks.foldl w.cs.update adlerInit

theorem openOut_inv (zip : Zip) (cs : Cs) : WInv (openOut zip cs) [] := by
  constructor
  · rfl
  · intro b hb; simp at hb
  · simp [openOut]
  · intro b hb; simp [openOut] at hb
  · rfl
  · rfl

/-- The zero bytes a flush inserts. -/
def pad (w : Wr) (more : Nat) : List Nat :=
  if w.pend.length + more > blockSize ∧ w.zip = .fastlz ∧ w.pend.length < 16 then
    List.replicate (16 - w.pend.length) 0
  else []

theorem maybeFlush_inv (w : Wr) (content : List Nat) (h : WInv w content) (more : Nat)
    (hm : more ≤ blockSize) :
    WInv (maybeFlush w more) (content ++ pad w more) ∧
      (maybeFlush w more).pend.length + more ≤ blockSize ∧
      (maybeFlush w more).zip = w.zip ∧ (maybeFlush w more).cs = w.cs := by
  have hbs : blockSize = 61440 := rfl
  unfold maybeFlush
  by_cases hc : w.pend.length + more > blockSize
  · rw [if_pos hc]
    dsimp only
    have hp : (if w.zip = .fastlz ∧ w.pend.length < 16 then
        w.pend ++ List.replicate (16 - w.pend.length) 0 else w.pend) = w.pend ++ pad w more := by
      unfold pad
      by_cases h2 : w.zip = .fastlz ∧ w.pend.length < 16
      · rw [if_pos h2, if_pos ⟨hc, h2⟩]
      · rw [if_neg h2, if_neg (fun h3 => h2 h3.2)]; simp
    rw [hp]
    have hpadl : (w.pend ++ pad w more).length ≤ blockSize := by
      rw [List.length_append]
      have := h.pend_le
      unfold pad
      split
      · simp; omega
      · simp; omega
    have hpb : IsBytes (pad w more) := by
      unfold pad
      split
      · intro b hb; simp at hb; omega
      · intro b hb; simp at hb
    refine ⟨⟨?_, ?_, ?_, ?_, ?_, ?_⟩, by simpa using hm, by simp, by simp⟩
    · simp [← h.content_eq]
    · exact h.bytes.append hpb
    · simp
    · intro b hb
      rw [List.mem_append, List.mem_singleton] at hb
      rcases hb with hb | rfl
      · exact h.blocks_ok b hb
      · exact ⟨by rw [List.length_append]; omega, hpadl⟩
    · simp [h.total, ← Nat.add_assoc]
    · simp [h.sum_eq, List.foldl_append]
  · rw [if_neg hc]
    have hp : pad w more = [] := by
      unfold pad; rw [if_neg (fun h3 => hc h3.1)]
    rw [hp, List.append_nil]
    exact ⟨h, by omega, rfl, rfl⟩

theorem pad_nil (w : Wr) (more : Nat) (h : w.zip ≠ .fastlz ∨ more + 15 ≤ blockSize) :
    pad w more = [] := by
  unfold pad
  rw [if_neg]
  rintro ⟨h1, h2, h3⟩
  rcases h with h | h
  · exact h h2
  · omega

theorem writeField_inv (w : Wr) (content : List Nat) (h : WInv w content) (f : Field)
    (hv : f.Valid) (hm : f.more ≤ blockSize) :
    ∃ w', writeField w f = some w' ∧ WInv w' (content ++ pad w f.more ++ f.bytes) ∧
      w'.zip = w.zip ∧ w'.cs = w.cs := by
  obtain ⟨h1, h2, h3, h4⟩ := maybeFlush_inv w content h f.more hm
  refine ⟨{ maybeFlush w f.more with pend := (maybeFlush w f.more).pend ++ f.bytes },
    by unfold writeField; rw [if_pos hm], ?_, h3, h4⟩
  have hl := f.bytes_length
  constructor
  · simp only [← h1.content_eq, List.append_assoc]
  · exact h1.bytes.append (f.bytes_isBytes hv)
  · simp only [List.length_append]; omega
  · exact h1.blocks_ok
  · exact h1.total
  · exact h1.sum_eq

theorem writeFields_inv (fs : List Field) :
    ∀ (w : Wr) (content : List Nat), WInv w content → (∀ f ∈ fs, f.Valid) →
      (∀ f ∈ fs, f.more ≤ blockSize) →
      (w.zip = .fastlz → ∀ f ∈ fs, f.more + 15 ≤ blockSize) →
      ∃ w', writeFields w fs = some w' ∧ WInv w' (content ++ fs.flatMap Field.bytes) ∧
        w'.zip = w.zip ∧ w'.cs = w.cs := by
  induction fs with
  | nil => intro w content h _ _ _; exact ⟨w, rfl, by simpa using h, rfl, rfl⟩
  | cons f fs ih =>
    intro w content h hv hm hf
    obtain ⟨w', e1, e2, e3, e4⟩ := writeField_inv w content h f (hv f (by simp)) (hm f (by simp))
    rw [pad_nil] at e2
    · rw [List.append_nil] at e2
      obtain ⟨w'', g1, g2, g3, g4⟩ := ih w' _ e2 (fun x hx => hv x (by simp [hx]))
        (fun x hx => hm x (by simp [hx])) (fun hz x hx => hf (e3 ▸ hz) x (by simp [hx]))
      refine ⟨w'', ?_, ?_, by rw [g3, e3], by rw [g4, e4]⟩
      · simp only [writeFields, e1, g1]
      · simpa using g2
    · by_cases hz : w.zip = .fastlz
      · exact Or.inr (hf hz f (by simp))
      · exact Or.inl hz

/-! ### Checksums -/

theorem finish_eq (cs cs' : Cs) (hb : cs.byte = cs'.byte) (h : cs.Supported)
    (h' : cs'.Supported) (a b : List (List Nat)) (hab : a.flatten = b.flatten)
    (hbytes : IsBytes a.flatten) :
    cs.finish (a.foldl cs.update adlerInit) = cs'.finish (b.foldl cs'.update adlerInit) ∧
      cs.finish (a.foldl cs.update adlerInit) < 2 ^ 32 := by
  have sub : ∀ (x : List (List Nat)), IsBytes x.flatten → ∀ c ∈ x, IsBytes c := by
    intro x hx c hc b hb
    exact hx b (List.mem_flatten.2 ⟨c, hc, hb⟩)
  cases cs with
  | none =>
    cases cs' with
    | none => simp [Cs.finish]
    | adler i => simp [Cs.byte] at hb
  | adler i =>
    cases cs' with
    | none => simp [Cs.byte] at hb
    | adler i' =>
      have e1 := checksum_eq_adler32 i h a (sub a hbytes)
      have e2 := checksum_eq_adler32 i' h' b (sub b (hab ▸ hbytes))
      show checksumFinish (a.foldl (checksumUpdate i) adlerInit)
        = checksumFinish (b.foldl (checksumUpdate i') adlerInit) ∧
        checksumFinish (a.foldl (checksumUpdate i) adlerInit) < 2 ^ 32
      unfold checksumOf at e1 e2
      rw [e1, e2, hab]
      refine ⟨rfl, ?_⟩
      unfold adler32Spec
      omega

/-! ### Reading back -/

theorem unpackBlocks_spec (al : Fastlz.Align) (cs : Cs) (origsz : Nat) (tail : List Nat)
    (blocks : List (List Nat)) :
    ∀ (fuel : Nat) (dst : List Nat) (sum : Adler), blocks.length < fuel →
      (∀ b ∈ blocks, 1 ≤ b.length ∧ b.length ≤ blockSize ∧ IsBytes b) →
      dst.length + blocks.flatten.length = origsz →
      unpackBlocks al cs origsz fuel dst sum (blocks.flatMap blockBytes ++ tail) =
        some (some (dst ++ blocks.flatten, blocks.foldl cs.update sum)) := by
  induction blocks with
  | nil =>
    intro fuel dst sum hf _ hl
    obtain ⟨f, rfl⟩ : ∃ f, fuel = f + 1 := ⟨fuel - 1, by simp at hf; omega⟩
    simp only [unpackBlocks]
    rw [if_neg (by simp at hl; omega)]
    simp
  | cons b bs ih =>
    intro fuel dst sum hf hb hl
    obtain ⟨f, rfl⟩ : ∃ f, fuel = f + 1 := ⟨fuel - 1, by simp at hf; omega⟩
    obtain ⟨hb1, hb2, hb3⟩ := hb b (by simp)
    rw [List.flatten_cons, List.length_append] at hl
    have hbs : blockSize = 61440 := rfl
    have hne : b ≠ [] := by intro hc; simp [hc] at hb1
    have hlen := Fastlz.compress_length b hb3 hne
    have hdec := Fastlz.decompress_compress al b hb3 hne spillSize
      (by show b.length ≤ 65536; omega)
    simp only [unpackBlocks]
    rw [if_pos (by omega)]
    have hstr : (b :: bs).flatMap blockBytes ++ tail =
        packBE32 (Fastlz.compress b).length ++
          (Fastlz.compress b ++ (bs.flatMap blockBytes ++ tail)) := by
      simp [blockBytes]
    rw [hstr, unpackBE32_packBE32 _ (by omega)]
    dsimp only
    rw [if_neg (by show ¬ _ > 65536; omega)]
    rw [List.drop_left' (packBE32_length _)]
    rw [if_neg (by rw [List.length_append]; omega), List.take_left, hdec]
    dsimp only
    rw [if_neg (by omega), if_neg (by omega), List.drop_left,
      ih f (dst ++ b) (cs.update sum b) (by simp at hf ⊢; omega)
        (fun x hx => hb x (by simp [hx])) (by rw [List.length_append]; omega)]
    simp

/-- What the theorems assume of ZSTD. -/
def Zstd.Lossless (z : Zstd) : Prop :=
  z.dec [] = some [] ∧
  ∀ blocks : List (List Nat), blocks ≠ [] → (∀ b ∈ blocks, IsBytes b) →
    z.dec (z.enc blocks) = some blocks.flatten

theorem open_close (z : Zstd) (hz : z.Lossless) (al : Fastlz.Align) (w : Wr)
    (content : List Nat) (hw : WInv w content) (cs' : Cs) (hcb : cs'.byte = w.cs.byte)
    (hs : w.cs.Supported) (hs' : cs'.Supported)
    (hsz : content.length + 16 < 2 ^ 32) (hfile : (closeOut z w).length < 2 ^ 32) :
    ∃ r, openIn z al cs' (closeOut z w) = .ok r ∧ r.rbuf = content ++ pad w blockSize ∧
      closeIn r = true := by
  obtain ⟨h1, h2, h3, h4⟩ := maybeFlush_inv w content hw blockSize (Nat.le_refl _)
  have hpad : (pad w blockSize).length ≤ 16 := by
    unfold pad; split <;> simp
  unfold closeOut at hfile ⊢
  dsimp only at hfile ⊢
  rw [h3, h4] at hfile ⊢
  generalize maybeFlush w blockSize = v at *
  have hpend : v.pend = [] := List.eq_nil_of_length_eq_zero (by omega)
  have hflat : v.blocks.flatten = content ++ pad w blockSize := by
    have := h1.content_eq; rwa [hpend, List.append_nil] at this
  have hbytes : IsBytes v.blocks.flatten := by rw [hflat]; exact h1.bytes
  have htot : v.wtotal < 2 ^ 32 := by
    rw [h1.total, hflat, List.length_append]; omega
  have hsum := h1.sum_eq
  rw [h4] at hsum
  have hblk : ∀ b ∈ v.blocks, IsBytes b := fun b hb c hc =>
    hbytes c (List.mem_flatten.2 ⟨b, hb, hc⟩)
  obtain ⟨f1, f2⟩ := finish_eq w.cs cs' hcb.symm hs hs' v.blocks [v.blocks.flatten] (by simp) hbytes
  obtain ⟨f3, _⟩ := finish_eq w.cs cs' hcb.symm hs hs' v.blocks v.blocks rfl hbytes
  have hcs : w.cs.finish v.sum < 2 ^ 32 := by rw [hsum]; exact f2
  simp only [List.length_append, packBE32_length, List.length_cons, List.length_nil] at hfile
  have hlen3 : 20 + (payload z v).length < 2 ^ 32 := by omega
  simp only [List.cons_append, List.nil_append, List.append_assoc, openIn]
  rw [if_neg (by simp [hcb]), if_neg (by simp), unpackBE32_packBE32 _ htot,
    List.drop_left' (packBE32_length _), unpackBE32_packBE32 _ hcs]
  rw [show ∀ x y : List Nat, (packBE32 v.wtotal ++ (x ++ y)).drop 8 =
      ((packBE32 v.wtotal ++ (x ++ y)).drop 4).drop 4 from by intros; simp,
    List.drop_left' (packBE32_length _), List.drop_left' (packBE32_length _),
    unpackBE32_packBE32 _ hlen3]
  dsimp only
  rw [if_neg (by simp only [List.length_cons, List.length_append, packBE32_length]; omega)]
  have hpl : List.drop 20 (List.take (20 + (payload z v).length)
      (70 :: 66 :: 85 :: 70 :: w.zip.byte :: w.cs.byte :: 20 :: 0 ::
        (packBE32 v.wtotal ++ (packBE32 (w.cs.finish v.sum) ++
          (packBE32 (20 + (payload z v).length) ++ payload z v))))) = payload z v := by
    rw [List.take_of_length_le (by simp only [List.length_cons, List.length_append, packBE32_length]; omega)]
    rfl
  rw [hpl]
  cases hzip : w.zip with
  | none =>
    rw [show Zip.none.byte = 45 from rfl, if_neg (by omega), if_pos rfl]
    have hp : payload z v = v.blocks.flatten := by unfold payload; rw [h3, hzip]
    rw [hp, if_neg (by rw [h1.total]; omega)]
    refine ⟨_, rfl, ?_, ?_⟩
    · show List.take _ _ = _
      rw [h1.total, List.take_length, hflat]
    · unfold closeIn
      simp only [decide_eq_true_eq]
      rw [h1.total, List.take_length, hsum, f1]
      rfl
  | fastlz =>
    rw [show Zip.fastlz.byte = 70 from rfl, if_pos rfl]
    have hp : payload z v = v.blocks.flatMap blockBytes ++ [] := by
      unfold payload; rw [h3, hzip, List.append_nil]
    have hcnt : v.blocks.length ≤ v.blocks.flatten.length := by
      have := h1.blocks_ok
      clear hp hpl hlen3 hfile f1 f2 f3 hsum hblk htot hbytes hflat
      generalize v.blocks = bl at this
      induction bl with
      | nil => simp
      | cons b bl ih =>
        have a := ih (fun x hx => this x (by simp [hx]))
        have := (this b (by simp)).1
        simp only [List.length_cons, List.flatten_cons, List.length_append]
        omega
    rw [hp, unpackBlocks_spec al cs' v.wtotal [] v.blocks (v.wtotal + 1) [] adlerInit
      (by rw [h1.total]; omega)
      (fun b hb => ⟨(h1.blocks_ok b hb).1, (h1.blocks_ok b hb).2, hblk b hb⟩)
      (by rw [h1.total]; simp)]
    refine ⟨_, rfl, ?_, ?_⟩
    · simpa using hflat
    · unfold closeIn
      simp only [decide_eq_true_eq]
      rw [hsum, f3]
  | zstd =>
    rw [show Zip.zstd.byte = 90 from rfl, if_neg (by omega), if_neg (by omega), if_pos rfl]
    have hp : z.dec (payload z v) = some v.blocks.flatten := by
      unfold payload
      rw [h3, hzip]
      dsimp only
      split
      · rename_i he; rw [he]; exact hz.1
      · rename_i he; exact hz.2 _ he hblk
    rw [hp]
    dsimp only
    rw [if_neg (by rw [h1.total]; simp)]
    refine ⟨_, rfl, hflat, ?_⟩
    unfold closeIn
    simp only [decide_eq_true_eq]
    rw [hsum, f1]
    rfl

end Verif.Fbuf
