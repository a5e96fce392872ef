/-
C70: bytes written in base64 and numbers written in packets can be read back.
-/
import Verif.Net.TextModel
import Verif.Net.WsProps

namespace Verif.Net

/-! ### Base64 (RFC 4648, section 4) -/

/-- The number a character stands for. -/
def sextet (c : Char) : Option Nat :=
  if 'A' ≤ c ∧ c ≤ 'Z' then some (c.toNat - 'A'.toNat)
  else if 'a' ≤ c ∧ c ≤ 'z' then some (c.toNat - 'a'.toNat + 26)
  else if '0' ≤ c ∧ c ≤ '9' then some (c.toNat - '0'.toNat + 52)
  else if c = '+' then some 62
  else if c = '/' then some 63
  else none

/-- The last four characters: one byte, two bytes or three; unused bits are
    zero. -/
def lastGroup (p q r s : Char) : Option (List UInt8) :=
  match sextet p, sextet q with
  | some x, some y =>
    if s = '=' then
      if r = '=' then if y % 16 = 0 then some [UInt8.ofNat (x * 4 + y / 16)] else none
      else
        match sextet r with
        | some z =>
          if z % 4 = 0 then some [UInt8.ofNat (x * 4 + y / 16), UInt8.ofNat (y % 16 * 16 + z / 4)] else none
        | none => none
    else
      match sextet r, sextet s with
      | some z, some w =>
        some [UInt8.ofNat (x * 4 + y / 16), UInt8.ofNat (y % 16 * 16 + z / 4), UInt8.ofNat (z % 4 * 64 + w)]
      | _, _ => none
  | _, _ => none

/-- The bytes that a text in base64 stands for. -/
def unbase64 : List Char → Option (List UInt8)
  | [] => some []
  | p :: q :: r :: s :: t =>
    if t = [] then lastGroup p q r s
    else if s = '=' then none
    else
      match lastGroup p q r s, unbase64 t with
      | some a, some b => some (a ++ b)
      | _, _ => none
  | _ => none

theorem sextet_digit {n : Nat} (h : n < 64) : sextet (digit n) = some n := by
  have h1 : ∀ k : Fin 64, sextet (digit k) = some k.val := by decide +kernel
  exact h1 ⟨n, h⟩

theorem digit_ne {n : Nat} (h : n < 64) : digit n ≠ '=' := by
  have h1 : ∀ k : Fin 64, digit k ≠ '=' := by decide +kernel
  exact h1 ⟨n, h⟩

theorem or_16 (a b : Nat) : a * 16 % 64 ||| b / 16 % 16 = a % 4 * 16 + b / 16 % 16 := by
  have h1 : ∀ (p : Fin 4) (q : Fin 16), (p.val * 16 ||| q.val) = p.val * 16 + q.val := by decide +kernel
  have h2 := h1 ⟨a % 4, by omega⟩ ⟨b / 16 % 16, by omega⟩
  dsimp only at h2
  rw [show a * 16 % 64 = a % 4 * 16 by omega]
  exact h2

theorem or_4 (b c : Nat) : b * 4 % 64 ||| c / 64 % 4 = b % 16 * 4 + c / 64 % 4 := by
  have h1 : ∀ (p : Fin 16) (q : Fin 4), (p.val * 4 ||| q.val) = p.val * 4 + q.val := by decide +kernel
  have h2 := h1 ⟨b % 16, by omega⟩ ⟨c / 64 % 4, by omega⟩
  dsimp only at h2
  rw [show b * 4 % 64 = b % 16 * 4 by omega]
  exact h2

theorem group1 (a : UInt8) :
    lastGroup (digit (a.toNat / 4 % 64)) (digit (a.toNat * 16 % 64)) '=' '=' = some [a] := by
  have ha := a.toNat_lt
  unfold lastGroup
  rw [sextet_digit (by omega), sextet_digit (by omega)]
  simp only [if_true]
  rw [if_pos (by omega), show a.toNat / 4 % 64 * 4 + a.toNat * 16 % 64 / 16 = a.toNat by omega]
  simp

theorem group2 (a b : UInt8) :
    lastGroup (digit (a.toNat / 4 % 64)) (digit (a.toNat * 16 % 64 ||| b.toNat / 16 % 16))
      (digit (b.toNat * 4 % 64)) '=' = some [a, b] := by
  have ha := a.toNat_lt
  have hb := b.toNat_lt
  unfold lastGroup
  rw [or_16, sextet_digit (by omega), sextet_digit (by omega), sextet_digit (by omega)]
  simp only [if_true]
  rw [if_neg (digit_ne (by omega)), if_pos (by omega),
    show a.toNat / 4 % 64 * 4 + (a.toNat % 4 * 16 + b.toNat / 16 % 16) / 16 = a.toNat by omega,
    show (a.toNat % 4 * 16 + b.toNat / 16 % 16) % 16 * 16 + b.toNat * 4 % 64 / 4 = b.toNat by omega]
  simp

theorem group3 (a b c : UInt8) :
    lastGroup (digit (a.toNat / 4 % 64)) (digit (a.toNat * 16 % 64 ||| b.toNat / 16 % 16))
      (digit (b.toNat * 4 % 64 ||| c.toNat / 64 % 4)) (digit (c.toNat % 64)) = some [a, b, c] := by
  have ha := a.toNat_lt
  have hb := b.toNat_lt
  have hc := c.toNat_lt
  unfold lastGroup
  rw [or_16, or_4, sextet_digit (by omega), sextet_digit (by omega), sextet_digit (by omega),
    sextet_digit (by omega)]
  dsimp only
  rw [if_neg (digit_ne (by omega)),
    show a.toNat / 4 % 64 * 4 + (a.toNat % 4 * 16 + b.toNat / 16 % 16) / 16 = a.toNat by omega,
    show (a.toNat % 4 * 16 + b.toNat / 16 % 16) % 16 * 16 + (b.toNat % 16 * 4 + c.toNat / 64 % 4) / 4 = b.toNat by omega,
    show (b.toNat % 16 * 4 + c.toNat / 64 % 4) % 4 * 64 + c.toNat % 64 = c.toNat by omega]
  simp

/-- The characters for the bytes of one round. -/
def groupOf : List UInt8 → List Char
  | [] => []
  | [a] => [digit (a.toNat / 4 % 64), digit (a.toNat * 16 % 64), '=', '=']
  | [a, b] =>
    [digit (a.toNat / 4 % 64), digit (a.toNat * 16 % 64 ||| b.toNat / 16 % 16),
     digit (b.toNat * 4 % 64), '=']
  | a :: b :: c :: _ =>
    [digit (a.toNat / 4 % 64), digit (a.toNat * 16 % 64 ||| b.toNat / 16 % 16),
     digit (b.toNat * 4 % 64 ||| c.toNat / 64 % 4), digit (c.toNat % 64)]

theorem byteAt_drop {data : List UInt8} {i j : Nat} {b : UInt8} {l : List UInt8}
    (h : data.drop i = l) (hj : l[j]? = some b) : byteAt data (i + j) = b.toNat := by
  unfold byteAt
  rw [List.getD_eq_getElem?_getD, ← List.getElem?_drop, h, hj]
  rfl

theorem base64Loop_group (data : List UInt8) (n i : Nat) (h : i < data.length) :
    base64Loop data (n + 1) i = groupOf (data.drop i) ++ base64Loop data n (i + 3) := by
  have hlen : (data.drop i).length = data.length - i := by simp
  generalize hd : data.drop i = l at *
  conv => lhs; unfold base64Loop
  rw [if_pos h]
  match l with
  | [] => simp at hlen; omega
  | [a] =>
    have h0 := byteAt_drop (j := 0) hd rfl
    simp only [List.length_cons, List.length_nil] at hlen
    simp only [Nat.add_zero] at h0
    have h1 : ¬ i + 1 < data.length := by omega
    have h2 : ¬ i + 2 < data.length := by omega
    simp only [h0, h1, h2, if_false, groupOf]
  | [a, b] =>
    have h0 := byteAt_drop (j := 0) hd rfl
    have h1' := byteAt_drop (j := 1) hd rfl
    simp only [List.length_cons, List.length_nil] at hlen
    simp only [Nat.add_zero] at h0
    have h1 : i + 1 < data.length := by omega
    have h2 : ¬ i + 2 < data.length := by omega
    simp only [h0, h1', h1, h2, if_false, if_true, groupOf]
  | a :: b :: c :: l =>
    have h0 := byteAt_drop (j := 0) hd rfl
    have h1' := byteAt_drop (j := 1) hd rfl
    have h2' := byteAt_drop (j := 2) hd rfl
    simp only [List.length_cons] at hlen
    simp only [Nat.add_zero] at h0
    have h1 : i + 1 < data.length := by omega
    have h2 : i + 2 < data.length := by omega
    simp only [h0, h1', h2', h1, h2, if_true, groupOf]

theorem base64Loop_end (data : List UInt8) (n i : Nat) (h : data.length ≤ i) :
    base64Loop data n i = [] := by
  cases n with
  | zero => rfl
  | succ n => unfold base64Loop; rw [if_neg (by omega)]

theorem unbase64_loop (data : List UInt8) (n : Nat) : ∀ i, data.length - i < n →
    unbase64 (base64Loop data n i) = some (data.drop i) := by
  induction n with
  | zero => intro i h; omega
  | succ n ih =>
    intro i hn
    by_cases h : i < data.length
    · rw [base64Loop_group data n i h]
      have hlen : (data.drop i).length = data.length - i := by simp
      have hrest : data.drop (i + 3) = (data.drop i).drop 3 := by rw [List.drop_drop]
      generalize data.drop i = l at *
      match l with
      | [] => simp at hlen; omega
      | [a] =>
        simp only [List.length_cons, List.length_nil] at hlen
        rw [base64Loop_end data n _ (by omega)]
        simp only [groupOf, List.append_nil, unbase64, if_true]
        exact group1 a
      | [a, b] =>
        simp only [List.length_cons, List.length_nil] at hlen
        rw [base64Loop_end data n _ (by omega)]
        simp only [groupOf, List.append_nil, unbase64, if_true]
        exact group2 a b
      | a :: b :: c :: l =>
        simp only [List.length_cons] at hlen
        have h1 := ih (i + 3) (by omega)
        rw [hrest] at h1
        simp only [List.drop_succ_cons, List.drop_zero] at h1
        simp only [groupOf, List.cons_append, List.nil_append]
        unfold unbase64
        split
        · rename_i h2
          rw [h2] at h1
          simp only [unbase64, Option.some.injEq] at h1
          rw [group3, ← h1]
        · rw [if_neg (digit_ne (by omega)), group3, h1]
          rfl
    · rw [base64Loop_end data _ i (by omega), List.drop_eq_nil_of_le (by omega)]
      rfl

/-- What `base64_encode` writes stands for the bytes it was given. -/
theorem base64_round_trip (data : List UInt8) : unbase64 (base64 data) = some data := by
  have := unbase64_loop data (data.length + 1) 0 (by omega)
  rwa [List.drop_zero] at this

theorem base64Loop_length (data : List UInt8) (n : Nat) : ∀ i, data.length - i < n →
    (base64Loop data n i).length = (data.length - i + 2) / 3 * 4 := by
  induction n with
  | zero => intro i h; omega
  | succ n ih =>
    intro i hn
    unfold base64Loop
    split
    · rw [List.length_append, ih (i + 3) (by omega)]
      simp only [List.length_cons, List.length_nil]
      omega
    · rw [List.length_nil]
      omega

/-- It writes four characters for every three bytes or part of them. -/
theorem base64_length (data : List UInt8) : (base64 data).length = (data.length + 2) / 3 * 4 := by
  have := base64Loop_length data (data.length + 1) 0 (by omega)
  rwa [Nat.sub_zero] at this

example : base64 [0x6e, 0x76, 0x63, 0x21] = "bnZjIQ==".toList := by decide +kernel

/-! ### Packets -/

/-- How a field is written: the most significant byte first, and a string after
    its length. -/
def Coded : Field → List UInt8 → Prop
  | .u8 v, bs => bs.length = 1 ∧ bigEndian bs = v
  | .u16 v, bs => bs.length = 2 ∧ bigEndian bs = v
  | .u32 v, bs => bs.length = 4 ∧ bigEndian bs = v
  | .u64 v, bs => bs.length = 8 ∧ bigEndian bs = v
  | .str s, bs => ∃ l : List UInt8, l.length = 2 ∧ bigEndian l = s.length ∧ bs = l ++ s

/-- The numbers have as many bits as they may, and the strings are not too
    long. -/
def Fits : Field → Prop
  | .u8 v => v < 2 ^ 8
  | .u16 v => v < 2 ^ 16
  | .u32 v => v < 2 ^ 32
  | .u64 v => v < 2 ^ 64
  | .str s => s.length < 65535

theorem pbPuts_ok (bs : List UInt8) : ∀ (pb : Packet), pb.data.length + bs.length ≤ pb.alloc →
    pbPuts pb bs = some { pb with data := pb.data ++ bs } := by
  induction bs with
  | nil => intro pb _; simp [pbPuts]
  | cons b bs ih =>
    intro pb h
    simp only [List.length_cons] at h
    rw [pbPuts, pbPut, if_pos (by omega)]
    simp only [Option.bind_some]
    rw [ih]
    · simp
    · simp only [List.length_append, List.length_cons, List.length_nil]
      omega

theorem pbGrow_ok (pb : Packet) (n : Nat) (h : pb.data.length ≤ pb.alloc) :
    (pbGrow pb n).data = pb.data ∧ pb.data.length + n ≤ (pbGrow pb n).alloc := by
  unfold pbGrow
  split
  · exact ⟨rfl, by dsimp only; omega⟩
  · exact ⟨rfl, by omega⟩

theorem grow_puts (pb : Packet) (bs : List UInt8) (h : pb.data.length ≤ pb.alloc) :
    ∃ pb', pbPuts (pbGrow pb bs.length) bs = some pb' ∧ pb'.data = pb.data ++ bs ∧
      pb'.data.length ≤ pb'.alloc := by
  obtain ⟨h1, h2⟩ := pbGrow_ok pb bs.length h
  refine ⟨_, pbPuts_ok bs _ (by rw [h1]; exact h2), by dsimp only; rw [h1], ?_⟩
  dsimp only
  rw [h1, List.length_append]
  exact h2

theorem bytes1 {v : Nat} (h : v < 2 ^ 8) : bigEndian [UInt8.ofNat v] = v := by
  simp only [bigEndian, List.foldl_cons, List.foldl_nil, UInt8.toNat_ofNat']
  omega

theorem bytes2 {v : Nat} (h : v < 2 ^ 16) :
    bigEndian [UInt8.ofNat (v / 2 ^ 8), UInt8.ofNat (v % 256)] = v := by
  simp only [bigEndian, List.foldl_cons, List.foldl_nil, UInt8.toNat_ofNat']
  omega

theorem bytes4 {v : Nat} (h : v < 2 ^ 32) :
    bigEndian [UInt8.ofNat (v / 2 ^ 24 % 256), UInt8.ofNat (v / 2 ^ 16 % 256),
      UInt8.ofNat (v / 2 ^ 8 % 256), UInt8.ofNat (v % 256)] = v := by
  simp only [bigEndian, List.foldl_cons, List.foldl_nil, UInt8.toNat_ofNat']
  omega

theorem bigEndian_append (a b : List UInt8) :
    bigEndian (a ++ b) = bigEndian a * 256 ^ b.length + bigEndian b := by
  have key : ∀ (b : List UInt8) (x : Nat),
      b.foldl (fun a b => a * 256 + b.toNat) x = x * 256 ^ b.length + bigEndian b := by
    intro b
    induction b with
    | nil => intro x; simp [bigEndian]
    | cons c b ih =>
      intro x
      have h1 : bigEndian (c :: b) = (0 * 256 + c.toNat) * 256 ^ b.length + bigEndian b := by
        conv => lhs; unfold bigEndian
        rw [List.foldl_cons, ih]
      rw [List.foldl_cons, ih, h1, List.length_cons, Nat.pow_succ, Nat.zero_mul, Nat.zero_add,
        Nat.add_mul, Nat.mul_assoc x, Nat.mul_comm 256, Nat.add_assoc]
  conv => lhs; unfold bigEndian
  rw [List.foldl_append, key]
  rfl

theorem bytes8 {v : Nat} (h : v < 2 ^ 64) :
    bigEndian [UInt8.ofNat (v / 2 ^ 56 % 256), UInt8.ofNat (v / 2 ^ 48 % 256),
      UInt8.ofNat (v / 2 ^ 40 % 256), UInt8.ofNat (v / 2 ^ 32 % 256),
      UInt8.ofNat (v / 2 ^ 24 % 256), UInt8.ofNat (v / 2 ^ 16 % 256),
      UInt8.ofNat (v / 2 ^ 8 % 256), UInt8.ofNat (v % 256)] = v := by
  have h1 := bytes4 (v := v / 2 ^ 32) (by omega)
  have h2 := bytes4 (v := v % 2 ^ 32) (by omega)
  have e1 : v / 2 ^ 32 / 2 ^ 24 = v / 2 ^ 56 := by rw [Nat.div_div_eq_div_mul]
  have e2 : v / 2 ^ 32 / 2 ^ 16 = v / 2 ^ 48 := by rw [Nat.div_div_eq_div_mul]
  have e3 : v / 2 ^ 32 / 2 ^ 8 = v / 2 ^ 40 := by rw [Nat.div_div_eq_div_mul]
  have e4 : v % 2 ^ 32 / 2 ^ 24 % 256 = v / 2 ^ 24 % 256 := by omega
  have e5 : v % 2 ^ 32 / 2 ^ 16 % 256 = v / 2 ^ 16 % 256 := by omega
  have e6 : v % 2 ^ 32 / 2 ^ 8 % 256 = v / 2 ^ 8 % 256 := by omega
  have e7 : v % 2 ^ 32 % 256 = v % 256 := by omega
  rw [e1, e2, e3] at h1
  rw [e4, e5, e6, e7] at h2
  have h3 := bigEndian_append
    [UInt8.ofNat (v / 2 ^ 56 % 256), UInt8.ofNat (v / 2 ^ 48 % 256),
      UInt8.ofNat (v / 2 ^ 40 % 256), UInt8.ofNat (v / 2 ^ 32 % 256)]
    [UInt8.ofNat (v / 2 ^ 24 % 256), UInt8.ofNat (v / 2 ^ 16 % 256),
      UInt8.ofNat (v / 2 ^ 8 % 256), UInt8.ofNat (v % 256)]
  rw [h1, h2] at h3
  rw [List.cons_append, List.cons_append, List.cons_append, List.cons_append, List.nil_append] at h3
  rw [h3]
  simp only [List.length_cons, List.length_nil]
  omega

/-- What it is to add some bytes to a packet. -/
def Adds (pb : Packet) (r : Option Packet) (bs : List UInt8) : Prop :=
  ∃ pb', r = some pb' ∧ pb'.data = pb.data ++ bs ∧ pb'.data.length ≤ pb'.alloc

theorem grow_adds (pb : Packet) (n : Nat) (bs : List UInt8) (hn : bs.length = n)
    (h : pb.data.length ≤ pb.alloc) : Adds pb (pbPuts (pbGrow pb n) bs) bs := by
  subst hn
  exact grow_puts pb bs h

theorem packU16_adds (pb : Packet) (v : Nat) (h : pb.data.length ≤ pb.alloc) :
    Adds pb (packU16 pb v) [UInt8.ofNat (v / 2 ^ 8), UInt8.ofNat (v % 256)] :=
  grow_adds pb 2 _ rfl h

theorem packBytes_adds (pb : Packet) (bs : List UInt8) (h : pb.data.length ≤ pb.alloc) :
    Adds pb (packBytes pb bs) bs := by
  obtain ⟨g1, g2⟩ := pbGrow_ok pb bs.length h
  refine ⟨{ (pbGrow pb bs.length) with data := (pbGrow pb bs.length).data ++ bs }, ?_, ?_, ?_⟩
  · unfold packBytes
    dsimp only
    rw [if_pos (by rw [g1]; exact g2)]
  · dsimp only
    rw [g1]
  · dsimp only
    rw [g1, List.length_append]
    exact g2

theorem packStr_adds (debug : Bool) (pb : Packet) (s : List UInt8) (h : pb.data.length ≤ pb.alloc)
    (hs : debug = true → s.length < 65535) :
    Adds pb (packStr debug pb s)
      ([UInt8.ofNat (s.length % 65536 / 2 ^ 8), UInt8.ofNat (s.length % 65536 % 256)] ++ s) := by
  have hne : ¬ (debug && decide (s.length ≥ 65535)) = true := by
    rw [Bool.and_eq_true, decide_eq_true_eq]
    rintro ⟨h1, h2⟩
    have := hs h1
    omega
  unfold packStr
  rw [if_neg hne]
  obtain ⟨pb1, e1, e2, e3⟩ := packU16_adds pb (s.length % 65536) h
  obtain ⟨pb2, g1, g2, g3⟩ := packBytes_adds pb1 s e3
  refine ⟨pb2, ?_, ?_, g3⟩
  · rw [e1, Option.bind_some, g1]
  · rw [g2, e2, List.append_assoc]

theorem packField_ok (debug : Bool) (pb : Packet) (f : Field) (h : pb.data.length ≤ pb.alloc)
    (hf : Fits f) : ∃ bs, Adds pb (packField debug pb f) bs ∧ Coded f bs := by
  cases f with
  | u8 v => exact ⟨_, grow_adds pb 1 _ rfl h, rfl, bytes1 hf⟩
  | u16 v => exact ⟨_, packU16_adds pb v h, rfl, bytes2 hf⟩
  | u32 v => exact ⟨_, grow_adds pb 4 _ rfl h, rfl, bytes4 hf⟩
  | u64 v => exact ⟨_, grow_adds pb 8 _ rfl h, rfl, bytes8 hf⟩
  | str s =>
    simp only [Fits] at hf
    refine ⟨_, packStr_adds debug pb s h (fun _ => hf), _, rfl, ?_, rfl⟩
    rw [Nat.mod_eq_of_lt (show s.length < 65536 by omega)]
    exact bytes2 (by omega)

/-- The bytes are the fields one after the other. -/
def CodedAll : List Field → List UInt8 → Prop
  | [], bs => bs = []
  | f :: fs, bs => ∃ a b : List UInt8, bs = a ++ b ∧ Coded f a ∧ CodedAll fs b

theorem packAll_ok (debug : Bool) (fs : List Field) : ∀ (pb : Packet), pb.data.length ≤ pb.alloc →
    (∀ f ∈ fs, Fits f) →
    ∃ pb' bs, packAll debug pb fs = some pb' ∧ pb'.data = pb.data ++ bs ∧ CodedAll fs bs ∧
      pb'.data.length ≤ pb'.alloc := by
  induction fs with
  | nil => intro pb h _; exact ⟨pb, [], rfl, by simp, rfl, h⟩
  | cons f fs ih =>
    intro pb h hf
    obtain ⟨bs1, ⟨pb1, e1, e2, e4⟩, e3⟩ := packField_ok debug pb f h (hf f (by simp))
    obtain ⟨pb2, bs2, g1, g2, g3, g4⟩ := ih pb1 e4 (fun f' hf' => hf f' (by simp [hf']))
    refine ⟨pb2, bs1 ++ bs2, ?_, ?_, ⟨bs1, bs2, rfl, e3, g3⟩, g4⟩
    · simp only [packAll, e1, Option.bind_some]
      exact g1
    · rw [g2, e2, List.append_assoc]

/-- What is put into a fresh packet is written one after the other, the most
    significant byte first, and never outside the buffer. -/
theorem packet_coded (debug : Bool) (fs : List Field) (h : ∀ f ∈ fs, Fits f) :
    ∃ pb, packAll debug Packet.init fs = some pb ∧ CodedAll fs pb.data ∧ pb.data.length ≤ pb.alloc := by
  obtain ⟨pb, bs, e1, e2, e3, e4⟩ := packAll_ok debug fs Packet.init (by simp [Packet.init]) h
  refine ⟨pb, e1, ?_, e4⟩
  rw [e2]
  simpa [Packet.init] using e3

/-- The kind of a field. -/
def shape : Field → Nat
  | .u8 _ => 0
  | .u16 _ => 1
  | .u32 _ => 2
  | .u64 _ => 3
  | .str _ => 4

theorem coded_inj {f g : Field} (hs : shape f = shape g) {a b c d : List UInt8} (hf : Coded f a)
    (hg : Coded g c) (he : a ++ b = c ++ d) : f = g ∧ b = d := by
  have num : ∀ {n : Nat} {a b c d : List UInt8}, a.length = n → c.length = n → a ++ b = c ++ d →
      a = c ∧ b = d := by
    intro n a b c d h1 h2 h3
    exact List.append_inj h3 (by rw [h1, h2])
  cases f <;> cases g <;> simp only [shape] at hs <;> try omega
  · obtain ⟨h1, h2⟩ := num hf.1 hg.1 he
    subst h1
    exact ⟨by rw [← hf.2, ← hg.2], h2⟩
  · obtain ⟨h1, h2⟩ := num hf.1 hg.1 he
    subst h1
    exact ⟨by rw [← hf.2, ← hg.2], h2⟩
  · obtain ⟨h1, h2⟩ := num hf.1 hg.1 he
    subst h1
    exact ⟨by rw [← hf.2, ← hg.2], h2⟩
  · obtain ⟨h1, h2⟩ := num hf.1 hg.1 he
    subst h1
    exact ⟨by rw [← hf.2, ← hg.2], h2⟩
  · obtain ⟨l, l1, l2, l3⟩ := hf
    obtain ⟨l', k1, k2, k3⟩ := hg
    subst l3 k3
    rw [List.append_assoc, List.append_assoc] at he
    obtain ⟨h1, h2⟩ := num l1 k1 he
    subst h1
    obtain ⟨h3, h4⟩ := List.append_inj h2 (by rw [← l2, ← k2])
    exact ⟨by rw [h3], h4⟩

/-- A reader that knows the kinds of the fields gets back what was written. -/
theorem packet_unique (fs : List Field) : ∀ (gs : List Field) (bs : List UInt8),
    fs.map shape = gs.map shape → CodedAll fs bs → CodedAll gs bs → fs = gs := by
  induction fs with
  | nil =>
    intro gs bs hs _ _
    cases gs with
    | nil => rfl
    | cons _ _ => simp at hs
  | cons f fs ih =>
    intro gs bs hs hf hg
    cases gs with
    | nil => simp at hs
    | cons g gs =>
      simp only [List.map_cons, List.cons.injEq] at hs
      obtain ⟨a, b, h1, h2, h3⟩ := hf
      obtain ⟨c, d, k1, k2, k3⟩ := hg
      obtain ⟨e1, e2⟩ := coded_inj hs.1 h2 k2 (h1.symm.trans k1)
      subst e1 e2
      rw [ih gs b hs.2 h3 k3]

example : packAll true Packet.init [.u8 3, .u16 258, .u32 1, .str [0x61]] =
    some { alloc := 128, data := [3, 1, 2, 0, 0, 0, 1, 0, 1, 0x61] } := by decide +kernel

/-- A string of 65536 bytes is written as if it were empty, followed by its
    bytes (or the assertion fails). -/
theorem packet_string_counterexample :
    ∃ s : List UInt8, s.length = 65536 ∧ packField true Packet.init (.str s) = none ∧
      ∃ pb, packField false Packet.init (.str s) = some pb ∧ pb.data = [0, 0] ++ s := by
  have key : ∀ n : Nat, n = 65536 → ∃ s : List UInt8, s.length = n ∧
      packField true Packet.init (.str s) = none ∧
      ∃ pb, packField false Packet.init (.str s) = some pb ∧ pb.data = [0, 0] ++ s := by
    intro n hn
    refine ⟨List.replicate n 0, List.length_replicate, ?_, ?_⟩
    · simp only [packField, packStr]
      rw [List.length_replicate, if_pos (by simp; omega)]
    · obtain ⟨pb, e1, e2, _⟩ := packStr_adds false Packet.init (List.replicate n 0)
        (by simp [Packet.init]) (fun h => by cases h)
      refine ⟨pb, e1, ?_⟩
      have h0 : (List.replicate n (0 : UInt8)).length % 65536 = 0 := by
        rw [List.length_replicate]; omega
      rw [e2, h0]
      rfl
  exact key _ rfl

end Verif.Net
