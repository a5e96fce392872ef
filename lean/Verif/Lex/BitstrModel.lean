/-
Bit string literals of VHDL: what the lexer makes of the lexeme,
`parse_bit_string` (/repo/src/lexer.l:1076-1102), and what the parser makes of
that, `bit_string_to_literal` (/repo/src/parse.c:592-747).

A `char` is a `Char` with a code below 256.  An element of the literal is a
reference to the name of a character literal; it is modelled by the character.
The code compares first the references and then the names, which is to compare
the characters.  The messages that a feature needs a later standard
(`require_std`) are left out, they do not change the result.
-/

namespace Verif.Lex

/-! ### The lexer -/

/-- The loop of `parse_bit_string`, /repo/src/lexer.l:1084-1099, over the rest of
    the string.  `same` says that `src` and `dst` are the same, `prev` is
    `src[-1]`, which has been replaced by what was written if they were the same.
    The result has the characters written and whether there was an error. -/
def lexLoop : Bool → Char → List Char → List Char × Bool
  | _, _, [] => ([], false)
  | same, prev, c :: rest =>
    if c = '%' then
      ('"' :: (lexLoop same (if same then '"' else '%') rest).1,
        (lexLoop same (if same then '"' else '%') rest).2)
    else if c ≠ '_' then
      (c :: (lexLoop same c rest).1, (lexLoop same c rest).2)
    else if prev = '"' ∨ rest.head? = some '"' then ((lexLoop false '_' rest).1, true)
    else if prev = '_' then ((lexLoop false '_' rest).1, true)
    else ((lexLoop false '_' rest).1, (lexLoop false '_' rest).2)

/-- `parse_bit_string`, /repo/src/lexer.l:1076-1102: the string in the buffer
    and whether there was an error.  The end of the string is not moved, so what
    is behind the characters written is still there. -/
def parseBitString (str : List Char) : List Char × Bool :=
  ((lexLoop true '\x00' str).1 ++ str.drop (lexLoop true '\x00' str).1.length,
    (lexLoop true '\x00' str).2)

/-! ### The parser -/

/-- `isdigit_iso88591`, /repo/src/util.c:1172-1175. -/
def isDigit (c : Char) : Bool := '0'.toNat ≤ c.toNat && c.toNat ≤ '9'.toNat

/-- `isprint_iso88591`, /repo/src/util.c:1161-1164. -/
def isPrint (c : Char) : Bool :=
  (0x20 ≤ c.toNat && c.toNat ≤ 0x7e) || (0xa0 ≤ c.toNat && c.toNat ≤ 0xff)

/-- `isupper_iso88591`, /repo/src/util.c:1177-1182. -/
def isUpper (c : Char) : Bool :=
  ('A'.toNat ≤ c.toNat && c.toNat ≤ 'Z'.toNat) || (0xc0 ≤ c.toNat && c.toNat ≤ 0xd6)
    || (0xd8 ≤ c.toNat && c.toNat ≤ 0xde)

/-- `strtoul` with base 10 for a string of digits.  The function saturates at
    ULONG_MAX, which makes no difference to the comparison that follows. -/
def decimalOf (ds : List Char) : Nat := ds.foldl (fun a c => a * 10 + (c.toNat - '0'.toNat)) 0

/-- The literal or the message. -/
inductive Out
  | ok (cs : List Char)
  | tooLong
  | badBase
  | badDigit
  | excess
  | emptySigned
  | hang
deriving DecidableEq, Repr

/-- `extended`, /repo/src/parse.c:684-686. -/
def extended (base : Nat) (c : Char) : Bool :=
  (isDigit c && decide (c.toNat < '0'.toNat + base))
    || (decide (base > 10) && decide ('A'.toNat ≤ c.toNat) && decide (c.toNat < 'A'.toNat + base - 10))
    || (decide (base > 10) && decide ('a'.toNat ≤ c.toNat) && decide (c.toNat < 'a'.toNat + base - 10))

/-- `n`, /repo/src/parse.c:688-689, where it is used. -/
def digitOf (c : Char) : Nat :=
  if isDigit c then c.toNat - '0'.toNat
  else 10 + (if isUpper c then c.toNat - 'A'.toNat else c.toNat - 'a'.toNat)

/-- The bits of a digit, /repo/src/parse.c:705-706; the first argument bounds
    the number of rounds. -/
def bitsOf : Nat → Nat → Nat → List Char
  | 0, _, _ => []
  | f + 1, d, n =>
    if d > 0 then (if n / d ≠ 0 then '1' else '0') :: bitsOf f (d / 2) (n % d) else []

/-- The elements for a character of the value, /repo/src/parse.c:683-706: those
    of an extended digit, or the character itself as often. -/
def elements (std08 : Bool) (base : Nat) (c : Char) : Option (List Char) :=
  if extended base c then some (bitsOf base (base / 2) (digitOf c))
  else if !std08 || !isPrint c then none
  else some ((bitsOf base (base / 2) 0).map fun _ => c)

/-- `pad`, `bits` and `nbits`; without a length `bits` has what was added to the
    literal. -/
structure St where
  pad : Option Char
  bits : List Char
deriving DecidableEq, Repr

/-- The body of the inner loop, /repo/src/parse.c:706-727.  `none` is the
    error. -/
def push (len : Option Nat) (st : St) (bit : Char) : Option St :=
  let pad := st.pad.getD bit
  match len with
  | none => some ⟨some pad, st.bits ++ [bit]⟩
  | some length =>
    let left := st.bits.headD bit
    if st.bits.length < length then some ⟨some pad, st.bits ++ [bit]⟩
    else if left ≠ pad then none
    else if length > 0 then some ⟨some pad, st.bits.drop 1 ++ [bit]⟩
    else some ⟨some pad, st.bits⟩

/-- The inner loop. -/
def pushAll (len : Option Nat) : St → List Char → Option St
  | st, [] => some st
  | st, b :: bs => (push len st b).bind fun st => pushAll len st bs

/-- The loop over the characters of the value, /repo/src/parse.c:683-729, up to
    the quotation mark. -/
def basedLoop (std08 : Bool) (base : Nat) (len : Option Nat) : St → List Char → Except Out St
  | st, [] => .ok st
  | st, c :: cs =>
    if c = '"' then .ok st
    else
      match elements std08 base c with
      | none => .error .badDigit
      | some es =>
        match pushAll len st es with
        | none => .error .excess
        | some st => basedLoop std08 base len st cs

/-- The end, /repo/src/parse.c:731-744. -/
def finish (len : Option Nat) (st : St) : Out :=
  match len with
  | none => .ok st.bits
  | some length =>
    match st.pad with
    | none =>
      if st.bits.length < length then .emptySigned
      else .ok (st.bits.take length)
    | some pad => .ok (List.replicate (length - st.bits.length) pad ++ st.bits)

/-- All of the part for the bases 2, 8 and 16, /repo/src/parse.c:676-746.
    `rest` is what follows the opening quotation mark. -/
def based (std08 signed : Bool) (base : Nat) (len : Option Nat) (rest : List Char) : Out :=
  match basedLoop std08 base len ⟨if signed then none else some '0', []⟩ rest with
  | .error e => e
  | .ok st => finish len st

/-- One round of the division by two, /repo/src/parse.c:648-653: the digits
    afterwards and `cout`. -/
def halve : Nat → List Nat → List Nat × Nat
  | cin, [] => ([], cin)
  | cin, d :: ds =>
    ((d / 2 + if cin ≠ 0 then 5 else 0) :: (halve (d % 2) ds).1, (halve (d % 2) ds).2)

/-- The outer loop, /repo/src/parse.c:645-663, for at most so many rounds.
    `room` is `pos + 1`; `bits` has the elements above `pos`. -/
def decLoop : Nat → List Nat → Nat → List Char → Except Out (Nat × List Char)
  | 0, _, _, _ => .error .hang
  | f + 1, ds, room, bits =>
    if ds.all (· == 0) then .ok (room, bits)
    else if room = 0 ∧ (halve 0 ds).2 ≠ 0 then .error .excess
    else if room > 0 then
      decLoop f (halve 0 ds).1 (room - 1) ((if (halve 0 ds).2 ≠ 0 then '1' else '0') :: bits)
    else decLoop f (halve 0 ds).1 room bits

/-- The digits up to the quotation mark, /repo/src/parse.c:633-640. -/
def decDigits : List Char → Option (List Nat)
  | [] => some []
  | c :: cs =>
    if c = '"' then some []
    else if !isDigit c then none
    else (decDigits cs).map fun ds => (c.toNat - '0'.toNat) :: ds

/-- All of the part for base 10, /repo/src/parse.c:627-673. -/
def decimal (len : Option Nat) (rest : List Char) : Out :=
  match decDigits rest with
  | none => .badDigit
  | some ds =>
    match decLoop (4 * ds.length + 1) ds (len.getD (ds.length * 4)) [] with
    | .error e => e
    | .ok (room, bits) =>
      match len with
      | none => .ok bits
      | some _ => .ok (List.replicate room '0' ++ bits)

/-- The switch over the base, /repo/src/parse.c:606-625 and on, from the
    letter of the sign on. -/
def afterLength (std08 : Bool) (len : Option Nat) (p : List Char) : Out :=
  let signed := p.headD '\x00' = 'S' ∨ p.headD '\x00' = 's'
  let unsigned := p.headD '\x00' = 'U' ∨ p.headD '\x00' = 'u'
  let p := if signed ∨ unsigned then p.drop 1 else p
  let c := p.headD '\x00'
  if c = 'X' ∨ c = 'x' then based std08 signed 16 len (p.drop 2)
  else if c = 'O' ∨ c = 'o' then based std08 signed 8 len (p.drop 2)
  else if c = 'B' ∨ c = 'b' then based std08 signed 2 len (p.drop 2)
  else if c = 'D' ∨ c = 'd' then decimal len (p.drop 2)
  else .badBase

/-- `bit_string_to_literal`, /repo/src/parse.c:592-747. -/
def bitString (std08 : Bool) (str : List Char) : Out :=
  if isDigit (str.headD '\x00') then
    if decimalOf (str.takeWhile isDigit) > 2147483647 then .tooLong
    else afterLength std08 (some (decimalOf (str.takeWhile isDigit))) (str.dropWhile isDigit)
  else afterLength std08 none str

/-- The two one after the other, for a lexeme: what the parser makes of it, and
    whether the lexer reported an error. -/
def literal (std08 : Bool) (lexeme : List Char) : Out × Bool :=
  (bitString std08 (parseBitString lexeme).1, (parseBitString lexeme).2)

end Verif.Lex
