import Verif.Textio.Spec

/-
Model of the package body STD.TEXTIO, lib/std/textio-body.vhd.

A line is null or a sequence of characters, numbered from 1.  Reals are left out.
-/

namespace Verif.Textio

abbrev Line := Option (List Char)

/-- The outcome of reading: an error at run time (null access, index or overflow), or
`good`, the value if one was assigned, and the line. -/
inductive Res (α : Type) where
  | err
  | done (good : Bool) (value : Option α) (line : Line)
  deriving DecidableEq, Repr

/-- 90-94 `is_whitespace`. -/
def isWs (c : Char) : Bool := c == ' ' || c == '\r' || c == '\n' || c == '\t' || c == Char.ofNat 160

/-- 98-102: the loop of `skip_whitespace`. -/
def skipN : List Char → Nat
  | [] => 0
  | c :: l => if isWs c then skipN l + 1 else 0

/-- 72-88 `consume`, of no more characters than there are. -/
def consume (l : List Char) (n : Nat) : List Char := l.drop n

/-- 96-105 `skip_whitespace`. -/
def skipWs : Line → Line
  | none => none
  | some l => some (consume l (skipN l))

/-- 131-151 `read` of a bit. -/
def readBit (l : Line) : Res Bool :=
  match skipWs l with
  | some (c :: r) =>
    if c = '0' then .done true (some false) (some (consume (c :: r) 1))
    else if c = '1' then .done true (some true) (some (consume (c :: r) 1))
    else .done false none (some (c :: r))
  | r => .done false none r

/-- 170-190: the loop of `read` of a bit_vector; the bits assigned and what is left. -/
def bitsLoop : Nat → List Char → Bool × List Bool × List Char
  | 0, l => (true, [], l)
  | n + 1, l =>
    match l.drop (skipN l) with
    | [] => (false, [], [])
    | c :: r =>
      if c = '0' then
        let (g, vs, r') := bitsLoop n r
        (g, false :: vs, r')
      else if c = '1' then
        let (g, vs, r') := bitsLoop n r
        (g, true :: vs, r')
      else (false, [], c :: r)

/-- 162-193 `read` of a bit_vector of length `n`. -/
def readBits (n : Nat) : Line → Res (List Bool)
  | none => if n = 0 then .done true (some []) none else .err
  | some l =>
    let (g, vs, r) := bitsLoop n l
    .done g (some vs) (some r)

/-- 107-115 `tolower`. -/
def toLower (c : Char) : Char :=
  if 65 ≤ c.toNat ∧ c.toNat ≤ 90 then Char.ofNat (c.toNat + 32) else c

/-- 117-129 `strcasecmp`. -/
def caseEq : List Char → List Char → Bool
  | [], [] => true
  | a :: l, b :: r => if toLower a ≠ toLower b then false else caseEq l r
  | _, _ => false

/-- The tests of 210, 214 and 425-426. -/
def starts (l : List Char) (w : List Char) : Bool :=
  w.length ≤ l.length && caseEq (l.take w.length) w

/-- 204-219 `read` of a boolean. -/
def readBool (l : Line) : Res Bool :=
  match skipWs l with
  | none => .err
  | some l =>
    if starts l "true".toList then .done true (some true) (some (consume l 4))
    else if starts l "false".toList then .done true (some false) (some (consume l 5))
    else .done false none (some l)

/-- 230-241 `read` of a character. -/
def readChar : Line → Res Char
  | some (c :: l) => .done true (some c) (some (consume (c :: l) 1))
  | l => .done false none l

/-- The range of `integer`. -/
def inRange (v : Int) : Bool := -2147483648 ≤ v && v ≤ 2147483647

/-- 274-283: the loop of `read` of an integer: the result and the number of digits;
`none` is an overflow. -/
def digLoop (neg : Bool) : Int → List Char → Option (Int × Nat)
  | res, [] => some (res, 0)
  | res, c :: l =>
    if c.toNat < 48 ∨ c.toNat > 57 then some (res, 0)
    else
      let d : Int := if neg then -((c.toNat : Int) - 48) else (c.toNat : Int) - 48
      if !inRange (res * 10) then none
      else if !inRange (res * 10 + d) then none
      else (digLoop neg (res * 10 + d) l).map (fun p => (p.1, p.2 + 1))

/-- 252-293 `read` of an integer. -/
def readInt (l : Line) : Res Int :=
  match skipWs l with
  | none => .err
  | some l =>
    let (neg, pos) := match l with
      | c :: _ => if c = '-' then (true, 2) else if c = '+' then (false, 2) else (false, 1)
      | [] => (false, 1)
    match digLoop neg 0 (l.drop (pos - 1)) with
    | none => .err
    | some (res, k) =>
      let pos := pos + k
      let pos := if neg ∧ pos = 2 then 1 else pos
      .done (decide (pos > 1)) (some res) (some (consume l (pos - 1)))

/-- 370-381 `read` of a string of length `n`. -/
def readStr (n : Nat) : Line → Res (List Char)
  | none => .done false none none
  | some l =>
    if n ≤ l.length then .done true (some (l.take n)) (some (consume l n))
    else .done false none (some l)

/-- 403-411: the units, in femtoseconds. -/
def units : List (List Char × Int) :=
  [("fs".toList, 1), ("ps".toList, 10 ^ 3), ("ns".toList, 10 ^ 6), ("us".toList, 10 ^ 9),
   ("ms".toList, 10 ^ 12), ("sec".toList, 10 ^ 15), ("min".toList, 60 * 10 ^ 15),
   ("hr".toList, 3600 * 10 ^ 15)]

/-- 423-432: the loop over the units. -/
def unitLoop (scale : Int) : List (List Char × Int) → Bool → Option Int → List Char → Res Int
  | [], g, v, l => .done g v (some l)
  | (w, u) :: us, g, v, l =>
    if starts l w then
      if scale * u < -(2 ^ 63) ∨ 2 ^ 63 ≤ scale * u then .err
      else unitLoop scale us true (some (scale * u)) (consume l w.length)
    else unitLoop scale us g v l

/-- 392-433 `read` of a time. -/
def readTime (l : Line) : Res Int :=
  match readInt (skipWs l) with
  | .err => .err
  | .done false _ l => .done false none l
  | .done true none _ => .err
  | .done true (some scale) l =>
    match skipWs l with
    | none => .err
    | some l => unitLoop scale units false none l

/-- 452-457: the loop of `sread`. -/
def sLoop : Nat → List Char → Nat
  | 0, _ => 0
  | _, [] => 0
  | n + 1, c :: l => if isWs c then 0 else sLoop n l + 1

/-- 444-460 `sread` to a string of length `n`; the value is what was assigned. -/
def sread (n : Nat) (l : Line) : Res (List Char) :=
  match skipWs l with
  | none => .err
  | some l => .done true (some (l.take (sLoop n l))) (some (consume l (sLoop n l)))

/-- The bits of a digit: 498-508, 573-591. -/
def bitsOf : Nat → Nat → List Bool
  | 0, _ => []
  | w + 1, d => decide (d / 2 ^ w % 2 = 1) :: bitsOf w d

def octVal (c : Char) : Option Nat :=
  if 48 ≤ c.toNat ∧ c.toNat ≤ 55 then some (c.toNat - 48) else none

def hexVal (c : Char) : Option Nat :=
  if 48 ≤ c.toNat ∧ c.toNat ≤ 57 then some (c.toNat - 48)
  else if 97 ≤ c.toNat ∧ c.toNat ≤ 102 then some (c.toNat - 87)
  else if 65 ≤ c.toNat ∧ c.toNat ≤ 70 then some (c.toNat - 55)
  else none

/-- 477-490 and 549-565: the loops which read `n` digits; the digits and what is
left.  A character which is no digit is read. -/
def digitLoop (val : Char → Option Nat) : List Char → Nat → Bool → List Nat × List Char
  | l, 0, _ => ([], l)
  | [], _ + 1, _ => ([], [])
  | c :: l, n + 1, u =>
    if c = '_' ∧ u = true then digitLoop val l (n + 1) false
    else
      match val c with
      | some d =>
        let (ds, r) := digitLoop val l n true
        (d :: ds, r)
      | none => ([], l)

/-- 462-524 `oread` with `b` = 3, 534-607 `hread` with `b` = 4, to a bit_vector of
length `len`. -/
def xread (b : Nat) (val : Char → Option Nat) (len : Nat) (l : Line) : Res (List Bool) :=
  match skipWs l with
  | none => .err
  | some l =>
    let n := (len + (b - 1)) / b
    let (ds, r) := digitLoop val l n false
    if ds.length ≠ n then .done false (some (List.replicate len false)) (some r)
    else
      let rem := len % b
      match ds with
      | [] => .done true (some []) (some r)
      | d :: ds' =>
        if rem ≠ 0 then
          let first := bitsOf b d
          if (first.take (b - rem)).any (fun x => x) then
            .done false (some (first.drop (b - rem) ++ List.replicate (len - rem) false)) (some r)
          else .done true (some (first.drop (b - rem) ++ ds'.flatMap (bitsOf b))) (some r)
        else .done true (some ((d :: ds').flatMap (bitsOf b))) (some r)

def oread := xread 3 octVal
def hread := xread 4 hexVal

/-- Assignment to the slice from `k + 1` on; `none` if it is out of range. -/
def put (l : List Char) (k : Nat) (s : List Char) : Option (List Char) :=
  if k + s.length ≤ l.length then some (l.take k ++ s ++ l.drop (k + s.length)) else none

/-- The value of new characters. -/
def nul : Char := Char.ofNat 0

/-- 43-58 `grow`: the line and the old size. -/
def grow (l : Line) (extra : Nat) : List Char × Nat :=
  match l with
  | none => (List.replicate extra nul, 0)
  | some l => if extra > 0 then (l ++ List.replicate extra nul, l.length) else (l, 0)

/-- 676-697 `write` of a string. -/
def write (l : Line) (s : List Char) (left : Bool) (field : Nat) : Option Line :=
  let width := max s.length field
  let (buf, orig) := grow l width
  if left then
    (put buf orig s).bind fun b =>
      (put b (orig + s.length) (List.replicate (width - s.length) ' ')).map some
  else
    (put buf orig (List.replicate (width - s.length) ' ')).bind fun b =>
      (put b (orig + width - s.length) s).map some

/-- 851-864 `justify`. -/
def justify (s : List Char) (left : Bool) (field : Nat) : Option (List Char) :=
  let width := max s.length field
  let res := List.replicate width ' '
  if left then put res 0 s else put res (width - s.length) s

/-- 707-713 `bit_to_char`. -/
def bitChar (b : Bool) : Char := if b then '1' else '0'

/-- 715-721, 723-735, 737-743. -/
def writeBit (l : Line) (b : Bool) := write l [bitChar b]
def writeBits (l : Line) (bs : List Bool) := write l (bs.map bitChar)
def writeBool (l : Line) (b : Bool) := write l (if b then "true".toList else "false".toList)

/-- 827-833; `integer'image` is the text of the integer. -/
def writeInt (l : Line) (v : Int) := write l (Spec.intText v)

/-- 786-788: the first loop of `write` of a time; the fuel is the value, of which it
needs less. -/
def upLoop : Nat → Nat → Nat → Nat
  | 0, _, d => d
  | f + 1, v, d => if v / 10 ≥ d then upLoop f v (d * 10) else d

/-- 790-802: the second loop, from position `pos` of 22; `f` is `23 - pos`. -/
def timeLoop (unit : Nat) : Nat → Nat → Nat → List Char
  | 0, _, _ => []
  | f + 1, v, d =>
    let digit := v / d
    let v' := v - digit * d
    let c := Char.ofNat (digit + 48)
    if v' = 0 ∧ d ≤ unit then [c]
    else if d = unit ∧ f > 0 then
      c :: '.' :: (if d / 10 * 10 ≠ d then [] else timeLoop unit (f - 1) v' (d / 10))
    else c :: (if d / 10 * 10 ≠ d then [] else timeLoop unit f v' (d / 10))

/-- 769-802: the digits of `write` of a time; `none` is an overflow. -/
def timeText (value : Int) (unit : Nat) : Option (List Char) :=
  if value = -(2 ^ 63) then none
  else
    let v := value.natAbs
    let d := upLoop v v unit
    if value < 0 then some ('-' :: timeLoop unit 21 v d) else some (timeLoop unit 22 v d)

/-- 620-652: the loop of `readline`: the file, the buffer and the number of
characters in it. -/
def lineLoop : List Char → List Char → Nat → List Char × List Char
  | [], tmp, used => (tmp.take used, [])
  | c :: f, tmp, used =>
    if c = '\r' then lineLoop f tmp used
    else if c = '\n' then (tmp.take used, f)
    else if used = tmp.length then
      let (tmp, used) := grow (some tmp) 127
      lineLoop f (tmp.set used c) (used + 1)
    else lineLoop f (tmp.set used c) (used + 1)

/-- 620-652 `readline`: the line and what is left of the file. -/
def readline (f : List Char) : List Char × List Char := lineLoop f (List.replicate 127 nul) 0

/-- 654-662 `writeline`: what is added to the file. -/
def writeline : Line → List Char
  | none => ['\n']
  | some l => l ++ ['\n']

/-- Reading lines while the file is not at its end. -/
def readAll : Nat → List Char → List (List Char)
  | 0, _ => []
  | _, [] => []
  | n + 1, c :: f => (readline (c :: f)).1 :: readAll n (readline (c :: f)).2

end Verif.Textio
