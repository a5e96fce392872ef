/-
Integer literals of VHDL: `strip_underscores`, `parse_decimal_literal` and
`parse_based_literal`, /repo/src/lexer.l:935-1051, without the parts for real
literals (those with a point).

A `char` is a `Char`.  The library functions are written as glibc has them:
`strtoll` saturates, `atoll` is `strtoll` with base 10 and `atoi` is the lower
half of `strtol`.  White space, which they would skip, is not in a lexeme.  The
prefix `0b`, which newer libraries accept in base 2, is left out.
-/

namespace Verif.Lex

/-- `strip_underscores`, /repo/src/lexer.l:935-948: what is kept and whether an
    error was reported. -/
def strip : List Char → List Char × Bool
  | [] => ([], false)
  | c :: rest =>
    if c ≠ '_' then (c :: (strip rest).1, (strip rest).2)
    else if rest = [] ∨ rest.head? = some '_' then ((strip rest).1, true)
    else ((strip rest).1, (strip rest).2)

/-- `strtok`: the next token and what is behind its delimiter. -/
def strtok (delim : Char → Bool) (s : List Char) : Option (List Char × List Char) :=
  if s.dropWhile delim = [] then none
  else some ((s.dropWhile delim).takeWhile (fun c => !delim c),
    ((s.dropWhile delim).dropWhile (fun c => !delim c)).drop 1)

/-- The value of a digit or letter for `strtoll`. -/
def digit36 (c : Char) : Option Nat :=
  if 48 ≤ c.toNat ∧ c.toNat ≤ 57 then some (c.toNat - 48)
  else if 65 ≤ c.toNat ∧ c.toNat ≤ 90 then some (c.toNat - 65 + 10)
  else if 97 ≤ c.toNat ∧ c.toNat ≤ 122 then some (c.toNat - 97 + 10)
  else none

/-- Whether the character is a digit in this base. -/
def inBase (base : Nat) (c : Char) : Bool := (digit36 c).any (· < base)

/-- The number that digits stand for. -/
def number (base : Nat) (ds : List Char) : Nat :=
  ds.foldl (fun a c => a * base + (digit36 c).getD 0) 0

/-- The largest `long long`. -/
def maxLL : Int := 9223372036854775807

/-- `strtoll` after the sign: the number before it is cut to the range, and what
    follows.  With base 16 the prefix `0x` is skipped if a digit follows. -/
def strtollDigits (base : Nat) (s : List Char) : Nat × List Char :=
  let s' := if base = 16 ∧ s.head? = some '0' ∧ (s[1]? = some 'x' ∨ s[1]? = some 'X') ∧
      (s[2]?).any (inBase 16) then s.drop 2 else s
  (number base (s'.takeWhile (inBase base)), s'.dropWhile (inBase base))

/-- What `strtoll` returns, with where it stopped and whether errno is
    ERANGE. -/
def strtoll (base : Nat) (s : List Char) : Int × List Char × Bool :=
  let neg := s.head? = some '-'
  let s' := if s.head? = some '-' ∨ s.head? = some '+' then s.drop 1 else s
  let n := strtollDigits base s'
  if neg then
    (if (n.1 : Int) > maxLL + 1 then -maxLL - 1 else -(n.1 : Int), n.2, decide ((n.1 : Int) > maxLL + 1))
  else (if (n.1 : Int) > maxLL then maxLL else n.1, n.2, decide ((n.1 : Int) > maxLL))

/-- `atoi`. -/
def atoi (s : List Char) : Int :=
  let n := (strtoll 10 s).1 % 4294967296
  if n < 2147483648 then n else n - 4294967296

/-- The token, and whether it was reported that the value is out of range or that
    an underscore is misplaced. -/
inductive Tok
  | int (v : Int)
  | error
  | undefined
deriving DecidableEq, Repr

structure Scan where
  tok : Tok
  range : Bool
  under : Bool
deriving DecidableEq, Repr

/-- The exponent in what follows a token, `e`, /repo/src/lexer.l:965,971 and
    1011,1019.  In both functions it is the number of rounds of the loop. -/
def exponent (s : List Char) : Int :=
  match strtok (fun c => c == 'e' || c == 'E') s with
  | some (exp, _) => (strtoll 10 exp).1
  | none => 0

/-- The loop of `parse_decimal_literal`, /repo/src/lexer.l:975-980; `none` when
    the product overflows. -/
def scale10 : Nat → Int → Option Int
  | 0, v => some v
  | e + 1, v => if v * 10 > maxLL then none else scale10 e (v * 10)

/-- `parse_decimal_literal`, /repo/src/lexer.l:950-994, for a lexeme without a
    point.  The value of the token is not of interest when the overflow is
    reported; it is 0 here. -/
def lexDecimal (str : List Char) : Scan :=
  let tmp := (strip str).1
  match strtok (fun c => c == 'e' || c == 'E') tmp with
  | none => ⟨.undefined, false, (strip str).2⟩
  | some (val, rest) =>
    let v := strtoll 10 val
    if v.1 = 0 then ⟨.int 0, v.2.2, (strip str).2⟩
    else if exponent rest ≥ 0 then
      match scale10 (exponent rest).toNat v.1 with
      | some w => ⟨if '-' ∈ tmp then .error else .int w, v.2.2, (strip str).2⟩
      | none => ⟨if '-' ∈ tmp then .error else .int 0, true, (strip str).2⟩
    else ⟨.error, v.2.2, (strip str).2⟩

/-- The loop of `parse_based_literal`, /repo/src/lexer.l:1022: `none` when the
    product overflows, which is undefined. -/
def scaleBase (base : Int) : Nat → Int → Option Int
  | 0, v => some v
  | e + 1, v => if v * base > maxLL then none else scaleBase base e (v * base)

/-- `parse_based_literal`, /repo/src/lexer.l:996-1026 and 1050, for a lexeme
    without a point. -/
def lexBased (str : List Char) : Scan :=
  let tmp := (strip str).1
  match strtok (fun c => c == '#' || c == ':') tmp with
  | none => ⟨.undefined, false, (strip str).2⟩
  | some (base, rest) =>
    match strtok (fun c => c == '#' || c == ':') rest with
    | none => ⟨.undefined, false, (strip str).2⟩
    | some (val, rest) =>
      if 2 ≤ atoi base ∧ atoi base ≤ 16 then
        let v := strtoll (atoi base).toNat val
        if exponent rest ≥ 0 then
          match scaleBase (atoi base) (exponent rest).toNat v.1 with
          | some w => ⟨if v.2.1 = [] ∧ '-' ∉ tmp then .int w else .error, false, (strip str).2⟩
          | none => ⟨.undefined, false, (strip str).2⟩
        else ⟨.error, false, (strip str).2⟩
      else ⟨.error, false, (strip str).2⟩

end Verif.Lex
