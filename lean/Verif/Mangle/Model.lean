import Verif.Mangle.Spec

/-
Model of the names the compiler gives to subprograms and types, in /repo:
`mangle_one_type` and `get_call_context` (src/common.c 1498–1539),
`mangle_func`, `mangle_type` and the prefixes of scopes (src/names.c 580–599
and 2582–2629), `parse_ex_id` (src/lexer.l 921–933), `copy_with_renaming`
(src/inst.c 55–124), `lower_predef_func_name` and the name of FILE_CLOSE
(src/lower.c 6342–6352 and 10241–10254), `safe_symbol_win32` (src/util.c
1994–2028), and the functions of src/ident.c they use.

Simplified: identifiers are lists of characters (interned strings are equal
when their texts are); the type of a parameter is its full name, so that
anonymous types and parameters without type are left out.
-/

namespace Verif.Mangle

open Spec (Name Ty Sig Elem)

/-- src/common.c 1067–1118 and 1502–1518: types with a code of one letter. -/
def wellKnown : List (List Char × Char) := [
  ("STD.STANDARD.INTEGER".toList, 'I'), ("STD.STANDARD.STRING".toList, 'S'),
  ("STD.STANDARD.REAL".toList, 'R'), ("STD.STANDARD.BOOLEAN".toList, 'B'),
  ("STD.STANDARD.CHARACTER".toList, 'C'), ("STD.STANDARD.TIME".toList, 'T'),
  ("STD.STANDARD.NATURAL".toList, 'N'), ("STD.STANDARD.POSITIVE".toList, 'P'),
  ("STD.STANDARD.BIT".toList, 'J'), ("STD.STANDARD.BIT_VECTOR".toList, 'Q'),
  ("IEEE.STD_LOGIC_1164.STD_LOGIC".toList, 'L'), ("IEEE.STD_LOGIC_1164.STD_ULOGIC".toList, 'U'),
  ("IEEE.STD_LOGIC_1164.STD_LOGIC_VECTOR".toList, 'V'),
  ("IEEE.STD_LOGIC_1164.STD_ULOGIC_VECTOR".toList, 'Y')]

/-- printf's `%zu` (src/common.c 1523). -/
def decLoop : Nat → Nat → List Char → List Char
  | 0, _, acc => acc
  | f + 1, n, acc =>
    if n < 10 then Char.ofNat (48 + n) :: acc
    else decLoop f (n / 10) (Char.ofNat (48 + n % 10) :: acc)

def decText (n : Nat) : List Char := decLoop (n + 1) n []

/-- `is_well_known` as a search in the table (src/common.c 1054–1063). -/
def codeOf (t : Ty) : List (List Char × Char) → Option Char
  | [] => none
  | (n, c) :: l => if t = n then some c else codeOf t l

/-- `mangle_one_type` (src/common.c 1498–1526). -/
def mangleOneType (t : Ty) : List Char :=
  match codeOf t wellKnown with
  | some c => [c]
  | none => decText t.length ++ t

/-- The text of an identifier as it is interned: delimiters are kept, and the
backslashes of extended identifiers are no longer doubled
(src/lexer.l 910–933, src/parse.c 2722–2739). -/
def identText : Name → List Char
  | .basic cs => cs
  | .op cs => '"' :: cs ++ ['"']
  | .ext cs => '\\' :: cs ++ ['\\']

/-- The loop of `parse_ex_id` (src/lexer.l 925–928). -/
def undouble : List Char → List Char
  | [] => []
  | [c] => [c]
  | c :: d :: l => if c = '\\' ∧ d = '\\' then d :: undouble l else c :: undouble (d :: l)

/-- `parse_ex_id` (src/lexer.l 921–933): the first character is kept. -/
def parseExId : List Char → List Char
  | [] => []
  | c :: l => c :: undouble l

/-- The parameters in `mangle_func` (src/names.c 2598–2604). -/
def portsText : List (Bool × Ty) → List Char
  | [] => []
  | (sig, t) :: l => (if sig then ['s'] else []) ++ mangleOneType t ++ portsText l

def predefText : List Char := "$predef".toList

/-- The result in `mangle_func` (src/names.c 2609–2610). -/
def resultText : Option Ty → List Char
  | some t => mangleOneType t
  | none => []

/-- `mangle_func` after the name (src/names.c 2592–2613). -/
def sigText (s : Sig) : List Char :=
  (if s.ports.length > 0 || s.result.isSome then ['('] else [])
  ++ portsText s.ports
  ++ (if s.ports.length > 0 || s.result.isSome then [')'] else [])
  ++ resultText s.result
  ++ (if s.predef then predefText else [])

/-- `mangle_func` (src/names.c 2582–2616). -/
def mangleFunc (pre : List Char) (n : List Char) (s : Sig) : List Char :=
  pre ++ ['.'] ++ n ++ sigText s

/-- `ident_prefix` with a separator (src/ident.c 511–520); `mangle_type` and
`mangle_decl` (src/names.c 2618–2629) use it with a dot. -/
def identPrefix (a b : List Char) (sep : Char) : List Char := a ++ [sep] ++ b

/-- The prefix of a scope after entering a region (`scope_set_prefix`,
src/names.c 580–583; the architecture of an entity, src/parse.c 13385) or a
subprogram (`scope_set_subprogram`, src/names.c 595–599). -/
def enter (pre : List Char) : Elem → List Char
  | .unit d n => identPrefix pre (identText n) (if d then '-' else '.')
  | .sub n s => mangleFunc pre (identText n) s

/-- The name at the end of a path from a library. -/
def pathIdent (lib : List Char) (es : List Elem) : List Char := es.foldl enter lib

/-- The loop of `get_call_context` (src/common.c 1531–1535): position and the
last dot. -/
def contextLoop : List Char → Nat → Option Nat → Option Nat
  | [], _, e => e
  | c :: l, i, e =>
    if c = '(' then e
    else if c = '.' then contextLoop l (i + 1) (some i)
    else contextLoop l (i + 1) e

/-- `get_call_context` (src/common.c 1529–1539); `none` is the assertion. -/
def getCallContext (m : List Char) : Option (List Char) :=
  match contextLoop m 0 none with
  | some i => some (m.take i)
  | none => none

/-- `ident_runtil` (src/ident.c 567–580): up to the last `c`, or all. -/
def lastPos (c : Char) : List Char → Nat → Option Nat → Option Nat
  | [], _, e => e
  | d :: l, i, e => lastPos c l (i + 1) (if d = c then some i else e)

def runtil (i : List Char) (c : Char) : List Char :=
  match lastPos c i 0 none with
  | some k => i.take k
  | none => i

/-- The types of `std_type (NULL, STD_BOOLEAN)`. -/
def booleanTy : Ty := "STD.STANDARD.BOOLEAN".toList

/-- `lower_predef_func_name` (src/lower.c 10241–10254). -/
def lowerPredefFuncName (t : Ty) (op : List Char) : List Char :=
  runtil t '.' ++ ['.', '"'] ++ op ++ ['"', '('] ++ mangleOneType t ++ mangleOneType t ++ [')']
  ++ mangleOneType booleanTy ++ predefText

/-- The name of FILE_CLOSE (src/lower.c 6342–6352). -/
def fileCloseName (t : Ty) : List Char :=
  runtil t '.' ++ ".FILE_CLOSE(".toList ++ mangleOneType t ++ [')'] ++ predefText

/-- `ident_starts_with` (src/ident.c 523–526). -/
def startsWith (a b : List Char) : Bool := a.take b.length == b

/-- The new name of a copied subprogram for one prefix (src/inst.c 89–117);
the signature is that of the copy. -/
def renameSub (dotted pre orig : List Char) (s : Sig) : List Char :=
  if startsWith orig pre then
    dotted ++ (runtil orig '(').drop pre.length ++ sigText s
  else orig

/-- The new name of a copied type for one prefix (src/inst.c 67–76). -/
def renameType (dotted pre orig : List Char) : List Char :=
  if startsWith orig pre then dotted ++ orig.drop pre.length else orig

/-- `symbol_replacements` (src/util.c 1994–2006). -/
def replacements : List (Char × List Char) := [
  ('(', "_lp_".toList), (')', "_rp_".toList), ('"', "_q_".toList), ('[', "_ls_".toList),
  (']', "_rs_".toList), ('*', "_mult_".toList), ('+', "_plus_".toList), ('=', "_eq_".toList),
  ('\\', "_bs_".toList)]

def replace1 (c : Char) : List (Char × List Char) → List Char
  | [] => [c]
  | (d, r) :: l => if c = d then r else replace1 c l

/-- `safe_symbol_win32` (src/util.c 2009–2028). -/
def safeSymbolWin : List Char → List Char
  | [] => []
  | c :: l => replace1 c replacements ++ safeSymbolWin l

end Verif.Mangle
