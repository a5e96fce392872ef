import Verif.Jit.CodeModel

/-!
# What generated code should be

Independent of how the code cache works: the code of a function is the sequence of its items at
addresses one after the other, and the displacement in a jump leads from its end to the label.
-/

namespace Verif.Jit.Code

def Item.len : Item → Nat
  | .bytes bs => bs.length
  | .label _ => 0
  | .branch opc _ w => opc.length + w.len

/-- The items with their addresses. -/
def place (p : Nat) : List Item → List (Nat × Item)
  | [] => []
  | x :: xs => (p, x) :: place (p + x.len) xs

/-- Length of the code. -/
def total : List Item → Nat
  | [] => 0
  | x :: xs => x.len + total xs

/-- The memory at `p` has these bytes. -/
def HasBytes (mem : Nat → Nat) (p : Nat) (bs : List Nat) : Prop :=
  ∀ (i x : Nat), bs[i]? = some x → mem (p + i) = x

/-- The value of a two's complement number of `n` bits. -/
def sext (n x : Nat) : Int := if x < 2 ^ (n - 1) then (x : Int) else (x : Int) - (2 ^ n : Nat)

/-- Where the processor goes from a relative jump that ends at `e`: the displacement is the last
bytes of the instruction, least significant first, and is added to the address of the next one. -/
def target (mem : Nat → Nat) (e : Nat) : Width → Int
  | .w8 => (e : Int) + sext 8 (mem (e - 1))
  | .w32 => (e : Int) + sext 32
      (mem (e - 4) + 256 * mem (e - 3) + 65536 * mem (e - 2) + 16777216 * mem (e - 1))

/-- The code at `base` is what the items say. -/
def Linked (mem : Nat → Nat) (base : Nat) (items : List Item) : Prop :=
  ∀ p it, (p, it) ∈ place base items →
    match it with
    | .bytes bs => HasBytes mem p bs
    | .label _ => True
    | .branch opc l w => HasBytes mem p opc ∧
        ∃ d : Nat, (d, Item.label l) ∈ place base items ∧ target mem (p + opc.length + w.len) w = d

/-- The two pieces of memory have no byte in common. -/
def Disj (a b : Region) : Prop :=
  a.size = 0 ∨ b.size = 0 ∨ a.base + a.size ≤ b.base ∨ b.base + b.size ≤ a.base

def Inside (a : Region) (p : Nat) : Prop := p ≤ a.base ∧ a.base + a.size ≤ p + pageSize

end Verif.Jit.Code
