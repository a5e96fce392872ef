/-
Meaning of the sequential statements of VHDL (IEEE Std 1076, chapter 10):
statements without control flow are functions on the state `S` of the rest of
the system, which also see the values of the enclosing loop parameters.
-/

namespace Verif.Seq.Spec

variable {S : Type}

mutual
/-- Sequential statements. -/
inductive Stmt (S : Type) where
  /-- assignment, assertion, call that cannot suspend -/
  | op (f : List Int → S → S)
  /-- wait statement, or call of a procedure which may wait -/
  | susp (f : List Int → S → S)
  /-- return, with the value -/
  | ret (f : List Int → S → Int)
  /-- exit and next, from the loop with the label, with a condition or not -/
  | exit (l : Nat) (c : Option (List Int → S → Bool))
  | next (l : Nat) (c : Option (List Int → S → Bool))
  | whil (l : Nat) (c : List Int → S → Bool) (b : Sq S)
  | loop (l : Nat) (b : Sq S)
  | forL (l : Nat) (lo hi : List Int → S → Int) (dn : List Int → S → Bool) (b : Sq S)
  | ite (cs : Conds S)
/-- A sequence of statements. -/
inductive Sq (S : Type) where
  | nil
  | cons (s : Stmt S) (t : Sq S)
/-- The branches of an if statement; the last one has a condition or not. -/
inductive Conds (S : Type) where
  | els (b : Sq S)
  | last (c : List Int → S → Bool) (b : Sq S)
  | cons (c : List Int → S → Bool) (b : Sq S) (t : Conds S)
end

/-- How a statement ends. -/
inductive Out (S : Type) where
  | norm (s : S)
  | exit (l : Nat) (s : S)
  | next (l : Nat) (s : S)
  | ret (v : Int) (s : S)

/-- The values of a discrete range. -/
def rangeVals (l r : Int) (dn : Bool) : List Int :=
  if dn then (List.range (l - r + 1).toNat).map (fun k : Nat => l - k)
  else (List.range (r - l + 1).toNat).map (fun k : Nat => l + k)

/-- What a loop with the label `l` does after its body. -/
inductive After (S : Type) where
  | again (s : S)
  | stop (o : Out S)

def after (l : Nat) : Out S → After S
  | .norm s => .again s
  | .next l' s => if l' = l then .again s else .stop (.next l' s)
  | .exit l' s => if l' = l then .stop (.norm s) else .stop (.exit l' s)
  | .ret v s => .stop (.ret v s)

/-- A while loop, with a limit of turns. -/
def whileLoop (l : Nat) (c : S → Bool) (body : S → Option (Out S)) :
    Nat → S → Option (Out S)
  | 0, _ => none
  | k + 1, s =>
    if c s then
      match body s with
      | none => none
      | some o =>
        match after l o with
        | .again s' => whileLoop l c body k s'
        | .stop o' => some o'
    else some (.norm s)

/-- A for loop: the body for each value in turn. -/
def forLoop (l : Nat) (body : Int → S → Option (Out S)) :
    List Int → S → Option (Out S)
  | [], s => some (.norm s)
  | v :: vs, s =>
    match body v s with
    | none => none
    | some o =>
      match after l o with
      | .again s' => forLoop l body vs s'
      | .stop o' => some o'

/-- Is the condition of an exit or next statement met. -/
def holds (c : Option (List Int → S → Bool)) (env : List Int) (s : S) : Bool :=
  match c with
  | none => true
  | some c => c env s

mutual
/-- Execution of a statement.  `leave` is what is done to the local objects
when the subprogram is left, which is after the value has been computed.  The
number limits the turns of each while loop: `none` if it was too small. -/
def execS (leave : S → S) (n : Nat) : List Int → Stmt S → S → Option (Out S)
  | env, .op f, s => some (.norm (f env s))
  | env, .susp f, s => some (.norm (f env s))
  | env, .ret f, s => some (.ret (f env s) (leave s))
  | env, .exit l c, s => some (if holds c env s then .exit l s else .norm s)
  | env, .next l c, s => some (if holds c env s then .next l s else .norm s)
  | env, .whil l c b, s => whileLoop l (c env) (execQ leave n env b) n s
  | env, .loop l b, s => whileLoop l (fun _ => true) (execQ leave n env b) n s
  | env, .forL l lo hi dn b, s =>
    forLoop l (fun v => execQ leave n (v :: env) b)
      (rangeVals (lo env s) (hi env s) (dn env s)) s
  | env, .ite cs, s => execC leave n env cs s
/-- Execution of a sequence. -/
def execQ (leave : S → S) (n : Nat) : List Int → Sq S → S → Option (Out S)
  | _, .nil, s => some (.norm s)
  | env, .cons st t, s =>
    match execS leave n env st s with
    | none => none
    | some (.norm s') => execQ leave n env t s'
    | some o => some o
/-- The first branch whose condition is true. -/
def execC (leave : S → S) (n : Nat) : List Int → Conds S → S → Option (Out S)
  | env, .els b, s => execQ leave n env b s
  | env, .last c b, s => if c env s then execQ leave n env b s else some (.norm s)
  | env, .cons c b t, s =>
    if c env s then execQ leave n env b s else execC leave n env t s
end

/-- A value of a 32-bit type. -/
def Fits (x : Int) : Prop := -2147483648 ≤ x ∧ x ≤ 2147483647

mutual
/-- The bounds of loops fit their type and the values returned do not depend
on what is released when the subprogram is left. -/
def Stmt.ok (leave : S → S) : Stmt S → Prop
  | .ret f => ∀ env s, f env (leave s) = f env s
  | .whil _ _ b => b.ok leave
  | .loop _ b => b.ok leave
  | .forL _ lo hi _ b => (∀ env s, Fits (lo env s) ∧ Fits (hi env s)) ∧ b.ok leave
  | .ite cs => cs.ok leave
  | _ => True
def Sq.ok (leave : S → S) : Sq S → Prop
  | .nil => True
  | .cons s t => s.ok leave ∧ t.ok leave
def Conds.ok (leave : S → S) : Conds S → Prop
  | .els b => b.ok leave
  | .last _ b => b.ok leave
  | .cons _ b t => b.ok leave ∧ t.ok leave
end

end Verif.Seq.Spec
