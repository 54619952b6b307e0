/-
The unifier of `ticc/src/compiler/typeck.rs`.
-/
namespace Tic.Unify

/-- `ir::Symbol`. -/
abbrev Symbol := Nat

/-- `Ty`, `typeck.rs:90-100`; `TyIdx` is a number. -/
inductive Ty
  | bool | int | str
  | named (s : Symbol)
  | apply (a b : Nat)
  | fn (a b : Nat)
  | folded (a b : Nat)
  | error
  deriving DecidableEq, Repr

/-- `TySlot`, `typeck.rs:102-107`. -/
inductive Slot
  | infer
  | next (i : Nat)
  | ty (t : Ty)
  deriving DecidableEq, Repr

/-- `Unifier`, `typeck.rs:111-115`.  The hash map of pending updates is an association list, newest
entry first. -/
structure Unifier where
  slots : List Slot := []
  pending : List (Nat × Slot) := []

/-- Looking up a pending update. -/
def pend : List (Nat × Slot) → Nat → Option Slot
  | [], _ => none
  | (k, s) :: ps, i => if k = i then some s else pend ps i

/-- `get`, `typeck.rs:130-132`; `none` for an index out of bounds, where the code panics. -/
def Unifier.get (u : Unifier) (i : Nat) : Option Slot :=
  match pend u.pending i with
  | some s => some s
  | none => u.slots[i]?

/-- `fresh_var`, `typeck.rs:118-122`. -/
def Unifier.freshVar (u : Unifier) : Unifier × Nat := ({ u with slots := u.slots ++ [.infer] }, u.slots.length)

/-- `allocate`, `typeck.rs:124-128`. -/
def Unifier.allocate (u : Unifier) (t : Ty) : Unifier × Nat := ({ u with slots := u.slots ++ [.ty t] }, u.slots.length)

/-- `final_idx`, `typeck.rs:134-140`.  Recursive functions of the unifier get a bound on their
recursion depth; `none` when it is exceeded (or on a panic).  The theorems show that for every
reachable unifier a large enough bound exists. -/
def finalIdx : Nat → Unifier → Nat → Option Nat
  | 0, _, _ => none
  | n + 1, u, i =>
    match u.get i with
    | some .infer => some i
    | some (.ty _) => some i
    | some (.next j) => finalIdx n u j
    | none => none

/-- `normalize`, `typeck.rs:142-149`: `some none` for an unknown type. -/
def normalize (n : Nat) (u : Unifier) (i : Nat) : Option (Option Ty) :=
  (finalIdx n u i).bind fun j =>
    match u.get j with
    | some (.ty t) => some (some t)
    | some .infer => some none
    | _ => none

/-- `occurs`, `typeck.rs:151-172`. -/
def occurs : Nat → Unifier → Nat → Nat → Option Bool
  | 0, _, _, _ => none
  | n + 1, u, var, i =>
    (finalIdx n u i).bind fun j =>
      if var = j then some true
      else (normalize n u j).bind fun t =>
        match t with
        | some (.apply a b) => (occurs n u var a).bind fun r => if r then some true else occurs n u var b
        | some (.fn a b) => (occurs n u var a).bind fun r => if r then some true else occurs n u var b
        | some (.folded a b) => (occurs n u var a).bind fun r => if r then some true else occurs n u var b
        | _ => some false

/-- `unify` on two known types, `typeck.rs:186-200`: whether they agree at the top, and what is
left to unify (`self.unify(a1, b1)?; self.unify(a2, b2)`). -/
def unifyTys : Ty → Ty → Option (List (Nat × Nat))
  | .error, _ => some []
  | _, .error => some []
  | .int, .int => some []
  | .bool, .bool => some []
  | .str, .str => some []
  | .named a, .named b => if a = b then some [] else none
  | .apply a1 a2, .apply b1 b2 => some [(a1, b1), (a2, b2)]
  | .fn a1 a2, .fn b1 b2 => some [(a1, b1), (a2, b2)]
  | .folded a1 a2, .folded b1 b2 => some [(a1, b1), (a2, b2)]
  | _, _ => none

/-- `self.pending.insert(i, TySlot::Next(j))`. -/
def Unifier.bind (u : Unifier) (i j : Nat) : Unifier := { u with pending := (i, .next j) :: u.pending }

/-- Unifying pairs one after the other, stopping at the first failure (`?`). -/
def unifyAll (f : Unifier → Nat → Nat → Option (Unifier × Bool)) : List (Nat × Nat) → Unifier → Option (Unifier × Bool)
  | [], u => some (u, true)
  | p :: ps, u => (f u p.1 p.2).bind fun r => if r.2 then unifyAll f ps r.1 else some (r.1, false)

/-- `unify`, `typeck.rs:174-214`: the new state and whether it succeeded. -/
def unify : Nat → Unifier → Nat → Nat → Option (Unifier × Bool)
  | 0, _, _, _ => none
  | n + 1, u, t1, t2 =>
    (finalIdx n u t1).bind fun f1 => (finalIdx n u t2).bind fun f2 =>
      if f1 = f2 then some (u, true)
      else (normalize n u f1).bind fun n1 => (normalize n u f2).bind fun n2 =>
        match n1, n2 with
        | some a, some b =>
          match unifyTys a b with
          | some ps => unifyAll (unify n) ps u
          | none => some (u, false)
        | none, n2 => (occurs n u f1 f2).bind fun o =>
          if o = false then some (u.bind f1 f2, true)
          else match n2 with
            | none => (occurs n u f2 f1).bind fun o => if o = false then some (u.bind f2 f1, true) else some (u, false)
            | some _ => some (u, false)
        | some _, none => (occurs n u f2 f1).bind fun o => if o = false then some (u.bind f2 f1, true) else some (u, false)

/-- `self.slots[idx] = value` for every pending update, oldest first. -/
def setAll : List (Nat × Slot) → List Slot → List Slot
  | [], ss => ss
  | (k, s) :: ps, ss => (setAll ps ss).set k s

/-- `commit`, `typeck.rs:216-220`. -/
def Unifier.commit (u : Unifier) : Unifier := { slots := setAll u.pending u.slots, pending := [] }

/-- `rollback`, `typeck.rs:222-224`. -/
def Unifier.rollback (u : Unifier) : Unifier := { u with pending := [] }

/-- `TypeChecker::unify`, `typeck.rs:330-346`, without the diagnostic: the new unifier and whether
unification succeeded. -/
def unifyTop (n : Nat) (u : Unifier) (expected actual : Nat) : Option (Unifier × Bool) :=
  (unify n u expected actual).map fun r => if r.2 then (r.1.commit, true) else (r.1.rollback, false)

/-- `taint`, `typeck.rs:226-237`. -/
def taint : Nat → Unifier → Nat → Option Unifier
  | 0, _, _ => none
  | n + 1, u, i =>
    match u.slots[i]? with
    | some (.ty _) => some u
    | some (.next j) => taint n u j
    | some .infer => some { u with slots := u.slots.set i (.ty .error) }
    | none => none

/-- `ir::Type`. -/
inductive IrTy
  | int | bool | str
  | named (s : Symbol) (args : List IrTy)
  | fn (a b : IrTy)
  | folded (a b : IrTy)
  | error
  | infer

/-- `vars.iter().find(|(v, _)| v == s)`. -/
def findVar : List (Symbol × Nat) → Symbol → Option Nat
  | [], _ => none
  | (v, i) :: vs, s => if v = s then some i else findVar vs s

mutual
/-- `instantiate`, `typeck.rs:239-271`. -/
def instantiate (vars : List (Symbol × Nat)) : IrTy → Unifier → Unifier × Nat
  | .int, u => u.allocate .int
  | .bool, u => u.allocate .bool
  | .str, u => u.allocate .str
  | .named s args, u =>
    match findVar vars s with
    | some i => instArgs vars args i u
    | none => let r := u.allocate (.named s); instArgs vars args r.2 r.1
  | .fn a b, u =>
    let ra := instantiate vars a u
    let rb := instantiate vars b ra.1
    rb.1.allocate (.fn ra.2 rb.2)
  | .error, u => u.allocate .error
  | .infer, u => u.freshVar
  | .folded a b, u =>
    let ra := instantiate vars a u
    let rb := instantiate vars b ra.1
    rb.1.allocate (.folded ra.2 rb.2)
/-- The loop over the arguments of a named type, `typeck.rs:251-255`. -/
def instArgs (vars : List (Symbol × Nat)) : List IrTy → Nat → Unifier → Unifier × Nat
  | [], t, u => (u, t)
  | a :: as, t, u =>
    let ra := instantiate vars a u
    let rt := ra.1.allocate (.apply t ra.2)
    instArgs vars as rt.2 rt.1
end

/-- `to_ir`, `typeck.rs:273-309`.  The inner `none` is the panic "can only apply to named types". -/
def toIr : Nat → Unifier → Nat → Option (Option IrTy)
  | 0, _, _ => none
  | n + 1, u, i =>
    (normalize n u i).bind fun t =>
      match t with
      | none => some (some .infer)
      | some .bool => some (some .bool)
      | some .int => some (some .int)
      | some .str => some (some .str)
      | some (.named s) => some (some (.named s []))
      | some (.apply a b) => (toIr n u a).bind fun ra =>
          match ra with
          | some (.named s xs) => (toIr n u b).bind fun rb => some (rb.map fun b => .named s (xs ++ [b]))
          | _ => some none
      | some (.fn a b) => (toIr n u a).bind fun ra =>
          match ra with
          | none => some none
          | some a => (toIr n u b).bind fun rb => some (rb.map fun b => .fn a b)
      | some (.folded a b) => (toIr n u a).bind fun ra =>
          match ra with
          | none => some none
          | some a => (toIr n u b).bind fun rb => some (rb.map fun b => .folded a b)
      | some .error => some (some .error)

end Tic.Unify
