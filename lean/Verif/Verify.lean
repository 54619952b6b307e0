import Verif.Ir
/-
The verifier of core programs, `ticc-core/src/verify.rs` (`assert_valid`), which the
compiler's tests and debug builds run on what code generation and the optimizer produce.
A Rust panic of the verifier is `none`.
-/
namespace Tic.Core

mutual
/-- Equality of types (`PartialEq` derived at `ir.rs:38`, used at `verify.rs:212,260`). -/
def tyEq : Ty → Ty → Bool
  | .bool, .bool => true
  | .int, .int => true
  | .string, .string => true
  | .var a, .var b => a == b
  | .named n xs, .named m ys => n == m && tysEq xs ys
  | .fn xs x, .fn ys y => tysEq xs ys && tyEq x y
  | .abs a x, .abs b y => a == b && tyEq x y
  | _, _ => false
/-- ... of lists of types. -/
def tysEq : List Ty → List Ty → Bool
  | [], [] => true
  | x :: xs, y :: ys => tyEq x y && tysEq xs ys
  | _, _ => false
end

/-- What the verifier remembers about a constructor, `verify.rs:88-93`. -/
structure Ctor where
  tyName : Name
  vars : List TyVar
  fields : List Ty

/-- State of the verifier: `Names` (`verify.rs:38-44`) and `Validator` (`verify.rs:95-100`).
Sets are lists, maps are association lists whose first entry counts. -/
structure VSt where
  defined : List Name := []
  inScope : List Name := []
  definedTy : List TyVar := []
  inScopeTy : List TyVar := []
  kinds : List (Name × Nat) := []
  types : List (Name × Ty) := []
  ctors : List (Name × Ctor) := []

/-- Looking up a map. -/
def vget {α : Type} (n : Name) : List (Name × α) → Option α
  | [] => none
  | (k, v) :: m => if k = n then some v else vget n m

/-- `Names::enter`, `verify.rs:47-55`; `L` is the program's `id_limit`. -/
def VSt.enter (L : Nat) (st : VSt) (n : Name) : Option VSt :=
  if L ≤ n then none
  else if n ∈ st.defined then none
  else some { st with defined := n :: st.defined, inScope := n :: st.inScope }

/-- `Names::exit`, `verify.rs:57-61`. -/
def VSt.exit (st : VSt) (n : Name) : Option VSt :=
  if n ∈ st.inScope then some { st with inScope := st.inScope.filter (fun m => m != n) } else none

/-- Several `exit`s (`verify.rs:238-240,267-269`). -/
def VSt.exits : VSt → List Name → Option VSt
  | st, [] => some st
  | st, n :: ns => (st.exit n).bind fun st => st.exits ns

/-- `Names::enter_ty`, `verify.rs:69-74`. -/
def VSt.enterTy (st : VSt) (v : TyVar) : Option VSt :=
  if v ∈ st.definedTy then none
  else some { st with definedTy := v :: st.definedTy, inScopeTy := v :: st.inScopeTy }

/-- Several `enter_ty`s (`verify.rs:106-108`). -/
def VSt.enterTys : VSt → List TyVar → Option VSt
  | st, [] => some st
  | st, v :: vs => (st.enterTy v).bind fun st => st.enterTys vs

/-- `Names::exit_ty`, `verify.rs:76-80`. -/
def VSt.exitTy (st : VSt) (v : TyVar) : Option VSt :=
  if v ∈ st.inScopeTy then some { st with inScopeTy := st.inScopeTy.filter (fun w => w != v) } else none

/-- Several `exit_ty`s (`verify.rs:112-114`). -/
def VSt.exitTys : VSt → List TyVar → Option VSt
  | st, [] => some st
  | st, v :: vs => (st.exitTy v).bind fun st => st.exitTys vs

/-- `types.insert`. -/
def VSt.setTy (st : VSt) (n : Name) (t : Ty) : VSt := { st with types := (n, t) :: st.types }

mutual
/-- `check_ty`, `verify.rs:130-159`. -/
def checkTy (st : VSt) : Ty → Option VSt
  | .bool => some st
  | .int => some st
  | .string => some st
  | .var v => if v ∈ st.inScopeTy then some st else none
  | .named n args =>
    if n ∈ st.inScope then
      (vget n st.kinds).bind fun k => if k = args.length then checkTys st args else none
    else none
  | .fn ps out => (checkTys st ps).bind fun st => checkTy st out
  | .abs v t => (st.enterTy v).bind fun st => (checkTy st t).bind fun st => st.exitTy v
/-- ... on each of a list of types. -/
def checkTys (st : VSt) : List Ty → Option VSt
  | [] => some st
  | t :: ts => (checkTy st t).bind fun st => checkTys st ts
end

/-- `check_ty_case`, `verify.rs:117-128`. -/
def checkTyCase (L : Nat) (ty : Name) (vars : List TyVar) (st : VSt) (c : TyCase) : Option VSt :=
  (st.enter L c.name).bind fun st => (checkTys st c.fields).bind fun st =>
    some { st with ctors := (c.name, ⟨ty, vars, c.fields⟩) :: st.ctors }

/-- ... on each case (`verify.rs:109-111`). -/
def checkTyCases (L : Nat) (ty : Name) (vars : List TyVar) : VSt → List TyCase → Option VSt
  | st, [] => some st
  | st, c :: cs => (checkTyCase L ty vars st c).bind fun st => checkTyCases L ty vars st cs

/-- `check_ty_def`, `verify.rs:103-115`. -/
def checkTyDef (L : Nat) (st : VSt) (d : TyDef) : Option VSt :=
  (st.enter L d.name).bind fun st =>
    (({ st with kinds := (d.name, d.vars.length) :: st.kinds } : VSt).enterTys d.vars).bind fun st =>
      (checkTyCases L d.name d.vars st d.cases).bind fun st => st.exitTys d.vars

/-- ... on each type definition (`verify.rs:22-24`). -/
def checkTyDefs (L : Nat) : VSt → List TyDef → Option VSt
  | st, [] => some st
  | st, d :: ds => (checkTyDef L st d).bind fun st => checkTyDefs L st ds

mutual
/-- `replace`, `verify.rs:391-417`: it goes under every binder, also one for the same variable. -/
def replace (a : TyVar) (u : Ty) : Ty → Ty
  | .bool => .bool
  | .int => .int
  | .string => .string
  | .var v => if v = a then u else .var v
  | .named n args => .named n (replaceL a u args)
  | .fn ps out => .fn (replaceL a u ps) (replace a u out)
  | .abs v t => .abs v (replace a u t)
/-- ... in each of a list of types. -/
def replaceL (a : TyVar) (u : Ty) : List Ty → List Ty
  | [] => []
  | t :: ts => replace a u t :: replaceL a u ts
end

/-- Replacing several variables one after the other (`verify.rs:254-256,281-283`). -/
def replaceAll : List TyVar → List Ty → Ty → Ty
  | a :: as, u :: us, t => replaceAll as us (replace a u t)
  | _, _, t => t

mutual
/-- `check` inside `assert_fits`, `verify.rs:358-382`: the pairs of bound variables seen so
far, if the types agree.  (Where the Rust function returns `false` the pairs no longer matter:
every caller returns `false` as well.) -/
def fitsP (ps : List (TyVar × TyVar)) : Ty → Ty → Option (List (TyVar × TyVar))
  | .bool, .bool => some ps
  | .int, .int => some ps
  | .string, .string => some ps
  | .var a, .var b => if a = b ∨ (a, b) ∈ ps then some ps else none
  | .named a ax, .named b bx => if a = b ∧ ax.length = bx.length then fitsL ps ax bx else none
  | .fn a1 a2, .fn b1 b2 =>
    if a1.length = b1.length then (fitsL ps a1 b1).bind fun ps => fitsP ps a2 b2 else none
  | .abs a at', .abs b bt => fitsP ((a, b) :: ps) at' bt
  | _, _ => none
/-- ... on two lists of types (`zip(..).all(..)`). -/
def fitsL (ps : List (TyVar × TyVar)) : List Ty → List Ty → Option (List (TyVar × TyVar))
  | a :: as, b :: bs => (fitsP ps a b).bind fun ps => fitsL ps as bs
  | _, _ => some ps
end

/-- `assert_fits`, `verify.rs:357-389`. -/
def fits (actual expected : Ty) : Bool := (fitsP [] actual expected).isSome

/-- Types of an intrinsic's parameters, `verify.rs:184-207`. -/
def intrParams : Intrinsic → List Ty
  | .stringLen => [.string]
  | .stringConcat => [.string, .string]
  | .stringCharAt => [.int, .string]
  | .stringSubstring => [.int, .int, .string]
  | .stringFromChar => [.int]
  | .intToString => [.int]

/-- Type of an intrinsic's result, `verify.rs:184-207`. -/
def intrResult : Intrinsic → Ty
  | .stringLen => .int
  | .stringConcat => .string
  | .stringCharAt => .int
  | .stringSubstring => .string
  | .stringFromChar => .string
  | .intToString => .string

/-- Type of an operator's result, `verify.rs:222-234`. -/
def opResult : Op → Ty
  | .add | .subtract | .multiply | .divide | .modulo => .int
  | _ => .bool

/-- Entering the parameters of a lambda, `verify.rs:236-240`. -/
def enterPs (L : Nat) : VSt → List (Name × Ty) → Option VSt
  | st, [] => some st
  | st, (n, t) :: ps => (st.enter L n).bind fun st => (checkTy st t).bind fun st => enterPs L (st.setTy n t) ps

/-- Entering the bindings of a match branch, `verify.rs:252-258`; the caller has checked that
there are as many fields as bindings. -/
def enterBinds (L : Nat) (vars : List TyVar) (args : List Ty) : VSt → List Name → List Ty → Option VSt
  | st, n :: ns, f :: fs => (st.enter L n).bind fun st => enterBinds L vars args (st.setTy n (replaceAll vars args f)) ns fs
  | st, _, _ => some st

/-- Comparing the type of a branch with that of the earlier ones, `verify.rs:260-266`. -/
def joinTy (acc : Option Ty) (t : Ty) : Option Ty :=
  match acc with
  | none => some t
  | some t' => if tyEq t' t then some t' else none

mutual
/-- `check_expr`, `verify.rs:161-343`: the type of the expression. -/
def checkExpr (L : Nat) (st : VSt) : Expr → Option (Ty × VSt)
  | .bool _ => some (.bool, st)
  | .int _ => some (.int, st)
  | .str _ => some (.string, st)
  | .name n => if n ∈ st.inScope then (vget n st.types).bind fun t => some (t, st) else none
  | .call f xs =>
    (checkExpr L st f).bind fun r =>
      match r.1 with
      | .fn ps out =>
        if ps.length = xs.length then (checkArgs L r.2 ps xs).bind fun st => some (out, st) else none
      | _ => none
  | .intr i xs =>
    if (intrParams i).length = xs.length then
      (checkArgs L st (intrParams i) xs).bind fun st => some (intrResult i, st)
    else none
  | .ite c t e =>
    (checkExpr L st c).bind fun c => if fits c.1 .bool then
      (checkExpr L c.2 t).bind fun t => (checkExpr L t.2 e).bind fun e =>
        if tyEq t.1 e.1 then some (t.1, e.2) else none
    else none
  | .op a o b =>
    (checkExpr L st a).bind fun a => if fits a.1 .int then
      (checkExpr L a.2 b).bind fun b => if fits b.1 .int then some (opResult o, b.2) else none
    else none
  | .lam ps b =>
    (enterPs L st ps).bind fun st => (checkExpr L st b).bind fun b =>
      (b.2.exits (ps.map (·.1))).bind fun st => some (.fn (ps.map (·.2)) b.1, st)
  | .mtch e bs =>
    (checkExpr L st e).bind fun r =>
      match r.1 with
      | .named n args => (checkBranches L n args r.2 none bs).bind fun r => r.1.bind fun t => some (t, r.2)
      | _ => none
  | .con c tys fields =>
    (vget c st.ctors).bind fun d =>
      if d.vars.length = tys.length ∧ d.fields.length = fields.length then
        (checkFields L d.vars tys st d.fields fields).bind fun st => some (.named d.tyName tys, st)
      else none
  | .let_ n a b =>
    (checkExpr L st a).bind fun a => ((a.2.setTy n a.1).enter L n).bind fun st =>
      (checkExpr L st b).bind fun b => (b.2.exit n).bind fun st => some (b.1, st)
  | .letrec n t a b =>
    (checkTy st t).bind fun st => (st.enter L n).bind fun st =>
      (checkExpr L (st.setTy n t) a).bind fun a => if fits a.1 t then
        (checkExpr L a.2 b).bind fun b => (b.2.exit n).bind fun st => some (b.1, st)
      else none
  | .trap _ t => (checkTy st t).bind fun st => some (t, st)
  | .pi v e =>
    (st.enterTy v).bind fun st => (checkExpr L st e).bind fun e =>
      (e.2.exitTy v).bind fun st => some (.abs v e.1, st)
  | .piApp e u =>
    (checkExpr L st e).bind fun r =>
      match r.1 with
      | .abs v t => some (replace v u t, r.2)
      | _ => none
/-- Checking arguments against parameter types, `verify.rs:174-177,345-353`. -/
def checkArgs (L : Nat) (st : VSt) : List Ty → List Expr → Option VSt
  | t :: ts, x :: xs => (checkExpr L st x).bind fun x => if fits x.1 t then checkArgs L x.2 ts xs else none
  | _, _ => some st
/-- Checking constructor fields, `verify.rs:279-287`: here the declared type is the `actual`
side of `assert_fits`. -/
def checkFields (L : Nat) (vars : List TyVar) (tys : List Ty) (st : VSt) : List Ty → List Expr → Option VSt
  | f :: fs, x :: xs =>
    (checkExpr L st x).bind fun x => if fits (replaceAll vars tys f) x.1 then checkFields L vars tys x.2 fs xs else none
  | _, _ => some st
/-- Checking match branches, `verify.rs:246-271`. -/
def checkBranches (L : Nat) (ty : Name) (args : List Ty) (st : VSt) (acc : Option Ty) :
    List Branch → Option (Option Ty × VSt)
  | [] => some (acc, st)
  | .mk c ns e :: bs =>
    (vget c st.ctors).bind fun d =>
      if ty = d.tyName ∧ d.vars.length = args.length ∧ d.fields.length = ns.length then
        (enterBinds L d.vars args st ns d.fields).bind fun st => (checkExpr L st e).bind fun r =>
          (joinTy acc r.1).bind fun t => (r.2.exits ns).bind fun st => checkBranches L ty args st (some t) bs
      else none
end

/-- The definitions of a program, `verify.rs:25-31`. -/
def checkDefs (L : Nat) : VSt → List ValueDef → Option VSt
  | st, [] => some st
  | st, d :: ds =>
    (checkTy st d.ty).bind fun st => (checkExpr L st d.value).bind fun r =>
      if fits r.1 d.ty then (r.2.enter L d.name).bind fun st => checkDefs L (st.setTy d.name r.1) ds else none

/-- `assert_valid`, `verify.rs:4-6,8-31`; `L` is `program.names.id_limit()`. -/
def verify (L : Nat) (p : Program) : Option VSt :=
  (checkTyDefs L {} p.types).bind fun st => checkDefs L st p.defs

/-- The extra values of `assert_valid_with_values`, `verify.rs:32-35`. -/
def checkValues (L : Nat) : VSt → List (Expr × Ty) → Option VSt
  | st, [] => some st
  | st, (e, t) :: vs => (checkExpr L st e).bind fun r => if fits r.1 t then checkValues L r.2 vs else none

end Tic.Core
