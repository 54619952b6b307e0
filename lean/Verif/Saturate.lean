import Verif.Inline
import Verif.Treewalk
/-
`ticc/src/codegen/opt/saturate.rs`: functions that take their arguments in several groups are
turned into functions that take them all at once, and every use is adapted.
-/
namespace Tic.Core

/-- `struct Rewrite`, `saturate.rs:6-9`. -/
structure Rewrite where
  vars : List TyVar
  groups : List (List Ty)

/-- `HashMap<ir::Name, Rewrite>`, `saturate.rs:12`: the newest entry first. -/
abbrev Rws := List (Name × Rewrite)

/-- `HashMap::get`, `saturate.rs:32`. -/
def getRw (m : Rws) (x : Name) : Option Rewrite := (m.find? fun p => p.1 == x).map (·.2)

/-! ### Which functions are collapsed -/

/-- The first loop of `get_arg_groups`, `saturate.rs:147-155`: the type variables. -/
def absVars : Ty → List TyVar
  | .abs v t => v :: absVars t
  | _ => []

/-- ... and the type below them. -/
def stripAbs : Ty → Ty
  | .abs _ t => stripAbs t
  | t => t

/-- The second loop of `get_arg_groups`, `saturate.rs:156-164`: the groups of parameters. -/
def fnGroups : Ty → List (List Ty)
  | .fn ts t => ts :: fnGroups t
  | _ => []

/-- The first loop of `get_actual_arg_groups`, `saturate.rs:170-178`. -/
def piVars : Expr → List TyVar
  | .pi v e => v :: piVars e
  | _ => []

/-- The second loop of `get_actual_arg_groups`, `saturate.rs:179-187`. -/
def lamGroups : Expr → List (List (Name × Ty))
  | .lam ps b => ps :: lamGroups b
  | _ => []

/-- The loop of `collapse_arg_groups`, `saturate.rs:192-202`, with the parameters so far. -/
def collapseTy (acc : List Ty) : Ty → Ty
  | .fn ts t => collapseTy (acc ++ ts) t
  | t => .fn acc t

/-- The loop of `collapse_lambdas`, `saturate.rs:207-217`, with the parameters so far. -/
def collapseLam (acc : List (Name × Ty)) : Expr → Expr
  | .lam ps b => collapseLam (acc ++ ps) b
  | e => .lam acc e

/-- Replacing what is below the type abstractions of a type, `saturate.rs:125-131,139`. -/
def underAbs (f : Ty → Ty) : Ty → Ty
  | .abs v t => .abs v (underAbs f t)
  | t => f t

/-- Replacing what is below the type abstractions of an expression, `saturate.rs:132-138,140`. -/
def underPi (f : Expr → Expr) : Expr → Expr
  | .pi v e => .pi v (underPi f e)
  | e => f e

/-- `check_for_rewrite`, `saturate.rs:111-142`: the rewrite to be recorded with the new type
and the new value. -/
def checkForRewrite (t : Ty) (e : Expr) : Option (Rewrite × Ty × Expr) :=
  let vars := absVars t
  let groups := fnGroups (stripAbs t)
  let actual := lamGroups (stripPis e)
  if groups.length < 2 then none
  else if vars.length ≠ (piVars e).length then none
  else if groups.map List.length ≠ actual.map List.length then none
  else some (⟨vars, groups⟩, underAbs (collapseTy []) t, underPi (collapseLam []) e)

/-! ### Adapting the uses -/

mutual
/-- `replace_ty_in_ty`, `saturate.rs:77-101`. -/
def satTy (var : TyVar) (w : Ty) : Ty → Ty
  | .var v => if v = var then w else .var v
  | .bool => .bool
  | .int => .int
  | .string => .string
  | .named n ts => .named n (satTys var w ts)
  | .fn ps t => .fn (satTys var w ps) (satTy var w t)
  | .abs v t => .abs v (satTy var w t)
/-- ... in a list. -/
def satTys (var : TyVar) (w : Ty) : List Ty → List Ty
  | [] => []
  | t :: ts => satTy var w t :: satTys var w ts
end

/-- `add_args`, `saturate.rs:103-109`; `none` is the panic. -/
def addArgs (args : List Name) : Expr → Option Expr
  | .lam ps b => (addArgs args b).map (.lam ps)
  | .call f xs => some (.call f (xs ++ args.map .name))
  | _ => none

/-- The generators of the program: `program.names` and `program.ty`. -/
abbrev Fresh := Gens

/-- The loop over the parameters of one group, `saturate.rs:53-65`: new names are numbered
consecutively (`ir.rs:136-145`). -/
def useParams (sub : Ty → Ty) : List Ty → Nat → List (Name × Ty) × Nat
  | [], n => ([], n)
  | t :: ts, n => let r := useParams sub ts (n + 1); ((n, sub t) :: r.1, r.2)

/-- The loop over the groups, `saturate.rs:50-68`: it starts with the last group. -/
def useGroups (sub : Ty → Ty) : List (List Ty) → Expr → List Name → Nat → Expr × List Name × Nat
  | [], res, extra, n => (res, extra, n)
  | g :: gs, res, extra, n =>
    let r := useParams sub g n
    useGroups sub gs (.lam r.1 res) (extra ++ (r.1.map (·.1)).reverse) r.2

/-- `rewrite_use`, `saturate.rs:38-75`. -/
def rewriteUse (x : Name) (r : Rewrite) (g : Fresh) : Option (Expr × Fresh) :=
  let inst := (List.range r.vars.length).map (g.tys + ·)
  let res := inst.foldl (fun e v => .piApp e (.var v)) (.name x)
  let sub := fun t => (r.vars.zip inst).foldl (fun t p => satTy p.1 (.var p.2) t) t
  let u := useGroups sub r.groups.reverse (.call res []) [] g.names
  (addArgs u.2.1.reverse u.1).map fun e =>
    (inst.reverse.foldl (fun e v => .pi v e) e, ⟨u.2.2, g.tys + r.vars.length⟩)

/-- A stateful function along a list. -/
def mapSt {σ : Type} (g : Expr → σ → Option (Expr × σ)) : List Expr → σ → Option (List Expr × σ)
  | [], st => some ([], st)
  | e :: es, st => (g e st).bind fun r => (mapSt g es r.2).map fun r2 => (r.1 :: r2.1, r2.2)

/-- `rewrite_expr`, `saturate.rs:30-36`. -/
def rewriteExpr (m : Rws) (e : Expr) (g : Fresh) : Option (Expr × Fresh) :=
  match e with
  | .name x => match getRw m x with
    | some r => rewriteUse x r g
    | none => some (e, g)
  | _ => some (e, g)

/-- `walk_expressions_postorder_mut` (`opt.rs:174-226`) with `rewrite_expr`, down to depth `n`;
`usesN_stable` shows that the size of the expression is depth enough. -/
def usesN (m : Rws) : Nat → Expr → Fresh → Option (Expr × Fresh)
  | 0, e, g => some (e, g)
  | n + 1, e, g => (mapSt (usesN m n) ((children e).map (·.2)) g).bind fun r => rewriteExpr m (rebuild e r.1) r.2

/-- The closure in `optimize`, `saturate.rs:19-25`. -/
def collapseNode (e : Expr) (m : Rws) : Expr × Rws :=
  match e with
  | .letrec n t v b => match checkForRewrite t v with
    | some (r, t', v') => (.letrec n t' v' b, (n, r) :: m)
    | none => (e, m)
  | _ => (e, m)

/-- A stateful function along a list. -/
def mapRw (g : Expr → Rws → Expr × Rws) : List Expr → Rws → List Expr × Rws
  | [], m => ([], m)
  | e :: es, m => let r := g e m; let r2 := mapRw g es r.2; (r.1 :: r2.1, r2.2)

/-- `walk_expressions_mut` (`opt.rs:118-172`) with that closure, down to depth `n`;
`collapseN_stable` shows that the size of the expression is depth enough. -/
def collapseN : Nat → Expr → Rws → Expr × Rws
  | 0, e, m => (e, m)
  | n + 1, e, m =>
    let r := collapseNode e m
    let cs := mapRw (collapseN n) ((children r.1).map (·.2)) r.2
    (rebuild r.1 cs.1, cs.2)

/-- The definition itself, `saturate.rs:16-18`: its type, its value and what is recorded. -/
def rewriteDef (d : ValueDef) (m : Rws) : Ty × Expr × Rws :=
  match checkForRewrite d.ty d.value with
  | some (r, t, v) => (t, v, (d.name, r) :: m)
  | none => (d.ty, d.value, m)

/-- The loop over the definitions, `saturate.rs:15-27`. -/
def satDefs : List ValueDef → Rws → Fresh → Option (List ValueDef × Rws × Fresh)
  | [], m, g => some ([], m, g)
  | d :: ds, m, g =>
    let c := rewriteDef d m
    let w := collapseN (esize c.2.1) c.2.1 c.2.2
    (usesN w.2 (esize w.1) w.1 g).bind fun u =>
      (satDefs ds w.2 u.2).map fun r => ({ d with ty := c.1, value := u.1 } :: r.1, r.2)

/-- `optimize`, `saturate.rs:11-28`; `none` would be a panic. -/
def saturate (g : Gens) (p : Program) : Option (Program × Gens) :=
  (satDefs p.defs [] g).map fun r => ({ p with defs := r.1 }, r.2.2)

end Tic.Core
