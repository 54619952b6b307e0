import Verif.TypeckItem
import Verif.Typing
import Verif.Treewalk
/-
Generating core from checked source: `ticc/src/codegen/gen_core.rs`.

Types of syntax nodes, types of symbols and type arguments (`types`, `symbol_types`, `insts`,
`name_symbols`) are annotations of the tree (see `Source`).  Names and type variables of core are
numbers taken from counters (`ticc-core/src/ir.rs:110-178`); the debug names kept beside them are
not modelled here.  Every panic of the generator (a missing map entry, an assertion, a type that
must not occur) is `none`.
-/
namespace Tic.Front
open Tic.Unify (Symbol IrTy)
open Tic.Core (Name TyVar Ty Expr Branch ValueDef TyCase TyDef Program)

/-- `Ctor`, `gen_core.rs:73-80`. -/
structure Ctor where
  sym : Symbol
  regular : Name
  folded : Name
  ctorFn : Name
  foldedCtorFn : Name

/-- `Generator`, `gen_core.rs:82-96`. -/
structure Gen where
  names : Name := 0
  tys : TyVar := 0
  symNames : Symbol → Option Name := fun _ => none
  foldedNames : Symbol → Option Name := fun _ => none
  tyVars : Symbol → Option TyVar := fun _ => none
  ctorFields : Symbol → Option (List Field) := fun _ => none
  ctors : Symbol → Option Ctor := fun _ => none
  typeCtors : Name → Option (List Ctor) := fun _ => none
  types : List TyDef := []
  defs : List ValueDef := []

/-- `new_fresh`, `next_synthetic` (`ticc-core/src/ir.rs:120-150`), `gen_fake_name` and
`gen_invisible_name`, `gen_core.rs:333-340`: a new name. -/
def Gen.fresh (g : Gen) : Gen × Name := ({ g with names := g.names + 1 }, g.names)

/-- `gen_name`, `gen_core.rs:326-331`: a new name for a symbol. -/
def Gen.genName (g : Gen) (s : Symbol) : Gen × Name :=
  ({ g with names := g.names + 1, symNames := setAt g.symNames s g.names }, g.names)

/-- New names for several symbols (`gen_core.rs:424-428`). -/
def Gen.genNames : Gen → List Symbol → Gen × List Name
  | g, [] => (g, [])
  | g, s :: ss =>
    let r := g.genName s
    let rs := r.1.genNames ss
    (rs.1, r.2 :: rs.2)

/-- Several synthetic names (`gen_core.rs:164-166`). -/
def Gen.freshes : Gen → Nat → Gen × List Name
  | g, 0 => (g, [])
  | g, n + 1 =>
    let r := g.fresh
    let rs := r.1.freshes n
    (rs.1, r.2 :: rs.2)

/-- `TyGenerator::next`, `ticc-core/src/ir.rs:173-177`. -/
def Gen.freshTy (g : Gen) : Gen × TyVar := ({ g with tys := g.tys + 1 }, g.tys)

/-- `fresh_inst`, `gen_core.rs:567-572`. -/
def Gen.freshInst : Gen → List Symbol → Gen
  | g, [] => g
  | g, s :: ss => Gen.freshInst { g with tys := g.tys + 1, tyVars := setAt g.tyVars s g.tys } ss

mutual
/-- `gen_ty`, `gen_core.rs:574-623`. -/
def genTy (g : Gen) : IrTy → Option Ty
  | .int => some .int
  | .bool => some .bool
  | .str => some .string
  | .named s args => match g.tyVars s with
    | some v => if args.isEmpty then some (.var v) else none
    | none => (g.symNames s).bind fun n => (genTys g args).map fun ts => .named n ts
  | .fn a b => (genTy g a).bind fun a => (genTy g b).map fun b => .fn [a] b
  | .error => none
  | .infer => some .int
  | .folded (.named s args) to => match g.tyVars s with
    | some v => if args.isEmpty then some (.var v) else none
    | none => (g.foldedNames s).bind fun n => (genTy g to).bind fun t => (genTys g args).map fun ts => .named n (ts ++ [t])
  | .folded t _ => genTy g t
/-- ... of a list of types. -/
def genTys (g : Gen) : List IrTy → Option (List Ty)
  | [] => some []
  | t :: ts => (genTy g t).bind fun t => (genTys g ts).map fun ts => t :: ts
end

/-- Wrapping in type abstractions, the first variable outermost (`gen_core.rs:204-215`). -/
def pis (vs : List TyVar) (e : Expr) : Expr := vs.foldr .pi e

/-- Wrapping a type in abstractions, the first variable outermost. -/
def absTys (vs : List TyVar) (t : Ty) : Ty := vs.foldr .abs t

/-- `inst_ty`, `gen_core.rs:557-565`. -/
def Gen.instTy (g : Gen) (vars : List Symbol) (t : IrTy) : Option (Gen × Ty) :=
  let g := g.freshInst vars
  (genTy g t).bind fun t => (mapOpt g.tyVars vars).map fun vs => (g, absTys vs t)

/-- Applying a name to its type arguments (`gen_core.rs:350-357`). -/
def piApps : Expr → List Ty → Expr
  | e, [] => e
  | e, t :: ts => piApps (.piApp e t) ts

/-- A field of the rebuilt value: recursive fields are folded (`gen_core.rs:499-505`). -/
def foldField (fold : Name) (f : Field) (n : Name) : Expr :=
  match f with
  | .rec_ => .call (.name fold) [.name n]
  | .ty _ => .name n

/-- One branch per constructor, rebuilding the value with folded recursive fields
(`gen_core.rs:486-517`). -/
def foldBranches (fold : Name) (args : List Ty) (out : Ty) : Gen → List Ctor → Option (Gen × List Branch)
  | g, [] => some (g, [])
  | g, c :: cs => (g.ctorFields c.sym).bind fun fields =>
    let r := g.freshes fields.length
    let params := (fields.zip r.2).map fun p => foldField fold p.1 p.2
    (foldBranches fold args out r.1 cs).map fun rs =>
      (rs.1, .mk c.regular r.2 (.con c.folded (args ++ [out]) params) :: rs.2)

/-- What a fold binds its parameter to: the argument `temp`, rebuilt if its type is a declared type
(`gen_core.rs:484-523`). -/
def foldParam (fold temp : Name) (pty out : Ty) (g : Gen) : Option (Gen × Expr) :=
  match pty with
  | .named n args => (g.typeCtors n).bind fun cs =>
    (foldBranches fold args out g cs).map fun rs => (rs.1, .mtch (.name temp) rs.2)
  | _ => some (g, .name temp)

/-- Is the discriminant the parameter of a fold? (`gen_core.rs:414-418`) -/
def foldedMatch : IrTy → Option Bool
  | .named _ _ => some false
  | .folded _ _ => some true
  | _ => none

/-- The constructor name a case is for (`gen_core.rs:432-436`). -/
def Gen.caseName (g : Gen) (folded : Bool) (c : Symbol) : Option Name :=
  (g.ctors c).map fun c => if folded then c.folded else c.regular

mutual
/-- `gen_expr`, `gen_core.rs:347-555`. -/
def genExpr : Gen → Ex IrTy → Option (Gen × Expr)
  | g, .name s inst => (g.symNames s).bind fun n => (genTys g inst).map fun ts => (g, piApps (.name n) ts)
  | g, .apply f a => (genExpr g f).bind fun rf => (genExpr rf.1 a).map fun ra => (ra.1, .call rf.2 [ra.2])
  | g, .binary o l r => (genExpr g l).bind fun rl => (genExpr rl.1 r).map fun rr => (rr.1, .op rl.2 o rr.2)
  | g, .pipe l r => (genExpr g l).bind fun rl => (genExpr rl.1 r).map fun rr => (rr.1, .call rr.2 [rl.2])
  | g, .let_ s vars _ _ v rest =>
    let n := g.genName s
    (genExpr (n.1.freshInst vars) v).bind fun rv =>
      (mapOpt rv.1.tyVars vars).bind fun vs =>
        (genExpr rv.1 rest).map fun rr => (rr.1, .let_ n.2 (pis vs rv.2) rr.2)
  | g, .match_ d dty cases =>
    (genExpr g d).bind fun rd => (foldedMatch dty).bind fun folded =>
      (genCases folded rd.1 cases).map fun rc => (rc.1, .mtch rd.2 rc.2)
  | g, .ite c t e => (genExpr g c).bind fun rc => (genExpr rc.1 t).bind fun rt => (genExpr rt.1 e).map fun re => (re.1, .ite rc.2 rt.2 re.2)
  | g, .bool b => some (g, .bool b)
  | g, .number i => some (g, .int i)
  | g, .str s => some (g, .str s)
  | g, .lambda true p _ fty body =>
    (genTy g fty).bind fun foldTy => match foldTy with
      | .fn [pty] out =>
        let real := g.genName p
        let temp := real.1.fresh
        let fold := temp.1.fresh
        (genExpr fold.1 body).bind fun rb =>
          (foldParam fold.2 temp.2 pty out rb.1).map fun rf =>
            (rf.1, .letrec fold.2 foldTy (.lam [(temp.2, pty)] (.let_ real.2 rf.2 rb.2)) (.name fold.2))
      | _ => none
  | g, .lambda false p pty _ body =>
    let n := g.genName p
    (genExpr n.1 body).bind fun rb => (rb.1.instTy [] pty).map fun rt => (rt.1, .lam [(n.2, rt.2)] rb.2)
  | g, .paren e => genExpr g e
  | g, .hole text ty => (genTy g ty).map fun t => (g, .trap ("encountered " ++ text) t)
/-- The cases of a match, `gen_core.rs:419-440`. -/
def genCases (folded : Bool) : Gen → List (Case IrTy) → Option (Gen × List Branch)
  | g, [] => some (g, [])
  | g, .mk c vars body :: cs =>
    let ns := g.genNames (vars.map (·.1))
    (genExpr ns.1 body).bind fun rb => (rb.1.caseName folded c).bind fun cn =>
      (genCases folded rb.1 cs).map fun rs => (rs.1, .mk cn ns.2 rb.2 :: rs.2)
end

/-! ### Items -/

/-- The type of a constructor's field (`gen_core.rs:138-147,176-186,220-230`). -/
def genField (g : Gen) (recTy : Ty) : Field → Option Ty
  | .rec_ => some recTy
  | .ty t => genTy g t

/-- The constructors of a type definition, `gen_core.rs:129-150`. -/
def genTyCases (recTy : Ty) : Gen → List Symbol → Option (Gen × List TyCase)
  | g, [] => some (g, [])
  | g, c :: cs =>
    let r := g.fresh
    (r.1.ctorFields c).bind fun fields => (mapOpt (genField r.1 recTy) fields).bind fun ts =>
      (genTyCases recTy r.1 cs).map fun rs => (rs.1, ⟨r.2, ts⟩ :: rs.2)

/-- A new type variable for the results of a fold (`folded_inst`, `gen_core.rs:161,214`). -/
def Gen.foldedInst (g : Gen) (functor : Bool) : Gen × List TyVar :=
  if functor then ({ g with tys := g.tys + 1 }, [g.tys]) else (g, [])

/-- The type of recursive fields: the type itself, or the variable for results. -/
def recFieldTy (name : Name) (vs folded : List TyVar) : Ty :=
  match folded with
  | v :: _ => .var v
  | [] => .named name (vs.map .var)

/-- A constructor as a function, its definition and the record of its names,
`gen_core.rs:151-270`. -/
def genCtorFn (functor : Bool) (tyName : Name) (vars : List Symbol) (g : Gen) (c : Symbol) (caseName : Name) : Option Gen :=
  let n := if functor then g.fresh else g.genName c
  (n.1.ctorFields c).bind fun fields =>
    let fi := n.1.foldedInst functor
    let g := fi.1.freshInst vars
    let ps := g.freshes fields.length
    let g := ps.1
    (mapOpt g.tyVars vars).bind fun vs => (mapOpt (genField g (recFieldTy tyName vs fi.2)) fields).bind fun ts =>
      let construct := pis (vs ++ fi.2)
        ((ps.2.zip ts).foldr (fun p e => .lam [p] e) (.con caseName ((vs ++ fi.2).map .var) (ps.2.map .name)))
      let fi := g.foldedInst functor
      let g := fi.1.freshInst vars
      (mapOpt g.tyVars vars).bind fun vs => (mapOpt (genField g (recFieldTy tyName vs fi.2)) fields).map fun ts =>
        let ty := absTys (vs ++ fi.2) (ts.foldr (fun t u => .fn [t] u) (.named tyName ((vs ++ fi.2).map .var)))
        let ctor : Ctor := match g.ctors c with
          | some k => if functor then { k with folded := caseName, foldedCtorFn := n.2 } else { k with regular := caseName, ctorFn := n.2 }
          | none => ⟨c, caseName, caseName, n.2, n.2⟩
        { g with
          defs := if functor then g.defs else g.defs ++ [⟨n.2, none, ty, construct⟩]
          ctors := setAt g.ctors c ctor }

/-- ... for all constructors of a type. -/
def genCtorFns (functor : Bool) (tyName : Name) (vars : List Symbol) : Gen → List (Symbol × Name) → Option Gen
  | g, [] => some g
  | g, p :: ps => (genCtorFn functor tyName vars g p.1 p.2).bind fun g => genCtorFns functor tyName vars g ps

/-- `gen_type_item`, `gen_core.rs:99-288`. -/
def genTypeItem (functor : Bool) (g : Gen) (d : TypeDecl) : Option Gen :=
  let n := if functor then ({ g.fresh.1 with foldedNames := setAt g.foldedNames d.sym g.names }, g.names) else g.genName d.sym
  let g := n.1.freshInst d.vars
  (mapOpt g.tyVars d.vars).bind fun vs =>
    let fi := g.foldedInst functor
    let syms := d.ctors.map (·.1)
    (genTyCases (recFieldTy n.2 vs fi.2) fi.1 syms).bind fun rc =>
      (genCtorFns functor n.2 d.vars rc.1 (syms.zip (rc.2.map (·.name)))).bind fun g =>
        (mapOpt g.ctors syms).map fun cs =>
          let other := if functor then g.symNames d.sym else g.foldedNames d.sym
          let tc := match other with
            | some o => setAt g.typeCtors o cs
            | none => g.typeCtors
          { g with
            typeCtors := setAt tc n.2 cs
            types := g.types ++ [⟨n.2, vs ++ fi.2, rc.2⟩] }

/-- The functions the compiler itself provides, `builtin.rs:99-108`. -/
inductive Builtin
  | iterate | stringLength | stringConcat | stringCharAt | stringSubstring | stringFromChar | intToString
deriving DecidableEq, Repr

/-- A chain of functions with one parameter each. -/
def lams (ps : List (Name × Ty)) (e : Expr) : Expr := ps.foldr (fun p e => .lam [p] e) e

/-- A function that passes its parameters to an intrinsic, `gen_core.rs:695-799`. -/
def intrFn (g : Gen) (i : Core.Intrinsic) (tys : List Ty) : Gen × Expr :=
  let r := g.freshes tys.length
  (r.1, lams (r.2.zip tys) (.intr i (r.2.map .name)))

/-- `iterate_intrinsic`, `gen_core.rs:625-693`. -/
def iterateFn (g : Gen) : Gen × Expr :=
  let a := g.tys
  let n := g.names
  let f := n + 1
  let x := n + 2
  let go := n + 3
  let n2 := n + 4
  let x2 := n + 5
  ({ g with tys := g.tys + 1, names := g.names + 6 },
    .pi a (.lam [(n, .int)] (.lam [(f, .fn [.var a] (.var a))] (.lam [(x, .var a)]
      (.letrec go (.fn [.int, .var a] (.var a))
        (.lam [(n2, .int), (x2, .var a)]
          (.ite (.op (.name n2) .lessEq (.int 0)) (.name x2)
            (.call (.name go) [.op (.name n2) .subtract (.int 1), .call (.name f) [.name x2]])))
        (.call (.name go) [.name n, .name x]))))))

/-- The built-in functions, `gen_core.rs:300-314`. -/
def genBuiltin (g : Gen) : Builtin → Gen × Expr
  | .iterate => iterateFn g
  | .stringLength => intrFn g .stringLen [.string]
  | .stringConcat => intrFn g .stringConcat [.string, .string]
  | .stringCharAt => intrFn g .stringCharAt [.int, .string]
  | .stringSubstring => intrFn g .stringSubstring [.int, .int, .string]
  | .stringFromChar => intrFn g .stringFromChar [.int]
  | .intToString => intrFn g .intToString [.int]

/-- Top-level items.  An imported module comes with its key and its items. -/
inductive Item
  | value (s : Symbol) (exported : Option String) (sch : Scheme) (body : Ex IrTy)
  | type (d : TypeDecl)
  | imports (key : Nat) (items : List Item)

/-- The value of a value item, `gen_core.rs:299-322`. -/
def genItemValue (I : Symbol → Option Builtin) (g : Gen) (s : Symbol) (vars : List Symbol) (body : Ex IrTy) : Option (Gen × Expr) :=
  match I s with
  | some b => some (genBuiltin g b)
  | none => (genExpr g body).bind fun rv => (mapOpt rv.1.tyVars vars).map fun vs => (rv.1, pis vs rv.2)

/-- `gen_value_item`, `gen_core.rs:290-324`; `I` are the symbols of the built-in functions
(`builtin.rs:58-97`). -/
def genValueItem (I : Symbol → Option Builtin) (emitExports : Bool) (g : Gen) (s : Symbol) (exported : Option String) (sch : Scheme)
    (body : Ex IrTy) : Option Gen :=
  let n := g.genName s
  (n.1.instTy sch.vars sch.ty).bind fun rt =>
    (genItemValue I (rt.1.freshInst sch.vars) s sch.vars body).map fun rv =>
      { rv.1 with defs := rv.1.defs ++ [⟨n.2, if emitExports then exported else none, rt.2, rv.2⟩] }

/-- Registering the fields of constructors, `gen_core.rs:37-40`. -/
def Gen.addFields (g : Gen) (d : TypeDecl) : Gen :=
  { g with ctorFields := d.ctors.foldl (fun f c => setAt f c.1 c.2) g.ctorFields }

mutual
/-- One item, `gen_core.rs:31-69`: a module is emitted when it is first imported. -/
def emitItem (I : Symbol → Option Builtin) (emitExports : Bool) : List Nat × Gen → Item → Option (List Nat × Gen)
  | (done, g), .value s exported sch body => (genValueItem I emitExports g s exported sch body).map fun g => (done, g)
  | (done, g), .type d => (genTypeItem false (g.addFields d) d).bind fun g => (genTypeItem true g d).map fun g => (done, g)
  | (done, g), .imports key items => if key ∈ done then some (done, g) else emitItems I false (key :: done, g) items
/-- `emit_module`, `gen_core.rs:30-71`. -/
def emitItems (I : Symbol → Option Builtin) (emitExports : Bool) : List Nat × Gen → List Item → Option (List Nat × Gen)
  | st, [] => some st
  | st, i :: is => (emitItem I emitExports st i).bind fun st => emitItems I emitExports st is
end

/-- `generate_core`, `gen_core.rs:9-28`. -/
def generateCore (I : Symbol → Option Builtin) (items : List Item) : Option Program :=
  (emitItems I true ([], {}) items).map fun r => ⟨r.2.types, r.2.defs⟩

end Tic.Front
