import Verif.Source
/-
The type checker, `ticc/src/compiler/typeck.rs`, on complete resolved items.
-/
namespace Tic.Front
open Tic.Unify

/-- What a name means to the type checker, `NameTy`, `typeck.rs:81-84`. -/
inductive NameTy
  | infer (i : Nat)
  | inst (s : Scheme)

/-- The checker's fixed tables: `symbol_types` and `ctors`, `typeck.rs:318-320`. -/
structure Tables where
  names : Symbol → Option NameTy
  ctors : Symbol → Option CtorDef

/-- Diagnostics of the type checker, `typeck.rs:340-344,503-514`; types as indices, without spans. -/
inductive Diag
  | mismatch (expected actual : Nat)
  | fieldCount (expected actual : Nat)

/-- The checker's state: the unifier and the diagnostics (newest first). -/
structure TcSt where
  u : Unifier := {}
  diags : List Diag := []

/-- `TypeChecker::unify`, `typeck.rs:330-346`. -/
def TcSt.unify (n : Nat) (st : TcSt) (expected actual : Nat) : Option TcSt :=
  (unifyTop n st.u expected actual).map fun r =>
    { u := r.1, diags := if r.2 then st.diags else .mismatch expected actual :: st.diags }

/-- `fresh_var`, `typeck.rs:322-324`. -/
def TcSt.fresh (st : TcSt) : TcSt × Nat := ({ st with u := st.u.freshVar.1 }, st.u.freshVar.2)

/-- `allocate`, `typeck.rs:326-328`. -/
def TcSt.alloc (st : TcSt) (t : Ty) : TcSt × Nat := ({ st with u := (st.u.allocate t).1 }, (st.u.allocate t).2)

/-- `Unifier::instantiate`. -/
def TcSt.inst (st : TcSt) (vars : List (Symbol × Nat)) (t : IrTy) : TcSt × Nat :=
  ({ st with u := (instantiate vars t st.u).1 }, (instantiate vars t st.u).2)

/-- A fresh variable for each type variable (`typeck.rs:357-360,385-388`). -/
def TcSt.freshAll (st : TcSt) : List Symbol → TcSt × List (Symbol × Nat)
  | [] => (st, [])
  | v :: vs => let r := st.fresh; let rs := r.1.freshAll vs; (rs.1, (v, r.2) :: rs.2)

/-- `instantiate_name`, `typeck.rs:376-394`: the type and the type arguments.  (`lookup_name`,
`typeck.rs:352-365`, is the same without remembering the type arguments.) -/
def instName (T : Tables) (st : TcSt) (s : Symbol) : TcSt × Nat × List Nat :=
  match T.names s with
  | some (.infer i) => (st, i, [])
  | some (.inst sch) =>
    let r := st.freshAll sch.vars
    let t := r.1.inst r.2 sch.ty
    (t.1, t.2, r.2.map (·.2))
  | none => let r := st.alloc .error; (r.1, r.2, [])

/-- `lookup_name_opaque`, `typeck.rs:367-373`. -/
def opaqueName (T : Tables) (st : TcSt) (s : Symbol) : TcSt × Nat :=
  match T.names s with
  | some (.infer i) => (st, i)
  | some (.inst sch) => st.inst [] sch.ty
  | none => st.alloc .error

/-- The type of the patterns of a constructor: its type applied to fresh variables, `typeck.rs:487-493`. -/
def applyVars (st : TcSt) (t : Nat) : List Symbol → TcSt × Nat × List (Symbol × Nat)
  | [] => (st, t, [])
  | v :: vs =>
    let r := st.fresh
    let a := r.1.alloc (.apply t r.2)
    let rest := applyVars a.1 a.2 vs
    (rest.1, rest.2.1, (v, r.2) :: rest.2.2)

/-- Typing the pattern variables, `typeck.rs:515-526`. -/
def checkVars (n : Nat) (T : Tables) (inst : List (Symbol × Nat)) (recTy : Nat) :
    List (Symbol × Unit) → List Field → TcSt → Option (TcSt × List (Symbol × Nat))
  | (v, _) :: vs, f :: fs, st =>
    let r := instName T st v
    let t := match f with
      | .rec_ => (r.1, recTy)
      | .ty t => r.1.inst inst t
    (t.1.unify n t.2 r.2.1).bind fun st => (checkVars n T inst recTy vs fs st).map fun rs => (rs.1, (v, r.2.1) :: rs.2)
  | _, _, st => some (st, [])

/-- Is the operator's result a boolean (`typeck.rs:432-443`)? -/
def resultTy : Core.Op → Ty
  | .add | .subtract | .multiply | .divide | .modulo => .int
  | _ => .bool

/-- The types used to check the patterns of a match whose scrutinee has type variable `dv` and head
`nt`: of the scrutinee, and of the recursive fields, `typeck.rs:476-482`. -/
def matchParts (dv : Nat) : Option Ty → Nat × Nat
  | some (.folded a b) => (a, b)
  | _ => (dv, dv)

mutual
/-- `check_expr`, `typeck.rs:396-604`: checks the expression against the expected type and
annotates it.  `n` bounds the recursion of the unifier. -/
def check (n : Nat) (T : Tables) : Ex Unit → Nat → TcSt → Option (TcSt × Ex Nat)
  | .name s _, x, st =>
    let r := instName T st s
    (r.1.unify n x r.2.1).map fun st => (st, .name s r.2.2)
  | .apply f e, x, st =>
    let a := st.fresh
    let b := a.1.fresh
    let t := b.1.alloc (.fn a.2 b.2)
    (check n T f t.2 t.1).bind fun rf => (check n T e a.2 rf.1).bind fun re =>
      (re.1.unify n x b.2).map fun st => (st, .apply rf.2 re.2)
  | .binary o l r, x, st =>
    let i := st.alloc .int
    (check n T l i.2 i.1).bind fun rl => (check n T r i.2 rl.1).bind fun rr =>
      match resultTy o with
      | .int => (rr.1.unify n x i.2).map fun st => (st, .binary o rl.2 rr.2)
      | _ =>
        let b := rr.1.alloc .bool
        (b.1.unify n x b.2).map fun st => (st, .binary o rl.2 rr.2)
  | .pipe l r, x, st =>
    let a := st.fresh
    (check n T l a.2 a.1).bind fun rl =>
      let b := rl.1.fresh
      let t := b.1.alloc (.fn a.2 b.2)
      (check n T r t.2 t.1).bind fun rr => (rr.1.unify n x b.2).map fun st => (st, .pipe rl.2 rr.2)
  | .let_ s vars ann _ v rest, x, st =>
    let b := opaqueName T st s
    (check n T v b.2 b.1).bind fun rv => (check n T rest x rv.1).map fun rr => (rr.1, .let_ s vars ann b.2 rv.2 rr.2)
  | .match_ d _ cases, x, st =>
    let dv := st.fresh
    (check n T d dv.2 dv.1).bind fun rd => (normalize n rd.1.u dv.2).bind fun nt =>
      let pr := matchParts dv.2 nt
      (checkCases n T pr.1 pr.2 x cases rd.1).map fun rc => (rc.1, .match_ rd.2 dv.2 rc.2)
  | .ite c t e, x, st =>
    let b := st.alloc .bool
    (check n T c b.2 b.1).bind fun rc => (check n T t x rc.1).bind fun rt =>
      (check n T e x rt.1).map fun re => (re.1, .ite rc.2 rt.2 re.2)
  | .bool b, x, st => let t := st.alloc .bool; (t.1.unify n x t.2).map fun st => (st, .bool b)
  | .number i, x, st => let t := st.alloc .int; (t.1.unify n x t.2).map fun st => (st, .number i)
  | .str s, x, st => let t := st.alloc .str; (t.1.unify n x t.2).map fun st => (st, .str s)
  | .lambda fold p _ _ body, x, st =>
    let pt := instName T st p
    let a := pt.1.fresh
    let b := a.1.fresh
    let arg := if fold then b.1.alloc (.folded a.2 b.2) else (b.1, a.2)
    (arg.1.unify n pt.2.1 arg.2).bind fun st =>
      let f := st.alloc (.fn a.2 b.2)
      (f.1.unify n x f.2).bind fun st => (check n T body b.2 st).map fun rb => (rb.1, .lambda fold p pt.2.1 x rb.2)
  | .paren e, x, st => (check n T e x st).map fun r => (r.1, .paren r.2)
  | .hole text _, x, st => some (st, .hole text x)
/-- The cases of a match, `typeck.rs:483-532`. -/
def checkCases (n : Nat) (T : Tables) (primary recTy x : Nat) : List (Case Unit) → TcSt → Option (TcSt × List (Case Nat))
  | [], st => some (st, [])
  | .mk c vs body :: cs, st =>
    ((match T.ctors c with
      | some d =>
        let h := st.alloc (.named d.tySym)
        let t := applyVars h.1 h.2 d.vars
        (t.1.unify n primary t.2.1).bind fun st =>
          if vs.length ≠ d.fields.length then
            some ({ st with diags := .fieldCount d.fields.length vs.length :: st.diags }, [])
          else checkVars n T t.2.2 recTy vs d.fields st
      | none => some (st, [])) : Option (TcSt × List (Symbol × Nat))).bind fun rv =>
    (check n T body x rv.1).bind fun rb => (checkCases n T primary recTy x cs rb.1).map fun rc =>
      (rc.1, .mk c rv.2 rb.2 :: rc.2)
end

end Tic.Front
