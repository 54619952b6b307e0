import Verif.Typing
import Verif.TypeckItem
/-
What the passes before the type checker (name resolution and kind checking) guarantee.
-/
namespace Tic.Front
open Tic.Unify (Symbol IrTy)

mutual
/-- The expression is resolved, given what the definition set says (`D`) and what the item mentions
or defines (`refs`): every name is one of `dom`, the names in scope; binders are symbols of the item
with the declared type, or without type; patterns are for constructors; declared types are well
formed, and their own type variables are new.  `vs` are the type variables in scope. -/
def Scoped (Δ : List TypeDecl) (D : Symbol → Option DefKind) (refs : List Symbol) : List Symbol → List Symbol → Ex Unit → Prop
  | dom, _, .name s inst => inst = [] ∧ s ∈ dom
  | dom, vs, .apply f a => Scoped Δ D refs dom vs f ∧ Scoped Δ D refs dom vs a
  | dom, vs, .binary _ l r => Scoped Δ D refs dom vs l ∧ Scoped Δ D refs dom vs r
  | dom, vs, .pipe l r => Scoped Δ D refs dom vs l ∧ Scoped Δ D refs dom vs r
  | dom, vs, .let_ s vars ann _ v rest =>
    (∀ x ∈ vars, x ∉ vs ∧ declOf Δ x = none) ∧ s ∈ refs ∧ D s = some (.value ⟨vars, ann.getD .infer⟩) ∧
    (∀ a, ann = some a → WfTy Δ (vars ++ vs) a) ∧ (ann = none → vars = []) ∧
    Scoped Δ D refs dom (vars ++ vs) v ∧ Scoped Δ D refs (s :: dom) vs rest
  | dom, vs, .match_ d _ cases => Scoped Δ D refs dom vs d ∧ ScopedCases Δ D refs dom vs cases
  | dom, vs, .ite c a b => Scoped Δ D refs dom vs c ∧ Scoped Δ D refs dom vs a ∧ Scoped Δ D refs dom vs b
  | _, _, .bool _ => True
  | _, _, .number _ => True
  | _, _, .str _ => True
  | dom, vs, .lambda _ p _ _ body => p ∈ refs ∧ D p = some (.value ⟨[], .infer⟩) ∧ Scoped Δ D refs (p :: dom) vs body
  | dom, vs, .paren e => Scoped Δ D refs dom vs e
  | _, _, .hole _ _ => True
/-- ... for match cases. -/
def ScopedCases (Δ : List TypeDecl) (D : Symbol → Option DefKind) (refs : List Symbol) : List Symbol → List Symbol → List (Case Unit) → Prop
  | _, _, [] => True
  | dom, vs, .mk c pvs body :: cs => (c ∈ refs ∧ ∃ d f, D c = some (.ctor d f)) ∧
      (∀ p ∈ pvs, p.1 ∈ refs ∧ D p.1 = some (.value ⟨[], .infer⟩)) ∧
      Scoped Δ D refs ((pvs.map (·.1)).reverse ++ dom) vs body ∧ ScopedCases Δ D refs dom vs cs
end

/-- The definition set agrees with the type declarations: declared types of values are well formed,
constructors are those of the declarations. -/
structure DefsOK (Δ : List TypeDecl) (D : Symbol → Option DefKind) : Prop where
  value : ∀ s sch, D s = some (.value sch) → sch.ty ≠ .infer → (∀ v ∈ sch.vars, declOf Δ v = none) ∧ ∃ vs, WfTy Δ vs sch.ty
  ctor : ∀ c d f, D c = some (.ctor d f) → f = ctorTy d ∧ ∃ decl, declOf Δ d.tySym = some decl ∧ decl.vars = d.vars ∧
    (c, d.fields) ∈ decl.ctors ∧ (∀ v ∈ d.vars, declOf Δ v = none) ∧ ∀ t, Field.ty t ∈ d.fields → WfTy Δ d.vars t

/-- A context of names declared outside of the item: values with declared types, and
constructors. -/
def Globals (D : Symbol → Option DefKind) (refs : List Symbol) (Γ : Ctx) : Prop :=
  ∀ s sch, Γ.find s = some sch → s ∈ refs ∧
    ((D s = some (.value sch) ∧ sch.ty ≠ .infer) ∨ ∃ d f, D s = some (.ctor d f) ∧ sch = ⟨d.vars, f⟩)

mutual
/-- A type the checker left open becomes `Int`, as in `gen_ty`, `gen_core.rs`. -/
def fill : IrTy → IrTy
  | .infer => .int
  | .named s args => .named s (fills args)
  | .fn a b => .fn (fill a) (fill b)
  | .folded a b => .folded (fill a) (fill b)
  | t => t
/-- ... in a list of types. -/
def fills : List IrTy → List IrTy
  | [] => []
  | t :: ts => fill t :: fills ts
end

end Tic.Front
