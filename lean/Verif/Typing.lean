import Verif.Source
import Verif.Matchck
/-
What it means for a source expression to have a type: the typing rules of the language, written
independently of how the type checker finds the types.
-/
namespace Tic.Front
open Tic.Unify (Symbol IrTy)

/-- A type declaration: its symbol, its type variables and its constructors with their fields. -/
structure TypeDecl where
  sym : Symbol
  vars : List Symbol
  ctors : List (Symbol × List Field)

/-- The declaration of a type. -/
def declOf (Δ : List TypeDecl) (s : Symbol) : Option TypeDecl := Δ.find? (fun d => d.sym == s)

/-- The number of arguments a type takes; type variables take none. -/
def arity (Δ : List TypeDecl) (s : Symbol) : Nat := ((declOf Δ s).map (·.vars.length)).getD 0

/-- Replacing type variables. -/
def findTy : List (Symbol × IrTy) → Symbol → Option IrTy
  | [], _ => none
  | (v, t) :: vs, s => if v = s then some t else findTy vs s

mutual
/-- Replacing type variables in a type. -/
def substTy (σ : List (Symbol × IrTy)) : IrTy → IrTy
  | .named s args => match findTy σ s with
    | some t => t
    | none => .named s (substTys σ args)
  | .fn a b => .fn (substTy σ a) (substTy σ b)
  | .folded a b => .folded (substTy σ a) (substTy σ b)
  | t => t
/-- ... in a list of types. -/
def substTys (σ : List (Symbol × IrTy)) : List IrTy → List IrTy
  | [] => []
  | t :: ts => substTy σ t :: substTys σ ts
end

mutual
/-- The type is fully known and mentions only declared types, fully applied, and the type
variables `vs`. -/
def WfTy (Δ : List TypeDecl) (vs : List Symbol) : IrTy → Prop
  | .named s args => (s ∈ vs ∨ (declOf Δ s).isSome) ∧ args.length = arity Δ s ∧ WfTys Δ vs args
  | .fn a b => WfTy Δ vs a ∧ WfTy Δ vs b
  | .folded a b => WfTy Δ vs a ∧ WfTy Δ vs b
  | .int => True
  | .bool => True
  | .str => True
  | .error => False
  | .infer => False
/-- ... for a list of types. -/
def WfTys (Δ : List TypeDecl) (vs : List Symbol) : List IrTy → Prop
  | [] => True
  | t :: ts => WfTy Δ vs t ∧ WfTys Δ vs ts
end

/-- Typing contexts, innermost name first. -/
abbrev Ctx := List (Symbol × Scheme)

/-- What the context says about a name. -/
def Ctx.find : Ctx → Symbol → Option Scheme
  | [], _ => none
  | (k, v) :: Γ, s => if k = s then some v else Ctx.find Γ s

/-- A type without type variables of its own. -/
def mono (t : IrTy) : Scheme := ⟨[], t⟩

/-- The result type of an operator. -/
def opTy : Core.Op → IrTy
  | .add | .subtract | .multiply | .divide | .modulo => .int
  | _ => .bool

/-- The type of a field in a match: declared types with the type's arguments put in, and `recTy`
for a recursive field. -/
def fieldTy (vars : List Symbol) (args : List IrTy) (recTy : IrTy) : Field → IrTy
  | .rec_ => recTy
  | .ty t => substTy (vars.zip args) t

/-- Is it the type of the parameter of a fold? -/
def IrTy.isFolded : IrTy → Bool
  | .folded .. => true
  | _ => false

/-- The type of a constructor as a function. -/
def ctorTy (d : CtorDef) : IrTy :=
  let whole := IrTy.named d.tySym (d.vars.map fun v => .named v [])
  d.fields.foldr (fun f t => .fn (match f with | .rec_ => whole | .ty t => t) t) whole

mutual
/-- The typing rules: under the type declarations `Δ`, the type variables `vs` and the context `Γ`
the expression has the type `t`.

* a name has any instance of the type it was declared with (the instance is recorded);
* a declared let is checked with its type variables fixed, and is polymorphic in them afterwards;
* a match is on a declared type or on the parameter of a fold over a declared type; in the latter
  case recursive fields already hold the results of the fold; every constructor must be covered;
* `\fold x -> e` is a function on `a` if `e` has the result type, given an `x` whose recursive
  fields hold results; what is folded over must not itself be the parameter of a fold;
* a hole has every type. -/
def HasTy (Δ : List TypeDecl) : List Symbol → Ctx → Ex IrTy → IrTy → Prop
  | vs, Γ, .name s inst, t => ∃ sch, Γ.find s = some sch ∧ inst.length = sch.vars.length ∧ WfTys Δ vs inst ∧
      t = substTy (sch.vars.zip inst) sch.ty
  | vs, Γ, .apply f a, t => ∃ u, HasTy Δ vs Γ f (.fn u t) ∧ HasTy Δ vs Γ a u
  | vs, Γ, .binary o l r, t => HasTy Δ vs Γ l .int ∧ HasTy Δ vs Γ r .int ∧ t = opTy o
  | vs, Γ, .pipe l r, t => ∃ u, HasTy Δ vs Γ l u ∧ HasTy Δ vs Γ r (.fn u t)
  | vs, Γ, .let_ s vars ann ty v rest, t =>
      (∀ a, ann = some a → ty = a) ∧ (ann = none → vars = []) ∧
      (∀ x ∈ vars, x ∉ vs ∧ declOf Δ x = none) ∧ WfTy Δ (vars ++ vs) ty ∧
      HasTy Δ (vars ++ vs) Γ v ty ∧ HasTy Δ vs ((s, ⟨vars, ty⟩) :: Γ) rest t
  | vs, Γ, .match_ d dty cases, t => HasTy Δ vs Γ d dty ∧ WfTy Δ vs dty ∧
      ∃ decl args recTy, declOf Δ decl.sym = some decl ∧ args.length = decl.vars.length ∧
        (dty = .named decl.sym args ∧ recTy = dty ∨ dty = .folded (.named decl.sym args) recTy) ∧
        (∀ c ∈ decl.ctors, ∃ k ∈ cases, k.ctor = c.1) ∧ HasCases Δ vs Γ decl args recTy cases t
  | vs, Γ, .ite c a b, t => HasTy Δ vs Γ c .bool ∧ HasTy Δ vs Γ a t ∧ HasTy Δ vs Γ b t
  | _, _, .bool _, t => t = .bool
  | _, _, .number _, t => t = .int
  | _, _, .str _, t => t = .str
  | vs, Γ, .lambda false p pty fty body, t => fty = t ∧ WfTy Δ vs pty ∧
      ∃ b, t = .fn pty b ∧ HasTy Δ vs ((p, mono pty) :: Γ) body b
  | vs, Γ, .lambda true p pty fty body, t => fty = t ∧ WfTy Δ vs pty ∧
      ∃ a b, pty = .folded a b ∧ IrTy.isFolded a = false ∧ t = .fn a b ∧ HasTy Δ vs ((p, mono pty) :: Γ) body b
  | vs, Γ, .paren e, t => HasTy Δ vs Γ e t
  | vs, _, .hole _ ty, t => ty = t ∧ WfTy Δ vs t
/-- The cases of a match on a type with arguments `args`: each is for a constructor of the type and
gives names to all its fields. -/
def HasCases (Δ : List TypeDecl) : List Symbol → Ctx → TypeDecl → List IrTy → IrTy → List (Case IrTy) → IrTy → Prop
  | _, _, _, _, _, [], _ => True
  | vs, Γ, decl, args, recTy, .mk c pvs body :: cs, t =>
      (∃ fields, (c, fields) ∈ decl.ctors ∧ pvs.map (·.2) = fields.map (fieldTy decl.vars args recTy)) ∧
      HasTy Δ vs ((pvs.map fun p => (p.1, mono p.2)).reverse ++ Γ) body t ∧
      HasCases Δ vs Γ decl args recTy cs t
end

/-! ### Properties of annotated expressions -/

mutual
/-- All subexpressions, each with the type variables in scope. -/
def nodes : List Symbol → Ex IrTy → List (List Symbol × Ex IrTy)
  | vs, e@(.name ..) => [(vs, e)]
  | vs, e@(.apply f a) => (vs, e) :: (nodes vs f ++ nodes vs a)
  | vs, e@(.binary _ l r) => (vs, e) :: (nodes vs l ++ nodes vs r)
  | vs, e@(.pipe l r) => (vs, e) :: (nodes vs l ++ nodes vs r)
  | vs, e@(.let_ _ vars _ _ v rest) => (vs, e) :: (nodes (vars ++ vs) v ++ nodes vs rest)
  | vs, e@(.match_ d _ cases) => (vs, e) :: (nodes vs d ++ caseNodes vs cases)
  | vs, e@(.ite c a b) => (vs, e) :: (nodes vs c ++ (nodes vs a ++ nodes vs b))
  | vs, e@(.bool _) => [(vs, e)]
  | vs, e@(.number _) => [(vs, e)]
  | vs, e@(.str _) => [(vs, e)]
  | vs, e@(.lambda _ _ _ _ body) => (vs, e) :: nodes vs body
  | vs, e@(.paren i) => (vs, e) :: nodes vs i
  | vs, e@(.hole ..) => [(vs, e)]
/-- ... of match cases. -/
def caseNodes : List Symbol → List (Case IrTy) → List (List Symbol × Ex IrTy)
  | _, [] => []
  | vs, .mk _ _ body :: cs => nodes vs body ++ caseNodes vs cs
end

mutual
/-- The named types and type variables a type mentions. -/
def tySyms : IrTy → List Symbol
  | .named s args => s :: tysSyms args
  | .fn a b => tySyms a ++ tySyms b
  | .folded a b => tySyms a ++ tySyms b
  | _ => []
/-- ... of a list of types. -/
def tysSyms : List IrTy → List Symbol
  | [] => []
  | t :: ts => tySyms t ++ tysSyms ts
end

/-- The inferred types of a node. -/
def annots : Ex IrTy → List IrTy
  | .name _ inst => inst
  | .match_ _ dty _ => [dty]
  | .let_ _ _ _ ty _ _ => [ty]
  | .lambda _ _ pty _ _ => [pty]
  | .hole _ ty => [ty]
  | _ => []

/-- The type variables a node brings into scope for its own annotation. -/
def ownVars : Ex IrTy → List Symbol
  | .let_ _ vars _ _ _ _ => vars
  | _ => []

/-- No inferred type mentions a type variable that is not in scope where the type was inferred. -/
def NoEscape (Δ : List TypeDecl) (vs : List Symbol) (e : Ex IrTy) : Prop :=
  ∀ p ∈ nodes vs e, ∀ t ∈ annots p.2, ∀ s ∈ tySyms t, s ∈ ownVars p.2 ++ p.1 ∨ (declOf Δ s).isSome

/-- No fold goes over a type that is itself the type of a fold's parameter. -/
def NoNestedFold (e : Ex IrTy) : Prop :=
  ∀ p ∈ nodes [] e, ∀ q pty fty body a b, p.2 = .lambda true q pty fty body → pty = .folded a b → IrTy.isFolded a = false

/-- The scrutinee as the match checker sees it, `matchck.rs:26-74`. -/
def scrutinee (Δ : List TypeDecl) : IrTy → Matchck.Scrutinee
  | .named s _ => match declOf Δ s with
    | some d => .named (.list (d.ctors.map (·.1)))
    | none => .named .opaq
  | .folded (.named s _) _ => match declOf Δ s with
    | some d => .named (.list (d.ctors.map (·.1)))
    | none => .named .opaq
  | .folded .error _ => .error
  | .error => .error
  | _ => .other

/-- The match checker (`check_matches`, `matchck.rs:7-16`) reports nothing. -/
def Covered (Δ : List TypeDecl) (e : Ex IrTy) : Prop :=
  ∀ p ∈ nodes [] e, ∀ d dty cases, p.2 = .match_ d dty cases →
    (Matchck.check (scrutinee Δ dty) (cases.map fun c => some c.ctor)).1 = []

end Tic.Front
