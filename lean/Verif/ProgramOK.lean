import Verif.Generate
import Verif.Scoped
/-
What a program has to meet to be compiled: the conditions the passes before code generation
establish, and what it means for a result to be a value of a type.
-/
namespace Tic.Front
open Tic.Unify (Symbol IrTy)
open Tic.Core (Name Obs)

mutual
/-- A type a programmer can write: no type of a fold's parameter, nothing open. -/
def Plain : IrTy → Prop
  | .named _ args => Plains args
  | .fn a b => Plain a ∧ Plain b
  | .int => True
  | .bool => True
  | .str => True
  | .folded _ _ => False
  | .error => False
  | .infer => False
/-- ... for a list of types. -/
def Plains : List IrTy → Prop
  | [] => True
  | t :: ts => Plain t ∧ Plains ts
end

mutual
/-- The symbols an expression introduces: names and type variables. -/
def binderSyms {α : Type} : Ex α → List Symbol
  | .name .. => []
  | .apply f a => binderSyms f ++ binderSyms a
  | .binary _ l r => binderSyms l ++ binderSyms r
  | .pipe l r => binderSyms l ++ binderSyms r
  | .let_ s vars _ _ v rest => s :: (vars ++ (binderSyms v ++ binderSyms rest))
  | .match_ d _ cases => binderSyms d ++ casesBinderSyms cases
  | .ite c t e => binderSyms c ++ (binderSyms t ++ binderSyms e)
  | .bool _ => []
  | .number _ => []
  | .str _ => []
  | .lambda _ p _ _ body => p :: binderSyms body
  | .paren e => binderSyms e
  | .hole .. => []
/-- ... of match cases. -/
def casesBinderSyms {α : Type} : List (Case α) → List Symbol
  | [] => []
  | .mk _ vs body :: cs => vs.map (·.1) ++ (binderSyms body ++ casesBinderSyms cs)
end

mutual
/-- The types of local definitions with type variables were written by the programmer. -/
def PlainLets {α : Type} : Ex α → Prop
  | .name .. => True
  | .apply f a => PlainLets f ∧ PlainLets a
  | .binary _ l r => PlainLets l ∧ PlainLets r
  | .pipe l r => PlainLets l ∧ PlainLets r
  | .let_ _ _ ann _ v rest => (∀ t, ann = some t → Plain t) ∧ PlainLets v ∧ PlainLets rest
  | .match_ d _ cases => PlainLets d ∧ PlainLetsCases cases
  | .ite c t e => PlainLets c ∧ PlainLets t ∧ PlainLets e
  | .bool _ => True
  | .number _ => True
  | .str _ => True
  | .lambda _ _ _ _ body => PlainLets body
  | .paren e => PlainLets e
  | .hole .. => True
/-- ... in match cases. -/
def PlainLetsCases {α : Type} : List (Case α) → Prop
  | [] => True
  | .mk _ _ body :: cs => PlainLets body ∧ PlainLetsCases cs
end

mutual
/-- The texts of the holes in an expression. -/
def holes {α : Type} : Ex α → List String
  | .name .. => []
  | .apply f a => holes f ++ holes a
  | .binary _ l r => holes l ++ holes r
  | .pipe l r => holes l ++ holes r
  | .let_ _ _ _ _ v rest => holes v ++ holes rest
  | .match_ d _ cases => holes d ++ holesCases cases
  | .ite c t e => holes c ++ (holes t ++ holes e)
  | .bool _ => []
  | .number _ => []
  | .str _ => []
  | .lambda _ _ _ _ body => holes body
  | .paren e => holes e
  | .hole text _ => [text]
/-- ... in match cases. -/
def holesCases {α : Type} : List (Case α) → List String
  | [] => []
  | .mk _ _ body :: cs => holes body ++ holesCases cs
end

/-- The types of the built-in functions, `std/intrinsics.tic`. -/
def builtinTy (vars : List Symbol) : Builtin → Option IrTy
  | .iterate => match vars with
    | [a] => some (.fn .int (.fn (.fn (.named a []) (.named a [])) (.fn (.named a []) (.named a []))))
    | _ => none
  | .stringLength => some (.fn .str .int)
  | .stringConcat => some (.fn .str (.fn .str .str))
  | .stringCharAt => some (.fn .int (.fn .str .int))
  | .stringSubstring => some (.fn .int (.fn .int (.fn .str .str)))
  | .stringFromChar => some (.fn .int .str)
  | .intToString => some (.fn .int .str)

/-- What has been defined: modules already seen, type declarations (the latest first), the types of
constructors and values (the latest first), all symbols used so far, and the holes. -/
structure World where
  done : List Nat := []
  decls : List TypeDecl := []
  ctx : Ctx := []
  used : List Symbol := []
  texts : List String := []

/-- The names and types of the constructors of a declared type. -/
def ctorCtx (d : TypeDecl) : Ctx := (d.ctors.map fun c => (c.1, ⟨d.vars, ctorTy ⟨d.sym, d.vars, c.2⟩⟩)).reverse

mutual
/-- The world after an item; the definitions of the built-in functions (`I`) are not used, so that
their holes do not count. -/
def World.item (I : Symbol → Option Builtin) (w : World) : Item → World
  | .value s _ sch body => { w with
      ctx := (s, sch) :: w.ctx, used := s :: (sch.vars ++ (binderSyms body ++ w.used)), texts := (if (I s).isSome then [] else holes body) ++ w.texts }
  | .type d => { w with
      decls := d :: w.decls, ctx := ctorCtx d ++ w.ctx, used := d.sym :: (d.vars ++ (d.ctors.map (·.1) ++ w.used)) }
  | .imports key items => if key ∈ w.done then w else World.items I { w with done := key :: w.done } items
/-- The world after several items. -/
def World.items (I : Symbol → Option Builtin) (w : World) : List Item → World
  | [] => w
  | i :: is => World.items I (w.item I i) is
end

/-- The symbols are new and different: the compiler makes a new symbol for every name that is
defined (`ir::Symbol::fresh`). -/
def New (w : World) (ss : List Symbol) : Prop := ss.Nodup ∧ ∀ s ∈ ss, s ∉ w.used

/-- A declared value: its type is well formed, and its definition has this type in a context of
names defined before. -/
structure ValueOK (I : Symbol → Option Builtin) (w : World) (s : Symbol) (sch : Scheme) (body : Ex IrTy) : Prop where
  new : New w (s :: (sch.vars ++ binderSyms body))
  plain : Plain sch.ty
  wf : WfTy w.decls sch.vars sch.ty
  builtin : ∀ b, I s = some b → builtinTy sch.vars b = some sch.ty
  lets : PlainLets body
  typed : I s = none → ∃ Γ : Ctx, (∀ x sc, Γ.find x = some sc → w.ctx.find x = some sc) ∧
    HasTy w.decls sch.vars Γ (body.map fill) sch.ty

/-- A declared type: its fields mention only its type variables and types declared before, and there
are at most nine of them per constructor. -/
structure DeclOK (w : World) (d : TypeDecl) : Prop where
  new : New w (d.sym :: (d.vars ++ d.ctors.map (·.1)))
  fields : ∀ c ∈ d.ctors, c.2.length ≤ Core.maxFields ∧ ∀ t, Field.ty t ∈ c.2 → Plain t ∧ WfTy w.decls d.vars t

mutual
/-- The conditions for an item. -/
def ItemOK (I : Symbol → Option Builtin) (w : World) : Item → Prop
  | .value s _ sch body => ValueOK I w s sch body
  | .type d => DeclOK w d
  | .imports key items => key ∈ w.done ∨ ItemsOK I { w with done := key :: w.done } items
/-- ... for several items, in order. -/
def ItemsOK (I : Symbol → Option Builtin) (w : World) : List Item → Prop
  | [] => True
  | i :: is => ItemOK I w i ∧ ItemsOK I (w.item I i) is
end

/-- The values a module exports: the name, the symbol and the type. -/
def exportsOf : List Item → List (String × Symbol × Scheme)
  | [] => []
  | .value s (some x) sch _ :: is => (x, s, sch) :: exportsOf is
  | _ :: is => exportsOf is

/-- What one can observe of a value of a type: numbers, booleans, strings, functions, and values
made by the constructors (named as `R` says) of declared types from values of the types of their
fields. -/
inductive OfTy (Δ : List TypeDecl) (R : Symbol → Option Name) : IrTy → Obs → Prop
  | int {x} : OfTy Δ R .int (.int x)
  | bool {x} : OfTy Δ R .bool (.bool x)
  | str {x} : OfTy Δ R .str (.str x)
  | fn {a b} : OfTy Δ R (.fn a b) .fn
  | named {d args c fields n os} : declOf Δ d.sym = some d → args.length = d.vars.length → (c, fields) ∈ d.ctors →
      R c = some n → os.length = fields.length →
      (∀ (i : Nat) f o, fields[i]? = some f → os[i]? = some o → OfTy Δ R (fieldTy d.vars args (.named d.sym args) f) o) →
      OfTy Δ R (.named d.sym args) (.comp n os)

/-- The observed values of the exports of a program after at most `n` steps. -/
def runExports (n : Nat) (p : Core.Program) : Core.Res (List Obs) :=
  match Core.evalProgram n p ((p.defs.filter fun d => d.exportName.isSome).map fun d => .name d.name) with
  | .ok vs => .ok (vs.map Core.Val.obs)
  | .trap m => .trap m
  | .panic => .panic
  | .timeout => .timeout

end Tic.Front
