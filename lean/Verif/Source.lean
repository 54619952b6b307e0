import Verif.Ir
import Verif.Unify
/-
Source programs after parsing and name resolution, as the type checker and the code generator
see them: `ticc/src/compiler/ir.rs` and the accessors of `ticc/src/compiler/syntax.rs`.

Only complete trees are modelled (no missing parts, every name resolved); everything else comes
with a diagnostic of the parser or of name resolution.  A name is its symbol; what the compiler
keeps in maps indexed by syntax nodes (`Item::types`, `Item::type_insts`, the types of the item's
definitions) is an annotation of the tree here.
-/
namespace Tic.Front
open Tic.Unify (Symbol IrTy)

mutual
/-- Expressions (`node::Expr`, `syntax.rs`), with annotations `α`:
the type arguments of a name (`type_insts`), the type of a let-bound name, a parameter and a
pattern variable (`DefKind::Value.ty`), the type of a match's scrutinee, of a lambda and of a hole
(`Item::types`). -/
inductive Ex (α : Type)
  | name (s : Symbol) (inst : List α)
  | apply (f a : Ex α)
  | binary (o : Core.Op) (l r : Ex α)
  | pipe (l r : Ex α)
  | let_ (s : Symbol) (vars : List Symbol) (ann : Option IrTy) (ty : α) (v rest : Ex α)
  | match_ (d : Ex α) (dty : α) (cases : List (Case α))
  | ite (c t e : Ex α)
  | bool (b : Bool)
  | number (i : UInt64)
  | str (s : List UInt8)
  | lambda (fold : Bool) (param : Symbol) (pty fty : α) (body : Ex α)
  | paren (e : Ex α)
  | hole (text : String) (ty : α)
/-- Match cases: constructor, pattern variables, body. -/
inductive Case (α : Type)
  | mk (ctor : Symbol) (vars : List (Symbol × α)) (body : Ex α)
end

/-- The constructor a case is for. -/
def Case.ctor {α : Type} : Case α → Symbol | .mk c _ _ => c
/-- The pattern variables of a case. -/
def Case.vars {α : Type} : Case α → List (Symbol × α) | .mk _ vs _ => vs
/-- The body of a case. -/
def Case.body {α : Type} : Case α → Ex α | .mk _ _ e => e

mutual
/-- Changing the annotations. -/
def Ex.map {α β : Type} (f : α → β) : Ex α → Ex β
  | .name s inst => .name s (inst.map f)
  | .apply g a => .apply (g.map f) (a.map f)
  | .binary o l r => .binary o (l.map f) (r.map f)
  | .pipe l r => .pipe (l.map f) (r.map f)
  | .let_ s vars ann ty v rest => .let_ s vars ann (f ty) (v.map f) (rest.map f)
  | .match_ d dty cases => .match_ (d.map f) (f dty) (casesMap f cases)
  | .ite c t e => .ite (c.map f) (t.map f) (e.map f)
  | .bool b => .bool b
  | .number i => .number i
  | .str s => .str s
  | .lambda fold p pty fty body => .lambda fold p (f pty) (f fty) (body.map f)
  | .paren e => .paren (e.map f)
  | .hole text ty => .hole text (f ty)
/-- ... in match cases. -/
def casesMap {α β : Type} (f : α → β) : List (Case α) → List (Case β)
  | [] => []
  | .mk c vs e :: cs => .mk c (vs.map fun p => (p.1, f p.2)) (e.map f) :: casesMap f cs
end

mutual
/-- The expression without annotations: what the programmer wrote. -/
def Ex.erase {α : Type} : Ex α → Ex Unit
  | .name s _ => .name s []
  | .apply g a => .apply g.erase a.erase
  | .binary o l r => .binary o l.erase r.erase
  | .pipe l r => .pipe l.erase r.erase
  | .let_ s vars ann _ v rest => .let_ s vars ann () v.erase rest.erase
  | .match_ d _ cases => .match_ d.erase () (casesErase cases)
  | .ite c t e => .ite c.erase t.erase e.erase
  | .bool b => .bool b
  | .number i => .number i
  | .str s => .str s
  | .lambda fold p _ _ body => .lambda fold p () () body.erase
  | .paren e => .paren e.erase
  | .hole text _ => .hole text ()
/-- ... of match cases. -/
def casesErase {α : Type} : List (Case α) → List (Case Unit)
  | [] => []
  | .mk c vs e :: cs => .mk c (vs.map fun p => (p.1, ())) e.erase :: casesErase cs
end

/-- `ir::Field`, `ir.rs:125-129`. -/
inductive Field
  | rec_
  | ty (t : IrTy)

/-- What a constructor's definition says, `ir.rs:34-39`. -/
structure CtorDef where
  tySym : Symbol
  vars : List Symbol
  fields : List Field

/-- A value's type with its type variables, `ir.rs:30-33`. -/
structure Scheme where
  vars : List Symbol
  ty : IrTy

end Tic.Front
