import Verif.Typeck
/-
Type checking one item, `type_check`, `ticc/src/compiler/typeck.rs:6-76`.
-/
namespace Tic.Front
open Tic.Unify

/-- What the definition set says about a symbol, `ir::DefKind`, `ir.rs:29-44` (types and modules,
which the type checker ignores, are left out). -/
inductive DefKind
  | value (s : Scheme)
  | ctor (d : CtorDef) (fnTy : IrTy)

/-- Changing a table at one symbol. -/
def setAt {α : Type} (f : Symbol → Option α) (s : Symbol) (a : α) : Symbol → Option α := fun k => if k = s then some a else f k

/-- One step of the loop over the names an item refers to and defines, `typeck.rs:18-42`.  A symbol
with an unknown type keeps the variable it got the first time (`symbol_vars`). -/
def addRef (D : Symbol → Option DefKind) (p : Tables × TcSt) (s : Symbol) : Tables × TcSt :=
  match D s with
  | some (.value ⟨vars, ty⟩) =>
    match ty with
    | .infer =>
      match p.1.names s with
      | some (.infer _) => p
      | _ => ({ p.1 with names := setAt p.1.names s (.infer p.2.fresh.2) }, p.2.fresh.1)
    | ty => ({ p.1 with names := setAt p.1.names s (.inst ⟨vars, ty⟩) }, p.2)
  | some (.ctor d fnTy) =>
    ({ names := setAt p.1.names s (.inst ⟨d.vars, fnTy⟩), ctors := setAt p.1.ctors s d }, p.2)
  | none => p

/-- The loop, `typeck.rs:17-42`. -/
def addRefs (D : Symbol → Option DefKind) (refs : List Symbol) : Tables × TcSt :=
  refs.foldl (addRef D) (⟨fun _ => none, fun _ => none⟩, {})

/-- Looking at all elements of a list. -/
def mapOpt {α β : Type} (f : α → Option β) : List α → Option (List β)
  | [] => some []
  | a :: as => (f a).bind fun b => (mapOpt f as).map fun bs => b :: bs

mutual
/-- Reading all annotations, `typeck.rs:62-75`. -/
def Ex.read {α β : Type} (f : α → Option β) : Ex α → Option (Ex β)
  | .name s inst => (mapOpt f inst).map fun inst => .name s inst
  | .apply g a => (g.read f).bind fun g => (a.read f).map fun a => .apply g a
  | .binary o l r => (l.read f).bind fun l => (r.read f).map fun r => .binary o l r
  | .pipe l r => (l.read f).bind fun l => (r.read f).map fun r => .pipe l r
  | .let_ s vars ann ty v rest => (f ty).bind fun ty => (v.read f).bind fun v => (rest.read f).map fun rest => .let_ s vars ann ty v rest
  | .match_ d dty cases => (d.read f).bind fun d => (f dty).bind fun dty => (casesRead f cases).map fun cases => .match_ d dty cases
  | .ite c t e => (c.read f).bind fun c => (t.read f).bind fun t => (e.read f).map fun e => .ite c t e
  | .bool b => some (.bool b)
  | .number i => some (.number i)
  | .str s => some (.str s)
  | .lambda fold p pty fty body => (f pty).bind fun pty => (f fty).bind fun fty => (body.read f).map fun body => .lambda fold p pty fty body
  | .paren e => (e.read f).map fun e => .paren e
  | .hole text ty => (f ty).map fun ty => .hole text ty
/-- ... of match cases. -/
def casesRead {α β : Type} (f : α → Option β) : List (Case α) → Option (List (Case β))
  | [] => some []
  | .mk c vs e :: cs => (mapOpt (fun p => (f p.2).map fun t => (p.1, t)) vs).bind fun vs => (e.read f).bind fun e =>
      (casesRead f cs).map fun cs => .mk c vs e :: cs
end

/-- The outcome of type checking a value item: the diagnostics, and the annotated expression. -/
structure Checked where
  diags : List Diag
  expr : Ex IrTy

/-- Type checking a value item with the declared type `ty` (`.infer` without declaration), which
mentions and defines the symbols `refs`, `typeck.rs:6-76`.  `none` means not enough steps for the
unifier, or the panic of `to_ir`. -/
def typeCheck (n : Nat) (D : Symbol → Option DefKind) (refs : List Symbol) (ty : IrTy) (e : Ex Unit) : Option Checked :=
  let p := addRefs D refs
  let x := p.2.inst [] ty
  (check n p.1 e x.2 x.1).bind fun r =>
    (r.2.read fun i => (toIr n r.1.u i).join).map fun e => ⟨r.1.diags, e⟩

end Tic.Front
