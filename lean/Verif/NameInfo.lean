/-
What hovering over a name shows, `ticc/src/api/info.rs:10-47`.  Hovering over other expressions is `Hover`.

Simplifications: the types of definitions after checking (`DefKind::Value`, `DefKind::Ctor`) and the texts of spans are functions given with the unit.
-/
import Verif.Api
import Verif.PrintTy
import Verif.Hover

namespace Tic.Api

open Tic.Resolve
open Tic.Lexer (Text)

/-- `find_def_or_ref_at` (`api.rs:40-43`): the symbol and the span. -/
def Src.nameAt {S : Type} (s : Src) (pos : Nat) (outs : List (Out S)) : Option (S × Span) :=
  match s.findRefAt pos 0 outs with
  | some r => some (r.1, s.span r.2)
  | none => (s.findDefAt pos 0 outs).map fun d => (d.sym, s.span d.node)

/-- The search of `def_info` (`info.rs:15-17`, `:38-46`), with `n` items compiled before (`:11`): the span of the answer and the definition it is about, and how many items are compiled after. -/
def Src.nameInfo (s : Src) (n pos : Nat) : Option (Span × Def Sym) × Nat :=
  let n := s.compileUpTo (pos + 1) n
  let outs := s.outs n
  (match s.nameAt pos outs with
   | none => none
   | some (x, sp) => match findDef x outs with
     | none => none
     | some (_, d) => match d.kind with
       | .module => none
       | _ => some (sp, d), n)

/-- ` -> *`, `k` times (`info.rs:32-34`) -/
def stars : Nat → Text
  | 0 => []
  | k + 1 => [32, 45, 62, 32, 42] ++ stars k

/-- The text shown (`info.rs:18-37`): `name` is the text of the definition's span, `ty` its type. -/
def doc {S : Type} (ds : Print.Defs) (name : Text) (ty : Unify.IrTy) : Kind S → Text
  | .value .. => name ++ [58, 32] ++ (Print.printType ds [] ty).1
  | .ctor .. => name ++ [58, 32] ++ (Print.printType ds [] ty).1
  | .type k _ _ => name ++ [58, 32] ++ (42 :: stars k)
  | .module => []

/-- What a request shows. -/
inductive Info
  | name (span : Span) (text : Text)
  | expr (answer : Hover.Answer)

/-- What the compiler knows of a unit after `n` items: the text of a span, the definitions with their names as `find_def` sees them, the types of definitions, and what `expr_info` answers. -/
structure Known where
  text : Span → Text
  defs : Nat → Print.Defs
  ty : Def Sym → Unify.IrTy
  expr : Nat → Nat → Hover.Answer

/-- `info_at` (`info.rs:10-13`) -/
def Src.infoAt (s : Src) (k : Known) (n pos : Nat) : Info :=
  match s.nameInfo n pos with
  | (some (sp, d), n) => .name sp (doc (k.defs n) (k.text (s.span d.node)) (k.ty d) d.kind)
  | (none, n) => .expr (k.expr n pos)

end Tic.Api
