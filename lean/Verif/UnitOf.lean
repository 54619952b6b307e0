/-
From the parser's trees to the units the editor queries work on: the glue between `ticc/src/compiler/syntax/node.rs` (the accessors,
`Verif.Lower`), `ticc/src/compiler/resolve.rs` (which calls them, `Verif.Resolve`) and `ticc/src/api` (`Verif.Api`).
-/
import Verif.Lower
import Verif.Hover
import Verif.Api
import Verif.Driver
import Verif.Lexer

namespace Tic.Units

open Tic.Parser
open Tic.Lower (Source Text VName VTy VEx VCase VField VCtor VItem item)
open Tic.Resolve (Name Ty Tys Expr Cases FieldSyntax CaseSyntax ImportResult Item Export Sym ErrKind)
open Tic.Hover (descendants nodeId)

/-- `&str`: names are ASCII (C51), so bytes are characters. -/
def str (t : Text) : String := String.ofList (t.map fun b => Char.ofNat b.toNat)

/-- `name.token().text()` and `name.syntax().id()`; `nd` numbers the nodes of the item (see `nodeNo`).  A name always has its token
(C49); for a name without one, where the accessor would panic, the text here is empty. -/
def toName (nd : Nat → Nat) (n : VName) : Name := ⟨str ((n.token.map Prod.snd).getD []), nd n.node⟩

mutual
/-- What `resolve_type` (`resolve.rs:303-480`) reads of a type. -/
def toTy (nd : Nat → Nat) : VTy → Ty
  | .int => .int
  | .bool => .bool
  | .string => .string
  | .fn a b => .fn (toTyO nd a) (toTyO nd b)
  | .named ns n args => .named (ns.map (toName nd)) (n.map (toName nd)) (toTys nd args)
  | .paren t => .paren (toTyO nd t)
  | .err => .missing
/-- An optional child. -/
def toTyO (nd : Nat → Nat) : Option VTy → Ty
  | none => .missing
  | some t => toTy nd t
def toTys (nd : Nat → Nat) : List VTy → Tys
  | [] => .nil
  | t :: ts => .cons (toTy nd t) (toTys nd ts)
end

mutual
/-- What `resolve_expr` (`resolve.rs:482-669`) reads of an expression. -/
def toExpr (nd : Nat → Nat) : VEx → Expr
  | .name n => .name (n.map (toName nd))
  | .inModule ns n => .nsName (ns.map (toName nd)) (n.map (toName nd))
  | .apply f a => .apply (toExprO nd f) (toExprO nd a)
  | .binary l _ r => .binary (toExprO nd l) (toExprO nd r)
  | .let_ n ty v r => .letE (n.map (toName nd)) (ty.map (toTy nd)) (toExprO nd v) (toExprO nd r)
  | .match_ d cs => .matchE (toExprO nd d) (toCases nd cs)
  | .if_ c t e => .ifE (toExprO nd c) (toExprO nd t) (toExprO nd e)
  | .bool _ => .literal
  | .number _ => .literal
  | .string _ => .literal
  | .lambda _ p b => .lambda (p.map (toName nd)) (toExprO nd b)
  | .paren e => .paren (toExprO nd e)
  | .hole _ => .hole
/-- An optional child. -/
def toExprO (nd : Nat → Nat) : Option VEx → Expr
  | none => .missing
  | some e => toExpr nd e
/-- The cases of a match, `resolve.rs:593-640`; a case without variables binds none. -/
def toCases (nd : Nat → Nat) : List VCase → Cases
  | [] => .nil
  | .mk ns c vars b :: cs => .cons (ns.map (toName nd)) (c.map (toName nd)) ((vars.getD []).map (toName nd)) (toExprO nd b) (toCases nd cs)
end

/-- `resolve.rs:243-254` -/
def toField (nd : Nat → Nat) : VField → FieldSyntax
  | .rec_ => .recur
  | .type t => .type (toTyO nd t)

/-- `resolve.rs:236-262` -/
def toCtor (nd : Nat → Nat) (c : VCtor) : CaseSyntax := ⟨c.name.map (toName nd), c.fields.map (toField nd)⟩

/-- What importing a path gives: `builtin::lookup_module` and the module resolver, `resolve.rs:98-127`. -/
abbrev Lookup := Text → Except ErrKind (List (Export Sym))

/-- `resolve.rs:92-127`: the text of the path without its quotes.  An error is reported at the path; here its node is the item's. -/
def toImport (lookup : Lookup) (node : Nat) : Option Text → ImportResult
  | none => .noPath
  | some p => match lookup ((p.drop 1).take (p.length - 2)) with
    | .ok u => .ok u
    | .error e => .failed e node

/-- `resolve.rs:77-89` -/
def toItem (lookup : Lookup) (nd : Nat → Nat) : VItem → Item
  | .import_ node n ex path => .importI (nd node) (toImport lookup (nd node) path) (n.map (toName nd)) ((ex.getD []).map (toName nd))
  | .value ex n ty v => .valueI ex (n.map (toName nd)) (ty.map (toTy nd)) (toExprO nd v)
  | .type node ex n ps exc cs => .typeI (nd node) ex exc (n.map (toName nd)) ((ps.getD []).map (toName nd)) (cs.map (toCtor nd))

/-- An item of the file: the first item of its tree, `resolve.rs:77-80`.  If there is none nothing is resolved: the item here
is a value without a name, a type and an expression, for which nothing happens (`resolve.rs:264-301`). -/
def toItemO (lookup : Lookup) (nd : Nat → Nat) : Option VItem → Item
  | none => .valueI false none none .missing
  | some i => toItem lookup nd i

/-- The nodes of the items of a file get different numbers: `(item, id)` is `item * width + id`. -/
def nodeNo (width k id : Nat) : Nat := k * width + id

/-- More than any id in the trees. -/
def width (ts : List Elem) : Nat := ((ts.flatMap Elem.ids).foldr max 0) + 1

/-- The span reported for a node: of a name its token's, `resolve.rs:134,169,195,259`, else its own, `resolve.rs:145`. -/
def spanOf : Elem → Nat × Nat
  | .node _ .name sp _ cs => (cs.findSome? fun | .token _ s => some s | _ => none).getD sp
  | e => e.span

/-- The span of the node of a number. -/
def spanAt (ts : List Elem) (m : Nat) : Nat × Nat :=
  match ts[m / width ts]? with
  | none => (0, 0)
  | some t => match (descendants t).find? (fun d => nodeId d == m % width ts) with
    | none => (0, 0)
    | some d => spanOf d

/-- The items, from the `k`-th on. -/
def itemsFrom (lookup : Lookup) (src : Text) (w : Nat) : Nat → List Elem → List Item
  | _, [] => []
  | k, t :: ts => toItemO lookup (nodeNo w k) (item ⟨t.full.1, src.drop t.full.1⟩ t) :: itemsFrom lookup src w (k + 1) ts

/-- The extent of the `k`-th item; the queries do not ask for it beyond the last item. -/
def extent (ts : List Elem) (k : Nat) : Nat × Nat :=
  match ts[k]? with
  | some t => t.full
  | none => let stop := (ts.getLast?.map fun t => t.full.2).getD 0; (stop + (k - ts.length), stop + (k - ts.length) + 1)

/-- The unit of a file: `ts` are the trees of its items. -/
def unitOf (lookup : Lookup) (me : Nat) (src : Text) (ts : List Elem) : Api.Src where
  me := me
  items := itemsFrom lookup src (width ts) 0 ts
  ispan := extent ts
  span := spanAt ts

end Tic.Units
