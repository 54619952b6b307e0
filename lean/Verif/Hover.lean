/-
Hovering over an expression: `ticc/src/api/info.rs:49-75`, and which expressions the type checker gives a type,
`ticc/src/compiler/typeck.rs:43-65,394-614`.
-/
import Verif.Lower
import Verif.ParserTree

namespace Tic.Hover

open Tic.Parser
open Tic.Lower (Source nameIn)

/-- The kinds for which `node::Expr::cast` succeeds, `ticc/src/compiler/syntax/node.rs:111-125`. -/
def isExpr : SyntaxKind → Bool
  | .nameExpr | .namespacedNameExpr | .applyExpr | .binaryExpr | .letExpr | .matchExpr | .ifExpr | .boolExpr | .numberExpr
  | .stringExpr | .lambdaExpr | .parenExpr | .holeExpr => true
  | _ => false

/-- The nodes of a tree, each before those below it: `descendants`, `ticc-syntax/src/cursor.rs:97-130`. -/
def descendants : Elem → List Elem
  | .node id k sp f cs => .node id k sp f cs :: go cs
  | _ => []
where
  go : List Elem → List Elem
    | [] => []
    | c :: cs => descendants c ++ go cs

/-- `Expr::cast(node).is_some()` -/
def exprNode : Elem → Bool
  | .node _ k _ _ _ => isExpr k
  | _ => false

/-- `node.id()` -/
def nodeId : Elem → Nat
  | .node id _ _ _ _ => id
  | _ => 0

/-- The children of an element. -/
def children : Elem → List Elem
  | .node _ _ _ _ cs => cs
  | _ => []

/-- `span.start() <= pos && pos <= span.end()` -/
def touches (sp : Nat × Nat) (pos : Nat) : Bool := sp.1 ≤ pos && pos ≤ sp.2

/-- `find_expr_at_pos`, `info.rs:62-75`; `syn` gives the tree of an item.  The item's span is the whole extent of its tree,
`parser.rs:31`. -/
def findExpr {I : Type} (syn : I → Elem) (items : List I) (pos : Nat) : Option (I × Elem) :=
  ((items.filter fun i => touches (syn i).full pos).flatMap fun i =>
    (((descendants (syn i)).filter fun n => touches n.span pos).filter exprNode).map fun e => (i, e)).getLast?

mutual
/-- The ids `check_expr` (`typeck.rs:394-614`) inserts into `expr_types` for an expression, in the order of its calls; `none` if
the element is not an expression.  Each line is about the accessors that `check_expr` calls itself on. -/
def checked (s : Source) : Elem → Option (List Nat)
  | .node id k _ _ cs =>
    match k with
    | .nameExpr | .namespacedNameExpr | .boolExpr | .numberExpr | .stringExpr | .holeExpr => some [id]
    | .applyExpr => some (id :: ((checkeds s cs)[0]?.getD [] ++ (checkeds s cs)[1]?.getD []))
    | .binaryExpr => some (id :: ((checkeds s cs)[0]?.getD [] ++ (checkeds s cs)[1]?.getD []))
    | .letExpr => some (id :: ((checkeds s cs)[0]?.getD [] ++ (checkeds s cs)[1]?.getD []))
    | .matchExpr => some (id :: ((checkeds s cs)[0]?.getD [] ++ (checkedCases s cs).flatten))
    | .ifExpr => some (id :: ((checkeds s cs)[0]?.getD [] ++ ((checkeds s cs)[1]?.getD [] ++ (checkeds s cs)[2]?.getD [])))
    | .lambdaExpr => some (id :: (checkeds s cs)[0]?.getD [])
    | .parenExpr => some (id :: (checkeds s cs)[0]?.getD [])
    | _ => none
  | _ => none
/-- Those of the expressions among the children. -/
def checkeds (s : Source) : List Elem → List (List Nat)
  | [] => []
  | c :: cs => (checked s c).toList ++ checkeds s cs
/-- Those of a case, `typeck.rs:501-548`: nothing if the case has no constructor. -/
def checkedCase (s : Source) : Elem → Option (List Nat)
  | .node _ k _ _ cs =>
    match k with
    | .matchCase => some (if (nameIn s cs).isSome then (checkeds s cs)[0]?.getD [] else [])
    | _ => none
  | _ => none
/-- Those of the cases among the children. -/
def checkedCases (s : Source) : List Elem → List (List Nat)
  | [] => []
  | c :: cs => (checkedCase s c).toList ++ checkedCases s cs
end

/-- Those of an item, `typeck.rs:43-62`; `none` if the element is not an item. -/
def checkedItem (s : Source) : Elem → Option (List Nat)
  | .node _ k _ _ cs =>
    match k with
    | .importItem | .typeItem => some []
    | .valueItem => some ((checkeds s cs)[0]?.getD [])
    | _ => none
  | _ => none

/-- The keys of `item.types` after type checking, `typeck.rs:43-65`: those of the first item of the tree. -/
def typed (s : Source) : Elem → List Nat
  | .node _ _ _ _ cs => (cs.filterMap (checkedItem s))[0]?.getD []
  | _ => []

/-- The keys of `item.types` of an item of a file; the source of its tree is that of the file from its start on. -/
def typedIn (src : List UInt8) (e : Elem) : List Nat := typed ⟨e.full.1, src.drop e.full.1⟩ e

/-- What a request for information may do. -/
inductive Answer
  | nothing
  | panics
  | shows (span : Nat × Nat) (node : Nat)

/-- `expr_info`, `info.rs:49-60`: the type shown is the one stored for the node. -/
def exprInfo {I : Type} (src : List UInt8) (syn : I → Elem) (items : List I) (pos : Nat) : Answer :=
  match findExpr syn items pos with
  | none => .nothing
  | some (i, e) => if nodeId e ∈ typedIn src (syn i) then .shows e.span (nodeId e) else .panics

end Tic.Hover
