/-
The accessors of the syntax tree: `ticc/src/compiler/syntax.rs` and `syntax/node.rs`.

The compiler never builds an abstract syntax tree: each pass calls accessors such as `e.cond()` on the nodes of the
parser's tree.  Here the answers of the accessors of a node, of the nodes they return, and so on, are gathered in one
tree.  Every accessor that may fail gives an option.  Accessors that unwrap their result also give an option here:
`none` stands for the panic.
-/
import Verif.Parser
import Verif.Resolve

namespace Tic.Lower

open Tic.Parser

/-- The text of a token. -/
abbrev Text := List UInt8

/-- `SyntaxTree`, `ticc-syntax/src/lib.rs:195-199`: where the item starts, and the source from there on (not the
item's text only, `parser.rs:33`). -/
structure Source where
  startPos : Nat
  text : Text

/-- `span_source`, `ticc-syntax/src/lib.rs:209-215`.  That the range is inside the text and at character boundaries is not
modelled: taking a part of a list does not fail. -/
def Source.slice (s : Source) (span : Nat × Nat) : Text :=
  (s.text.drop (span.1 - s.startPos)).take ((span.2 - s.startPos) - (span.1 - s.startPos))

/-- `into_token`, `ticc-syntax/src/cursor.rs:21-27`, with the text. -/
def tokenOf (s : Source) : Elem → Option (TokenKind × Text)
  | .token k sp => some (k, s.slice sp)
  | _ => none

/-- The tokens among the children with their text, `all_children().filter_map(|c| c.into_token())`. -/
def tokensIn (s : Source) (cs : List Elem) : List (TokenKind × Text) := cs.filterMap (tokenOf s)

/-- `child_token`, `syntax.rs:35-39`. -/
def childToken (s : Source) (cs : List Elem) (k : TokenKind) : Option Text :=
  ((tokensIn s cs).find? fun t => t.1 == k).map Prod.snd

/-- `self.syntax.all_children().find_map(|c| c.into_token())`: the body of `token` of `BoolExpr`, `NumberExpr`, `StringExpr`,
`BinaryOp` and `Name`, `node.rs:306-322,359-375`, without the `unwrap`. -/
def firstToken (s : Source) (cs : List Elem) : Option (TokenKind × Text) := (tokensIn s cs).head?

/-- `node::Name`: its id and its token (`none`: reading it panics). -/
structure VName where
  node : Nat
  token : Option (TokenKind × Text)

/-- `Name::cast`. -/
def nameOf (s : Source) : Elem → Option VName
  | .node id .name _ _ cs => some ⟨id, firstToken s cs⟩
  | _ => none

/-- `children::<Name>`, `syntax.rs:19-21`. -/
def names (s : Source) (cs : List Elem) : List VName := cs.filterMap (nameOf s)

/-- `node::Type`, `node.rs:91-99`. -/
inductive VTy
  | int | bool | string
  | fn (a b : Option VTy)
  | named (ns name : Option VName) (args : List VTy)
  | paren (inner : Option VTy)
  | err

/-- `namespace` of `NamedType` and `MatchCase`, `node.rs:234,345`: only if there is a dot. -/
def namespaceIn (s : Source) (cs : List Elem) : Option VName :=
  if (childToken s cs .dot).isSome then (names s cs)[0]? else none

/-- `name` of `NamedType` and `ctor` of `MatchCase`, `node.rs:236,347`: the name after the dot, if there is one. -/
def nameIn (s : Source) (cs : List Elem) : Option VName :=
  if (childToken s cs .dot).isSome then (names s cs)[1]? else (names s cs)[0]?

mutual
/-- `Type::cast` and the accessors of types, `node.rs:215-244`. -/
def tyOf (s : Source) : Elem → Option VTy
  | .node _ k _ _ cs =>
    match k with
    | .intType => some .int
    | .boolType => some .bool
    | .stringType => some .string
    | .fnType => some (.fn (tys s cs)[0]? (tys s cs)[1]?)
    | .namedType => some (.named (namespaceIn s cs) (nameIn s cs) (tys s cs))
    | .parenType => some (.paren (tys s cs)[0]?)
    | .errType => some .err
    | _ => none
  | _ => none
/-- `children::<Type>`. -/
def tys (s : Source) : List Elem → List VTy
  | [] => []
  | c :: cs => (tyOf s c).toList ++ tys s cs
end

/-- `BinaryOp::cast` and what is read from it. -/
def opOf (s : Source) : Elem → Option (Option (TokenKind × Text))
  | .node _ .binaryOp _ _ cs => some (firstToken s cs)
  | _ => none

/-- `children::<BinaryOp>`, as the tokens of the operators. -/
def ops (s : Source) (cs : List Elem) : List (Option (TokenKind × Text)) := cs.filterMap (opOf s)

/-- `MatchVars::cast` and what is read from it. -/
def varsOf (s : Source) : Elem → Option (List VName)
  | .node _ .matchVars _ _ cs => some (names s cs)
  | _ => none

/-- `children::<MatchVars>`, with `MatchVars::vars`, `node.rs:353-357`. -/
def varLists (s : Source) (cs : List Elem) : List (List VName) := cs.filterMap (varsOf s)

mutual
/-- `node::Expr`, `node.rs:111-125`, with the answers of the accessors. -/
inductive VEx
  | name (n : Option VName)
  | inModule (ns n : Option VName)
  | apply (f a : Option VEx)
  | binary (l : Option VEx) (op : Option (Option (TokenKind × Text))) (r : Option VEx)
  | let_ (n : Option VName) (ty : Option VTy) (value rest : Option VEx)
  | match_ (discr : Option VEx) (cases : List VCase)
  | if_ (c t e : Option VEx)
  | bool (token : Option (TokenKind × Text))
  | number (token : Option (TokenKind × Text))
  | string (token : Option (TokenKind × Text))
  | lambda (fold : Bool) (param : Option VName) (body : Option VEx)
  | paren (inner : Option VEx)
  | hole (token : Option Text)
/-- `node::MatchCase`. -/
inductive VCase
  | mk (ns ctor : Option VName) (vars : Option (List VName)) (body : Option VEx)
end

mutual
/-- `Expr::cast` and the accessors of expressions, `node.rs:257-341`. -/
def exprOf (s : Source) : Elem → Option VEx
  | .node _ k _ _ cs =>
    match k with
    | .nameExpr => some (.name (names s cs)[0]?)
    | .namespacedNameExpr => some (.inModule (names s cs)[0]? (names s cs)[1]?)
    | .applyExpr => some (.apply (exprs s cs)[0]? (exprs s cs)[1]?)
    | .binaryExpr => some (.binary (exprs s cs)[0]? (ops s cs)[0]? (exprs s cs)[1]?)
    | .letExpr => some (.let_ (names s cs)[0]? (tys s cs)[0]? (exprs s cs)[0]? (exprs s cs)[1]?)
    | .matchExpr => some (.match_ (exprs s cs)[0]? (cases s cs))
    | .ifExpr => some (.if_ (exprs s cs)[0]? (exprs s cs)[1]? (exprs s cs)[2]?)
    | .boolExpr => some (.bool (firstToken s cs))
    | .numberExpr => some (.number (firstToken s cs))
    | .stringExpr => some (.string (firstToken s cs))
    | .lambdaExpr => some (.lambda (childToken s cs .fold).isSome (names s cs)[0]? (exprs s cs)[0]?)
    | .parenExpr => some (.paren (exprs s cs)[0]?)
    | .holeExpr => some (.hole (childToken s cs .hole))
    | _ => none
  | _ => none
/-- `children::<Expr>`. -/
def exprs (s : Source) : List Elem → List VEx
  | [] => []
  | c :: cs => (exprOf s c).toList ++ exprs s cs
/-- `MatchCase::cast` and its accessors, `node.rs:343-351`. -/
def caseOf (s : Source) : Elem → Option VCase
  | .node _ k _ _ cs =>
    match k with
    | .matchCase => some (.mk (namespaceIn s cs) (nameIn s cs) (varLists s cs)[0]? (exprs s cs)[0]?)
    | _ => none
  | _ => none
/-- `children::<MatchCase>`. -/
def cases (s : Source) : List Elem → List VCase
  | [] => []
  | c :: cs => (caseOf s c).toList ++ cases s cs
end

/-- `node::Field`, `node.rs:86-89`. -/
inductive VField
  | rec_
  | type (t : Option VTy)

/-- `Field::cast` and `TypeField::ty`, `node.rs:211-213`. -/
def fieldOf (s : Source) : Elem → Option VField
  | .node _ .recField _ _ _ => some .rec_
  | .node _ .typeField _ _ cs => some (.type (tys s cs)[0]?)
  | _ => none

/-- `node::TypeCase`, `node.rs:201-205`. -/
structure VCtor where
  name : Option VName
  fields : List VField

/-- `TypeCase::cast` and its accessors. -/
def ctorOf (s : Source) : Elem → Option VCtor
  | .node _ .typeCase _ _ cs => some ⟨(names s cs)[0]?, cs.filterMap (fieldOf s)⟩
  | _ => none

/-- `TypeParams::cast` and what is read from it. -/
def paramsOf (s : Source) : Elem → Option (List VName)
  | .node _ .typeParams _ _ cs => some (names s cs)
  | _ => none

/-- `children::<TypeParams>`, with `TypeParams::params`, `node.rs:195-199`. -/
def paramLists (s : Source) (cs : List Elem) : List (List VName) := cs.filterMap (paramsOf s)

/-- `ExposedList::cast` and what is read from it. -/
def exposedOf (s : Source) : Elem → Option (List VName)
  | .node _ .exposedList _ _ cs => some (names s cs)
  | _ => none

/-- `children::<ExposedList>`, with `ExposedList::imported_names`, `node.rs:166`. -/
def exposedLists (s : Source) (cs : List Elem) : List (List VName) := cs.filterMap (exposedOf s)

/-- `type_export_token`, `node.rs:181-193`. -/
def typeExport (s : Source) (cs : List Elem) (beforeEq : Bool) : Bool :=
  let ts := (tokensIn s cs).map Prod.fst
  (if beforeEq then ts.takeWhile (· != .equals) else ts.dropWhile (· != .equals)).contains .export_

/-- `node::Item`, `node.rs:69-73`. -/
inductive VItem
  | import_ (node : Nat) (name : Option VName) (exposed : Option (List VName)) (path : Option Text)
  | value (exported : Bool) (name : Option VName) (ty : Option VTy) (value : Option VEx)
  | type (node : Nat) (exported : Bool) (name : Option VName) (params : Option (List VName)) (exportCases : Bool) (cases : List VCtor)

/-- `Item::cast` and the accessors of items, `node.rs:155-179,246-255`. -/
def itemOf (s : Source) : Elem → Option VItem
  | .node id k _ _ cs =>
    match k with
    | .importItem => some (.import_ id (names s cs)[0]? (exposedLists s cs)[0]? (childToken s cs .string))
    | .valueItem => some (.value (childToken s cs .export_).isSome (names s cs)[0]? (tys s cs)[0]? (exprs s cs)[0]?)
    | .typeItem => some (.type id (typeExport s cs true) (names s cs)[0]? (paramLists s cs)[0]? (typeExport s cs false) (cs.filterMap (ctorOf s)))
    | _ => none
  | _ => none

/-- `ItemSyntax::item`, `syntax.rs:52-54`: the first item among the children of the root. -/
def item (s : Source) : Elem → Option VItem
  | .node _ _ _ _ cs => (cs.filterMap (itemOf s))[0]?
  | _ => none

end Tic.Lower
