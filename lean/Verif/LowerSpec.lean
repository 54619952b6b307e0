/-
Programs as their author thinks of them, how they are written, and what it means that the accessors of a syntax tree
show a program.
-/
import Verif.GrammarSpec
import Verif.Lower

namespace Tic.Lower

open Tic.Parser (TokenKind SyntaxKind Tok)
open Tic.Grammar (Syn)

/-! ### Programs -/

/-- Types. -/
inductive STy
  | int | bool | string
  | named (ns : Option Text) (name : Text) (args : List STy)
  | paren (t : STy)
  | fn (a b : STy)

mutual
/-- Expressions. -/
inductive SEx
  | name (n : Text)
  | inModule (m n : Text)
  | apply (f a : SEx)
  | binary (op : TokenKind) (l r : SEx)
  | let_ (n : Text) (ty : Option STy) (value rest : SEx)
  | match_ (d : SEx) (cases : List SCase)
  | if_ (c t e : SEx)
  | true_ | false_
  | number (text : Text)
  | string (text : Text)
  | lambda (fold : Bool) (param : Text) (body : SEx)
  | paren (e : SEx)
  | hole (text : Text)
/-- The cases of a `match`. -/
inductive SCase
  | mk (ns : Option Text) (ctor : Text) (vars : List Text) (body : SEx)
end

/-- The fields of a constructor. -/
inductive SField
  | rec_
  | type (t : STy)

/-- Constructors. -/
structure SCtor where
  name : Text
  fields : List SField

/-- Items.  Whether there is a comma after the last exposed name, and whether there is a bar before the first constructor, is
part of how the item is written but does not matter otherwise. -/
inductive SItem
  | import_ (name : Option Text) (exposed : Option (List Text)) (lastComma : Bool) (path : Text)
  | value (exported : Bool) (name : Text) (ty : Option STy) (value : SEx)
  | type (exported : Bool) (name : Text) (params : List Text) (exportCases : Bool) (firstBar : Bool) (ctor : SCtor) (ctors : List SCtor)

/-! ### How they are written -/

/-- A tree of the grammar, with the text of those tokens whose text matters. -/
inductive TSyn
  | tok (k : TokenKind) (text : Option Text)
  | node (k : SyntaxKind) (cs : List TSyn)

/-- The tree without the texts. -/
def TSyn.shape : TSyn → Syn
  | .tok k _ => .tok k
  | .node k cs => .node k (go cs)
where
  go : List TSyn → List Syn
    | [] => []
    | c :: cs => c.shape :: go cs

/-- The tokens of the tree from left to right, with their texts. -/
def TSyn.words : TSyn → List (TokenKind × Option Text)
  | .tok k t => [(k, t)]
  | .node _ cs => go cs
where
  go : List TSyn → List (TokenKind × Option Text)
    | [] => []
    | c :: cs => c.words ++ go cs

/-- The tokens whose text matters. -/
def carries : TokenKind → Bool
  | .ident | .number | .string | .hole => true
  | _ => false

/-- What is written: the tokens without spaces and comments, with the texts that matter. -/
def wordsOf (toks : List Tok) : List (TokenKind × Option Text) :=
  toks.filterMap fun t => match t.kind with
    | .token k => some (k, if carries k then some t.text else none)
    | .trivia _ => none

/-- Keywords and punctuation. -/
def kw (k : TokenKind) : TSyn := .tok k none

/-- A name. -/
def nmT (t : Text) : TSyn := .node .name [.tok .ident (some t)]

/-- A name, perhaps in a module. -/
def pathT : Option Text → Text → List TSyn
  | none, n => [nmT n]
  | some m, n => [nmT m, kw .dot, nmT n]

/-- A token that may be there. -/
def optT (b : Bool) (k : TokenKind) : List TSyn := if b then [kw k] else []

/-- How types are written. -/
def STy.tree : STy → TSyn
  | .int => .node .intType [kw .int]
  | .bool => .node .boolType [kw .bool]
  | .string => .node .stringType [kw .stringTy]
  | .named ns n args => .node .namedType (pathT ns n ++ trees args)
  | .paren t => .node .parenType [kw .leftParen, t.tree, kw .rightParen]
  | .fn a b => .node .fnType [a.tree, kw .arrow, b.tree]
where
  trees : List STy → List TSyn
    | [] => []
    | t :: ts => t.tree :: trees ts

/-- A type annotation. -/
def annT : Option STy → List TSyn
  | none => []
  | some t => [kw .colon, t.tree]

mutual
/-- How expressions are written. -/
def SEx.tree : SEx → TSyn
  | .name n => .node .nameExpr [nmT n]
  | .inModule m n => .node .namespacedNameExpr [nmT m, kw .dot, nmT n]
  | .apply f a => .node .applyExpr [f.tree, a.tree]
  | .binary o l r => .node .binaryExpr [l.tree, .node .binaryOp [kw o], r.tree]
  | .let_ n ty v r => .node .letExpr ([kw .let_, nmT n] ++ annT ty ++ [kw .equals, v.tree, kw .semicolon, r.tree])
  | .match_ d cs => .node .matchExpr ([kw .match_, d.tree, kw .with_] ++ caseTrees cs ++ [kw .end_])
  | .if_ c t e => .node .ifExpr [kw .if_, c.tree, kw .then_, t.tree, kw .else_, e.tree]
  | .true_ => .node .boolExpr [kw .true_]
  | .false_ => .node .boolExpr [kw .false_]
  | .number t => .node .numberExpr [.tok .number (some t)]
  | .string t => .node .stringExpr [.tok .string (some t)]
  | .lambda fold n e => .node .lambdaExpr ([kw .backslash] ++ optT fold .fold ++ [nmT n, kw .arrow, e.tree])
  | .paren e => .node .parenExpr [kw .leftParen, e.tree, kw .rightParen]
  | .hole t => .node .holeExpr [.tok .hole (some t)]
/-- How cases are written. -/
def SCase.tree : SCase → TSyn
  | .mk ns c vars e => .node .matchCase ([kw .pipe] ++ pathT ns c ++ [.node .matchVars (vars.map nmT), kw .arrow, e.tree])
def caseTrees : List SCase → List TSyn
  | [] => []
  | c :: cs => c.tree :: caseTrees cs
end

/-- How fields are written. -/
def SField.tree : SField → TSyn
  | .rec_ => .node .recField [kw .rec_]
  | .type t => .node .typeField [t.tree]

/-- How constructors are written, with or without the bar. -/
def SCtor.tree (c : SCtor) (bar : Bool) : TSyn := .node .typeCase (optT bar .pipe ++ nmT c.name :: c.fields.map SField.tree)

/-- Names with commas between them, and perhaps one at the end. -/
def commaT : List Text → Bool → List TSyn
  | [], b => optT b .comma
  | [n], b => nmT n :: optT b .comma
  | n :: m :: ns, b => nmT n :: kw .comma :: commaT (m :: ns) b

/-- How items are written. -/
def SItem.tree : SItem → TSyn
  | .import_ n l b p => .node .importItem ([kw .import_] ++ (n.toList.map nmT) ++
      (l.toList.map fun ns => .node .exposedList (kw .leftParen :: commaT ns b ++ [kw .rightParen])) ++ [kw .from_, .tok .string (some p), kw .semicolon])
  | .value x n ty e => .node .valueItem (optT x .export_ ++ [kw .let_, nmT n] ++ annT ty ++ [kw .equals, e.tree, kw .semicolon])
  | .type x n ps xc bar c cs => .node .typeItem (optT x .export_ ++ [kw .type, nmT n] ++ (if ps = [] then [] else [.node .typeParams (ps.map nmT)]) ++
      [kw .equals] ++ optT xc .export_ ++ [c.tree bar] ++ cs.map (·.tree true) ++ [kw .semicolon])

/-- A program part is bracketed as the precedence of its operators asks for if its tree is in the grammar. -/
def SItem.Bracketed (i : SItem) : Prop := Grammar.Item i.tree.shape

/-! ### What the accessors show -/

/-- Two lists of the same length, related element by element. -/
inductive Each {α β : Type} (R : α → β → Prop) : List α → List β → Prop
  | nil : Each R [] []
  | cons {a b as bs} : R a b → Each R as bs → Each R (a :: as) (b :: bs)

/-- A name with this text. -/
def ShowsName (v : VName) (t : Text) : Prop := v.token = some (.ident, t)

/-- A name, perhaps in a module. -/
inductive ShowsPath : Option VName → Option VName → Option Text → Text → Prop
  | plain {v n} : ShowsName v n → ShowsPath none (some v) none n
  | inModule {u v m n} : ShowsName u m → ShowsName v n → ShowsPath (some u) (some v) (some m) n

inductive ShowsTy : VTy → STy → Prop
  | int : ShowsTy .int .int
  | bool : ShowsTy .bool .bool
  | string : ShowsTy .string .string
  | named {ns v m n us ts} : ShowsPath ns v m n → Each ShowsTy us ts → ShowsTy (.named ns v us) (.named m n ts)
  | paren {u t} : ShowsTy u t → ShowsTy (.paren (some u)) (.paren t)
  | fn {u v a b} : ShowsTy u a → ShowsTy v b → ShowsTy (.fn (some u) (some v)) (.fn a b)

/-- An annotation. -/
inductive ShowsAnn : Option VTy → Option STy → Prop
  | none : ShowsAnn none none
  | some {u t} : ShowsTy u t → ShowsAnn (some u) (some t)

mutual
inductive ShowsEx : VEx → SEx → Prop
  | name {v n} : ShowsName v n → ShowsEx (.name (some v)) (.name n)
  | inModule {u v m n} : ShowsName u m → ShowsName v n → ShowsEx (.inModule (some u) (some v)) (.inModule m n)
  | apply {f a f' a'} : ShowsEx f f' → ShowsEx a a' → ShowsEx (.apply (some f) (some a)) (.apply f' a')
  | binary {l r o t l' r'} : ShowsEx l l' → ShowsEx r r' → ShowsEx (.binary (some l) (some (some (o, t))) (some r)) (.binary o l' r')
  | let_ {v n u t e r e' r'} : ShowsName v n → ShowsAnn u t → ShowsEx e e' → ShowsEx r r' →
      ShowsEx (.let_ (some v) u (some e) (some r)) (.let_ n t e' r')
  | match_ {d d' cs cs'} : ShowsEx d d' → ShowsCases cs cs' → ShowsEx (.match_ (some d) cs) (.match_ d' cs')
  | if_ {c t e c' t' e'} : ShowsEx c c' → ShowsEx t t' → ShowsEx e e' → ShowsEx (.if_ (some c) (some t) (some e)) (.if_ c' t' e')
  | true_ {t} : ShowsEx (.bool (some (.true_, t))) .true_
  | false_ {t} : ShowsEx (.bool (some (.false_, t))) .false_
  | number {t} : ShowsEx (.number (some (.number, t))) (.number t)
  | string {t} : ShowsEx (.string (some (.string, t))) (.string t)
  | lambda {b v n e e'} : ShowsName v n → ShowsEx e e' → ShowsEx (.lambda b (some v) (some e)) (.lambda b n e')
  | paren {e e'} : ShowsEx e e' → ShowsEx (.paren (some e)) (.paren e')
  | hole {t} : ShowsEx (.hole (some t)) (.hole t)
inductive ShowsCases : List VCase → List SCase → Prop
  | nil : ShowsCases [] []
  | cons {ns v m n us ts e e' cs cs'} : ShowsPath ns v m n → Each ShowsName us ts → ShowsEx e e' → ShowsCases cs cs' →
      ShowsCases (.mk ns v (some us) (some e) :: cs) (.mk m n ts e' :: cs')
end

inductive ShowsField : VField → SField → Prop
  | rec_ : ShowsField .rec_ .rec_
  | type {u t} : ShowsTy u t → ShowsField (.type (some u)) (.type t)

inductive ShowsCtor : VCtor → SCtor → Prop
  | mk {v n us ts} : ShowsName v n → Each ShowsField us ts → ShowsCtor ⟨some v, us⟩ ⟨n, ts⟩

/-- A list of names that is not written if it is empty. -/
inductive ShowsParams : Option (List VName) → List Text → Prop
  | none : ShowsParams none []
  | some {vs ts} : Each ShowsName vs ts → ts ≠ [] → ShowsParams (some vs) ts

/-- A part that may be absent. -/
inductive ShowsOpt {α β : Type} (R : α → β → Prop) : Option α → Option β → Prop
  | none : ShowsOpt R none none
  | some {a b} : R a b → ShowsOpt R (some a) (some b)

inductive ShowsItem : VItem → SItem → Prop
  | import_ {id v n l ns b p} : ShowsOpt ShowsName v n → ShowsOpt (Each ShowsName) l ns →
      ShowsItem (.import_ id v l (some p)) (.import_ n ns b p)
  | value {x v n u t e e'} : ShowsName v n → ShowsAnn u t → ShowsEx e e' → ShowsItem (.value x (some v) u (some e)) (.value x n t e')
  | type {id x v n ps ps' xc bar c cs c' cs'} : ShowsName v n → ShowsParams ps ps' → ShowsCtor c c' → Each ShowsCtor cs cs' →
      ShowsItem (.type id x (some v) ps xc (c :: cs)) (.type x n ps' xc bar c' cs')

end Tic.Lower
