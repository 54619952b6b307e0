/-
The grammar of the language: which trees of syntax are well formed.  Nothing here refers to how the
parser works, only to the names of its tokens and of its nodes.
-/
import Verif.Parser

namespace Tic.Grammar

open Tic.Parser (TokenKind SyntaxKind)

/-- A tree of syntax, without positions and without spaces and comments. -/
inductive Syn
  | tok (k : TokenKind)
  | node (k : SyntaxKind) (cs : List Syn)

/-- The tokens of a tree, from left to right. -/
def Syn.yield : Syn → List TokenKind
  | .tok k => [k]
  | .node _ cs => go cs
where
  go : List Syn → List TokenKind
    | [] => []
    | c :: cs => c.yield ++ go cs

/-- `name ::= IDENT` -/
def nm : Syn := .node .name [.tok .ident]

/-- `path ::= name | name "." name` -/
inductive Path : List Syn → Prop
  | plain : Path [nm]
  | inModule : Path [nm, .tok .dot, nm]

mutual
/-- `atom-type ::= "int" | "bool" | "string" | path | "(" type ")"` -/
inductive AtomTy : Syn → Prop
  | int : AtomTy (.node .intType [.tok .int])
  | bool : AtomTy (.node .boolType [.tok .bool])
  | string : AtomTy (.node .stringType [.tok .stringTy])
  | named {p} : Path p → AtomTy (.node .namedType p)
  | paren {t} : Ty t → AtomTy (.node .parenType [.tok .leftParen, t, .tok .rightParen])
/-- `type-app ::= atom-type | path atom-type*` -/
inductive AppTy : Syn → Prop
  | atom {t} : AtomTy t → AppTy t
  | app {p args} : Path p → (∀ a ∈ args, AtomTy a) → AppTy (.node .namedType (p ++ args))
/-- `type ::= type-app | type-app "->" type`: the arrow associates to the right. -/
inductive Ty : Syn → Prop
  | app {t} : AppTy t → Ty t
  | fn {a b} : AppTy a → Ty b → Ty (.node .fnType [a, .tok .arrow, b])
end

/-- `annotation ::= "" | ":" type` -/
inductive Ann : List Syn → Prop
  | none : Ann []
  | some {t} : Ty t → Ann [.tok .colon, t]

/-- The operators from the loosest to the tightest. -/
def level : TokenKind → Option Nat
  | .argPipe => some 1
  | .less | .lessEq | .greater | .greaterEq | .eqEq | .notEq => some 2
  | .plus | .minus => some 3
  | .star | .slash | .percent => some 4
  | _ => none

mutual
/-- `atom ::= "(" expr ")" | "true" | "false" | NUMBER | STRING | name | name "." name | "_"` -/
inductive Atom : Syn → Prop
  | paren {e} : Ex e → Atom (.node .parenExpr [.tok .leftParen, e, .tok .rightParen])
  | true_ : Atom (.node .boolExpr [.tok .true_])
  | false_ : Atom (.node .boolExpr [.tok .false_])
  | number : Atom (.node .numberExpr [.tok .number])
  | string : Atom (.node .stringExpr [.tok .string])
  | name : Atom (.node .nameExpr [nm])
  | inModule : Atom (.node .namespacedNameExpr [nm, .tok .dot, nm])
  | hole : Atom (.node .holeExpr [.tok .hole])
/-- `app ::= atom | app atom`: application associates to the left. -/
inductive App : Syn → Prop
  | atom {t} : Atom t → App t
  | app {f a} : App f → Atom a → App (.node .applyExpr [f, a])
/-- Expressions of applications and operators of level at least `p`.  All operators associate to the
left: the left operand may use operators of the same level, the right operand only tighter ones. -/
inductive Op : Nat → Syn → Prop
  | app {p t} : App t → Op p t
  | bin {p l o a b} : level o = some l → p ≤ l → Op l a → Op (l + 1) b →
      Op p (.node .binaryExpr [a, .node .binaryOp [.tok o], b])
/-- `case ::= "|" path name* "->" expr` -/
inductive Case : Syn → Prop
  | mk {p n e} : Path p → Ex e →
      Case (.node .matchCase (.tok .pipe :: p ++ [.node .matchVars (List.replicate n nm), .tok .arrow, e]))
/-- Expressions. -/
inductive Ex : Syn → Prop
  | op {t} : Op 0 t → Ex t
  | let_ {ann v r} : Ann ann → Ex v → Ex r →
      Ex (.node .letExpr ([.tok .let_, nm] ++ ann ++ [.tok .equals, v, .tok .semicolon, r]))
  | match_ {d cs} : Ex d → (∀ c ∈ cs, Case c) →
      Ex (.node .matchExpr ([.tok .match_, d, .tok .with_] ++ cs ++ [.tok .end_]))
  | if_ {c a b} : Ex c → Ex a → Ex b →
      Ex (.node .ifExpr [.tok .if_, c, .tok .then_, a, .tok .else_, b])
  | lam {e} : Ex e → Ex (.node .lambdaExpr [.tok .backslash, nm, .tok .arrow, e])
  | lamFold {e} : Ex e → Ex (.node .lambdaExpr [.tok .backslash, .tok .fold, nm, .tok .arrow, e])
end

/-- `field ::= "rec" | atom-type` -/
inductive Field : Syn → Prop
  | rec_ : Field (.node .recField [.tok .rec_])
  | ty {t} : AtomTy t → Field (.node .typeField [t])

/-- `ctor ::= name field*` -/
inductive Ctor : List Syn → Prop
  | mk {fs} : (∀ f ∈ fs, Field f) → Ctor (nm :: fs)

/-- `type-params ::= "" | name+` -/
inductive Params : List Syn → Prop
  | none : Params []
  | some {n} : Params [.node .typeParams (List.replicate (n + 1) nm)]

/-- An optional token. -/
inductive Opt (k : TokenKind) : List Syn → Prop
  | none : Opt k []
  | some : Opt k [.tok k]

/-- `name ("," name)* ","?` -/
inductive Names : List Syn → Prop
  | none : Names []
  | last : Names [nm]
  | more {ns} : Names ns → Names (nm :: .tok .comma :: ns)

/-- Items: `import`, `let` and `type`. -/
inductive Item : Syn → Prop
  | import_ {n l} : (n = [] ∨ n = [nm]) →
      (l = [] ∨ ∃ ns, Names ns ∧ l = [.node .exposedList (.tok .leftParen :: ns ++ [.tok .rightParen])]) →
      Item (.node .importItem (.tok .import_ :: n ++ l ++ [.tok .from_, .tok .string, .tok .semicolon]))
  | value {x ann e} : Opt .export_ x → Ann ann → Ex e →
      Item (.node .valueItem (x ++ [.tok .let_, nm] ++ ann ++ [.tok .equals, e, .tok .semicolon]))
  | type {x ps xc p c cs} : Opt .export_ x → Params ps → Opt .export_ xc → Opt .pipe p → Ctor c →
      (∀ d ∈ cs, ∃ f, Ctor f ∧ d = .node .typeCase (.tok .pipe :: f)) →
      Item (.node .typeItem (x ++ [.tok .type, nm] ++ ps ++ [.tok .equals] ++ xc ++ [.node .typeCase (p ++ c)] ++ cs ++ [.tok .semicolon]))

end Tic.Grammar
