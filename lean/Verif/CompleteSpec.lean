import Verif.ResolveSpec

/-!
# What completions should be

A *site* is a place in an item where a name is used: its syntax node and what kind of name belongs there.
`renItem p x i` is the item `i` with `x` typed at the node `p`.  Completions are then specified by asking
what the compiler would say about that item (`Verif.PropComplete`).
-/

namespace Tic.Resolve

/-- What kind of name a site takes: a plain name in a namespace, the name of a module before a dot, or a
name in the module called `m`, after the dot. -/
inductive Use where
  | plain (ns : NS)
  | moduleName
  | inModule (m : String) (ns : NS)
deriving DecidableEq, Repr

def siteName (ns : NS) : Option Name → Option Name → List (Nat × Use)
  | some m, some n => [(m.node, .moduleName), (n.node, .inModule m.text ns)]
  | none, some n => [(n.node, .plain ns)]
  | _, none => []

mutual
def sitesTy : Ty → List (Nat × Use)
  | .fn a b => sitesTy a ++ sitesTy b
  | .named ns name args => siteName .type ns name ++ sitesTys args
  | .paren t => sitesTy t
  | _ => []
def sitesTys : Tys → List (Nat × Use)
  | .nil => []
  | .cons t ts => sitesTy t ++ sitesTys ts
end

def sitesAnn : Option Ty → List (Nat × Use)
  | some t => sitesTy t
  | none => []

mutual
def sitesExpr : Expr → List (Nat × Use)
  | .name n => siteName .value none n
  | .nsName (some ns) n => siteName .value (some ns) n
  | .apply f a => sitesExpr f ++ sitesExpr a
  | .binary f a => sitesExpr f ++ sitesExpr a
  | .letE _ ty v r => sitesAnn ty ++ (sitesExpr v ++ sitesExpr r)
  | .matchE d cs => sitesExpr d ++ sitesCases cs
  | .ifE c t e => sitesExpr c ++ (sitesExpr t ++ sitesExpr e)
  | .lambda _ b => sitesExpr b
  | .paren e => sitesExpr e
  | _ => []
def sitesCases : Cases → List (Nat × Use)
  | .nil => []
  | .cons ns ctor _ body rest => siteName .pattern ns ctor ++ (sitesExpr body ++ sitesCases rest)
end

def sitesFields : List FieldSyntax → List (Nat × Use)
  | [] => []
  | .recur :: fs => sitesFields fs
  | .type t :: fs => sitesTy t ++ sitesFields fs

def sitesTypeCases : List CaseSyntax → List (Nat × Use)
  | [] => []
  | c :: cs => sitesFields c.fields ++ sitesTypeCases cs

/-- the sites of an item, from left to right -/
def sitesItem : Item → List (Nat × Use)
  | .importI .. => []
  | .typeI _ _ _ _ _ cases => sitesTypeCases cases
  | .valueI _ _ ty v => sitesAnn ty ++ sitesExpr v

/-! ## Typing `x` at the node `p` -/

def Name.ren (p : Nat) (x : String) (n : Name) : Name := if n.node = p then { n with text := x } else n

abbrev renName (p : Nat) (x : String) (n : Option Name) : Option Name := n.map (Name.ren p x)

mutual
def renTy (p : Nat) (x : String) : Ty → Ty
  | .fn a b => .fn (renTy p x a) (renTy p x b)
  | .named ns name args => .named (renName p x ns) (renName p x name) (renTys p x args)
  | .paren t => .paren (renTy p x t)
  | .int => .int
  | .bool => .bool
  | .string => .string
  | .missing => .missing
def renTys (p : Nat) (x : String) : Tys → Tys
  | .nil => .nil
  | .cons t ts => .cons (renTy p x t) (renTys p x ts)
end

abbrev renAnn (p : Nat) (x : String) (t : Option Ty) : Option Ty := t.map (renTy p x)

mutual
def renExpr (p : Nat) (x : String) : Expr → Expr
  | .name n => .name (renName p x n)
  | .nsName ns n => .nsName (renName p x ns) (renName p x n)
  | .apply f a => .apply (renExpr p x f) (renExpr p x a)
  | .binary f a => .binary (renExpr p x f) (renExpr p x a)
  | .letE n ty v r => .letE n (renAnn p x ty) (renExpr p x v) (renExpr p x r)
  | .matchE d cs => .matchE (renExpr p x d) (renCases p x cs)
  | .ifE c t e => .ifE (renExpr p x c) (renExpr p x t) (renExpr p x e)
  | .literal => .literal
  | .lambda n b => .lambda n (renExpr p x b)
  | .paren e => .paren (renExpr p x e)
  | .hole => .hole
  | .missing => .missing
def renCases (p : Nat) (x : String) : Cases → Cases
  | .nil => .nil
  | .cons ns ctor vars body rest =>
    .cons (renName p x ns) (renName p x ctor) vars (renExpr p x body) (renCases p x rest)
end

def renField (p : Nat) (x : String) : FieldSyntax → FieldSyntax
  | .recur => .recur
  | .type t => .type (renTy p x t)

def renTypeCase (p : Nat) (x : String) (c : CaseSyntax) : CaseSyntax :=
  { c with fields := c.fields.map (renField p x) }

/-- the item with the text `x` at the use of a name at `p` -/
def renItem (p : Nat) (x : String) : Item → Item
  | .importI node r n es => .importI node r n es
  | .typeI node a b n ps cs => .typeI node a b n ps (cs.map (renTypeCase p x))
  | .valueI a n ty v => .valueI a n (renAnn p x ty) (renExpr p x v)

end Tic.Resolve
