/-
The core language, `ticc-core/src/ir.rs`.
-/
namespace Tic.Core

/-- Names are numeric ids (`ir.rs:3-6`). -/
abbrev Name := Nat
/-- Type variables (`ir.rs:36`). -/
abbrev TyVar := Nat

/-- Types, `ir.rs:38-47`. -/
inductive Ty
  | bool
  | int
  | string
  | var (v : TyVar)
  | named (n : Name) (args : List Ty)
  | fn (params : List Ty) (out : Ty)
  | abs (v : TyVar) (t : Ty)
deriving Inhabited

/-- Operators, `ir.rs:56-69`. -/
inductive Op
  | add | subtract | multiply | divide | modulo
  | less | lessEq | greater | greaterEq | equal | notEqual
deriving DecidableEq, Repr

/-- Intrinsics, `ir.rs:71-79`. -/
inductive Intrinsic
  | stringLen | stringConcat | stringCharAt | stringSubstring | stringFromChar | intToString
deriving DecidableEq, Repr

mutual
/-- Expressions, `ir.rs:8-26`.  `lam` takes its parameters as names paired with types
(`LambdaParam`, `ir.rs:28-32`). -/
inductive Expr
  | bool (b : Bool)
  | int (i : UInt64)
  | str (s : List UInt8)
  | name (n : Name)
  | call (f : Expr) (args : List Expr)
  | ite (c t e : Expr)
  | op (a : Expr) (o : Op) (b : Expr)
  | intr (i : Intrinsic) (args : List Expr)
  | lam (params : List (Name × Ty)) (body : Expr)
  | mtch (e : Expr) (bs : List Branch)
  | con (ctor : Name) (tys : List Ty) (fields : List Expr)
  | let_ (n : Name) (v e : Expr)
  | letrec (n : Name) (ty : Ty) (v e : Expr)
  | pi (v : TyVar) (e : Expr)
  | piApp (e : Expr) (t : Ty)
  | trap (msg : String) (t : Ty)
/-- Match branches, `ir.rs:49-54`. -/
inductive Branch
  | mk (ctor : Name) (binds : List Name) (body : Expr)
end

instance : Inhabited Expr := ⟨.bool false⟩
instance : Inhabited Branch := ⟨.mk 0 [] default⟩

/-- `Branch::ctor`. -/
def Branch.ctor : Branch → Name | .mk c _ _ => c
/-- `Branch::bindings`. -/
def Branch.binds : Branch → List Name | .mk _ b _ => b
/-- `Branch::value`. -/
def Branch.body : Branch → Expr | .mk _ _ e => e

/-- Value definitions, `ir.rs:94-100`. -/
structure ValueDef where
  name : Name
  exportName : Option String
  ty : Ty
  value : Expr

/-- Constructor declarations, `ir.rs:88-92`. -/
structure TyCase where
  name : Name
  fields : List Ty

/-- Type definitions, `ir.rs:81-86`. -/
structure TyDef where
  name : Name
  vars : List TyVar
  cases : List TyCase

/-- Programs, `ir.rs:102-108` (the name and type generators are modelled separately, in `Names`). -/
structure Program where
  types : List TyDef
  defs : List ValueDef

end Tic.Core
