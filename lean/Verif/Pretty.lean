import Verif.Ir
import Verif.Names
import Verif.Format
/-!
# The listing of a core program: `/repo/ticc-core/src/pretty.rs`

Every `Format` method is the list of calls it makes on the `FormatBuilder`; `none` is a panic (a name
that is not in the program's table).  `quote` stands for Rust's `{:?}` of a string (export names and
trap messages).
-/
namespace Tic.Pretty
open Tic.Core Tic.Format

/-- `/repo/ticc-core/src/pretty.rs:21-29` `Prec`, in order (`PartialOrd` of the declaration). -/
inductive Prec
  | min | compare | apply | add | multiply | atom
deriving DecidableEq, Repr

/-- The derived `PartialOrd`, `/repo/ticc-core/src/pretty.rs:21`. -/
def Prec.rank : Prec → Nat
  | .min => 0 | .compare => 1 | .apply => 2 | .add => 3 | .multiply => 4 | .atom => 5

/-- `/repo/ticc-core/src/pretty.rs:32-42` `Prec::next`. -/
def Prec.next : Prec → Prec
  | .min => .compare
  | .compare => .apply
  | .apply => .add
  | .add => .multiply
  | .multiply | .atom => .atom

/-- What the printer is given besides the program: the name table (`NameGenerator::names`) and Rust's
`{:?}` on strings. -/
structure Ctx where
  names : List (List Char)
  quote : String → List Char

/-- `add_token` with fixed text. -/
def tk (s : String) : Call := .token s.toList .none
/-- `add_sticky_token` with fixed text. -/
def stk (s : String) (k : Sticky) : Call := .token s.toList k

/-- `/repo/ticc-core/src/pretty.rs:68-70` `write_name`, with `NameGenerator::show_debug`
(`ir.rs:147-152,180-189`): the original name, an underscore, the id. -/
def writeName (c : Ctx) (n : Name) : Option (List Call) :=
  match c.names[n]? with
  | some s => some [.token (s ++ '_' :: Names.decimal n) .none]
  | none => none

/-- `/repo/ticc-core/src/pretty.rs:72-75` `write_ctor`. -/
def writeCtor (c : Ctx) (n : Name) : Option (List Call) := do
  let w ← writeName c n
  pure (stk "@" .next :: w)

/-- `/repo/ticc-core/src/pretty.rs:79-85` `glue_number`. -/
def glueNumber (x : Nat) : List Call :=
  (if 10 ≤ x then glueNumber (x / 10) else []) ++ [.token [Char.ofNat (48 + x % 10)] .prev]
termination_by x

/-- `/repo/ticc-core/src/pretty.rs:77-87` `write_number`. -/
def writeNumber (x : Nat) : List Call := tk "" :: glueNumber x

/-- `/repo/ticc-core/src/pretty.rs:428-438` `ty_prec`. -/
def tyPrec : Ty → Prec
  | .bool | .int | .string | .var _ => .atom
  | .named _ _ | .fn _ _ | .abs _ _ => .apply

/-- The opening and closing bracket around something of precedence `own` where `want` is called for;
`/repo/ticc-core/src/pretty.rs:99-101,282-284,298-300,343-345`. -/
def bracket (own want : Prec) (inner : List Call) : List Call :=
  (if own.rank < want.rank then [stk "(" .next] else []) ++ inner ++
    (if own.rank < want.rank then [stk ")" .prev] else [])

mutual
/-- `/repo/ticc-core/src/pretty.rs:296-346` `write_ty`. -/
def writeTy (c : Ctx) (want : Prec) : Ty → Option (List Call)
  | .bool => some (bracket .atom want [tk "bool"])
  | .int => some (bracket .atom want [tk "int"])
  | .string => some (bracket .atom want [tk "string"])
  | .var v => some (bracket .atom want (stk "t" .next :: writeNumber v))
  | .named n args => do
    let w ← writeName c n
    let ws ← writeTyArgs c args
    pure (bracket .apply want (w ++ ws))
  | .fn ps out => do
    let ws ← writeTyList c true ps
    let w ← writeTy c .min out
    pure (bracket .apply want (stk "(" .next :: ws ++ [stk ")" .prev, tk "->"] ++ w))
  | .abs v t => do
    let w ← writeTy c .min t
    pure (bracket .apply want (tk "for" :: (stk "t" .next :: writeNumber v) ++ tk "." :: w))
/-- The arguments of a named type, `/repo/ticc-core/src/pretty.rs:316-318`. -/
def writeTyArgs (c : Ctx) : List Ty → Option (List Call)
  | [] => some []
  | t :: ts => do
    let w ← writeTy c .atom t
    let ws ← writeTyArgs c ts
    pure (w ++ ws)
/-- Types separated by commas, `/repo/ticc-core/src/pretty.rs:214-224,322-331`; `first` tells that no
comma goes before the next one. -/
def writeTyList (c : Ctx) (first : Bool) : List Ty → Option (List Call)
  | [] => some []
  | t :: ts => do
    let w ← writeTy c .min t
    let ws ← writeTyList c false ts
    pure ((if first then [] else [stk "," .prev]) ++ w ++ ws)
end

/-- `/repo/ticc-core/src/pretty.rs:290-294` `write_lambda_param`. -/
def writeParam (c : Ctx) (p : Name × Ty) : Option (List Call) := do
  let w ← writeName c p.1
  let t ← writeTy c .min p.2
  pure (w ++ tk ":" :: t)

/-- The parameters of a function, `/repo/ticc-core/src/pretty.rs:176-184`. -/
def writeParams (c : Ctx) (first : Bool) : List (Name × Ty) → Option (List Call)
  | [] => some []
  | p :: ps => do
    let w ← writeParam c p
    let ws ← writeParams c false ps
    pure ((if first then [] else [stk "," .prev]) ++ w ++ ws)

/-- `/repo/ticc-core/src/pretty.rs:125-132`. -/
def intrName : Intrinsic → String
  | .stringLen => "%stringLen"
  | .stringConcat => "%stringConcat"
  | .stringCharAt => "%stringCharAt"
  | .stringSubstring => "%stringSubstring"
  | .stringFromChar => "%stringFromChar"
  | .intToString => "%intToString"

/-- `/repo/ticc-core/src/pretty.rs:159-171`; `Modulo` is written as `*` there. -/
def opName : Op → String
  | .add => "+" | .subtract => "-" | .multiply => "*" | .divide => "/" | .modulo => "*"
  | .less => "<" | .lessEq => "<=" | .greater => ">" | .greaterEq => ">=" | .equal => "=="
  | .notEqual => "!="

/-- `/repo/ticc-core/src/pretty.rs:350-379` `expr_prec`, for operators. -/
def opPrec : Op → Prec
  | .add | .subtract => .add
  | .multiply | .divide | .modulo => .multiply
  | _ => .compare

/-- `/repo/ticc-core/src/pretty.rs:350-379` `expr_prec`. -/
def exprPrec : Expr → Prec
  | .bool _ | .int _ | .str _ | .name _ | .call _ _ | .intr _ _ | .con _ _ _ => .atom
  | .op _ o _ => opPrec o
  | .ite _ _ _ | .lam _ _ | .mtch _ _ | .let_ _ _ _ | .letrec _ _ _ _ => .min
  | .trap _ _ => .atom
  | .pi _ _ => .min
  | .piApp _ _ => .atom

/-- `/repo/ticc-core/src/pretty.rs:407-426` `is_atom`. -/
def isAtom : Expr → Bool
  | .bool _ | .int _ | .str _ | .name _ | .call _ _ | .intr _ _ | .trap _ _ | .piApp _ _ => true
  | _ => false

/-- `/repo/ticc-core/src/pretty.rs:381-405` `expr_node`: `large`, `indents`. -/
def exprNode : Expr → Bool × Bool
  | .mtch _ _ | .let_ _ _ _ | .letrec _ _ _ _ => (true, false)
  | .ite _ t e => (!isAtom t || !isAtom e, true)
  | _ => (false, true)

/-- `/repo/ticc-core/src/pretty.rs:96-98`. -/
def isLet : Expr → Bool
  | .let_ _ _ _ | .letrec _ _ _ _ => true
  | _ => false

def isLam : Expr → Bool
  | .lam _ _ => true
  | _ => false

/-- What `write_expr` puts around an expression's own text: the node, the line break before a `let`, the
brackets; `/repo/ticc-core/src/pretty.rs:94-101,282-285`. -/
def around (e : Expr) (want : Prec) (inner : List Call) : List Call :=
  .start (exprNode e).1 (exprNode e).2 :: (if isLet e then [.newline] else []) ++
    bracket (exprPrec e) want inner ++ [.finish]

mutual
/-- `/repo/ticc-core/src/pretty.rs:93-288` `write_expr`. -/
def writeExpr (c : Ctx) (want : Prec) : Expr → Option (List Call)
  | .bool b => some (around (.bool b) want [tk (if b then "true" else "false")])
  | .int i => some (around (.int i) want (writeNumber i.toNat))
  | .str s => some (around (.str s) want [.token (Names.showBytes s) .none])
  | .name n => (writeName c n).map (around (.name n) want)
  | .call f args => do
    let w ← writeExpr c .apply f
    let ws ← writeExprs c true args
    pure (around (.call f args) want (w ++ stk "(" .both :: ws ++ [stk ")" .prev]))
  | .intr i args => do
    let ws ← writeExprs c true args
    pure (around (.intr i args) want (tk (intrName i) :: stk "(" .both :: ws ++ [stk ")" .prev]))
  | .ite a b d => do
    let wa ← writeExpr c .apply a
    let wb ← writeExpr c .min b
    let wd ← writeExpr c .min d
    pure (around (.ite a b d) want (tk "if" :: wa ++ tk "then" :: .largeNewline :: wb ++
      .largeNewline :: tk "else" :: .largeNewline :: wd))
  | .op a o b => do
    let wa ← writeExpr c (opPrec o).next a
    let wb ← writeExpr c (opPrec o).next b
    pure (around (.op a o b) want (wa ++ tk (opName o) :: wb))
  | .lam ps e => do
    let ws ← writeParams c true ps
    let w ← writeExpr c .min e
    pure (around (.lam ps e) want (stk "\\(" .next :: ws ++ stk ")" .prev :: tk "->" ::
      (if isLam e then [] else [.largeNewline]) ++ w))
  | .mtch d bs => do
    let w ← writeExpr c .apply d
    let ws ← writeBranches c bs
    pure (around (.mtch d bs) want (tk "match" :: w ++ tk "with" :: ws ++ [.newline, tk "end"]))
  | .con n tys xs => do
    let w ← writeCtor c n
    let wt ← writeTyList c true tys
    let ws ← writeExprs c true xs
    pure (around (.con n tys xs) want (w ++
      (if tys.isEmpty then [] else stk "[" .both :: wt ++ [stk "]" .prev]) ++
      stk "(" .both :: ws ++ [stk ")" .prev]))
  | .let_ x v e => do
    let w ← writeName c x
    let wv ← writeExpr c .min v
    let we ← writeExpr c .min e
    pure (around (.let_ x v e) want (tk "let" :: w ++ .start false true :: tk "=" :: wv ++
      stk ";" .prev :: .finish :: .newline :: we))
  | .letrec x ty v e => do
    let w ← writeName c x
    let wt ← writeTy c .min ty
    let wv ← writeExpr c .min v
    let we ← writeExpr c .min e
    pure (around (.letrec x ty v e) want (tk "let" :: tk "rec" :: w ++ tk ":" :: wt ++
      .start false true :: tk "=" :: wv ++ stk ";" .prev :: .finish :: .newline :: we))
  | .trap m t => do
    let w ← writeTy c .min t
    pure (around (.trap m t) want (stk "#trap(" .next :: .token (c.quote m) .none :: stk "," .prev ::
      w ++ [stk ")" .prev]))
  | .pi v e => do
    let w ← writeExpr c .min e
    pure (around (.pi v e) want (tk "Pi" :: (stk "t" .next :: writeNumber v) ++ tk "->" :: w))
  | .piApp e t => do
    let w ← writeExpr c .apply e
    let wt ← writeTy c .min t
    pure (around (.piApp e t) want (w ++ stk "[" .both :: wt ++ [stk "]" .prev]))
/-- Expressions separated by commas, `/repo/ticc-core/src/pretty.rs:112-121,134-143,227-236`. -/
def writeExprs (c : Ctx) (first : Bool) : List Expr → Option (List Call)
  | [] => some []
  | e :: es => do
    let w ← writeExpr c .min e
    let ws ← writeExprs c false es
    pure ((if first then [] else [stk "," .prev]) ++ w ++ ws)
/-- The branches of a match, `/repo/ticc-core/src/pretty.rs:197-208`. -/
def writeBranches (c : Ctx) : List Branch → Option (List Call)
  | [] => some []
  | .mk n xs e :: bs => do
    let w ← writeCtor c n
    let wx ← xs.mapM (writeName c)
    let we ← writeExpr c .min e
    let ws ← writeBranches c bs
    pure (.start false true :: .newline :: tk "|" :: w ++ wx.flatten ++ tk "->" :: we ++
      .finish :: ws)
end

/-- `/repo/ticc-core/src/pretty.rs:50-66` `write_def`. -/
def writeDef (c : Ctx) (d : ValueDef) : Option (List Call) := do
  let w ← writeName c d.name
  let wt ← writeTy c .min d.ty
  let we ← writeExpr c .min d.value
  pure (.start true true ::
    (match d.exportName with
      | some s => [stk "export(" .next, .token (c.quote s) .none, stk ")" .prev]
      | none => []) ++
    tk "let" :: w ++ tk ":" :: wt ++ tk "=" :: we ++ [stk ";" .prev, .newline, .finish])

/-- `/repo/ticc-core/src/pretty.rs:4-19` `pretty_print`'s loop. -/
def prettyDefs (c : Ctx) (result : List Char) : List ValueDef → Option (List Char)
  | [] => some result
  | d :: ds => do
    let w ← writeDef c d
    let t ← layout w
    prettyDefs c (result ++ (if result.isEmpty then [] else ['\n']) ++ t) ds

/-- `/repo/ticc-core/src/pretty.rs:4-19` `pretty_print`; `emit_ir` (`/repo/ticc/src/codegen.rs:22-26`)
returns this for the emitted program. -/
def pretty (c : Ctx) (p : Program) : Option (List Char) := prettyDefs c [] p.defs

end Tic.Pretty
