import Verif.EvalLemmas
/-
The interpreter front end, `ticc/src/interpreter.rs`: which definition is run
as `main`, and what is printed for the exports.
-/
namespace Tic.Core

/-- `InterpretError`, `ticc/src/lib.rs`, without the trap case. -/
inductive MainErr
  | invalidMain
  | noMain
deriving DecidableEq, Repr

/-- The type pattern at `interpreter.rs:57-63`: one string parameter, string result. -/
def isMainTy : Ty → Bool
  | .fn [.string] .string => true
  | _ => false

/-- The loop at `interpreter.rs:55-67`, over the definitions in reverse order:
`main` is the last candidate stored; an exported `main` of another type ends it. -/
def mainLoop : List ValueDef → Option Name → Except MainErr (Option Name)
  | [], m => .ok m
  | d :: ds, m =>
    if d.exportName = some "main" then
      if isMainTy d.ty then mainLoop ds (some d.name) else .error .invalidMain
    else mainLoop ds m

/-- `interpreter.rs:53-71`: choosing the definition to run. -/
def selectMain (defs : List ValueDef) : Except MainErr Name :=
  match mainLoop defs.reverse none with
  | .error e => .error e
  | .ok (some n) => .ok n
  | .ok none => .error .noMain

/-- The expression that is run, `interpreter.rs:72-77`. -/
def mainExpr (main : Name) (input : List UInt8) : Expr := .call (.name main) [.str input]

/-- `do_eval_main`, `interpreter.rs:51-91`, with the tree-walking runner. -/
def evalMain (n : Nat) (p : Program) (input : List UInt8) : Except MainErr (Res (List UInt8)) :=
  match selectMain p.defs with
  | .error e => .error e
  | .ok main => .ok ((evalProgram n p [mainExpr main input]).bind fun vs =>
      match vs with
      | [v] => v.intoStr
      | _ => .panic)

/-- The exported definitions, in order (`interpreter.rs:19-26`). -/
def exportsOf (defs : List ValueDef) : List (String × Name) :=
  defs.filterMap fun d => d.exportName.map fun s => (s, d.name)

/-- The expressions evaluated for the exports, `interpreter.rs:24`. -/
def exportExprs (defs : List ValueDef) : List Expr := (exportsOf defs).map fun p => .name p.2

end Tic.Core
