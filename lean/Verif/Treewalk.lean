import Verif.Ir
import Verif.Names
/-
The tree-walking evaluator, `ticc-eval/src/treewalk.rs`, and run-time values,
`ticc-eval/src/lib.rs`, `ticc-eval/src/tagged.rs`.
-/
namespace Tic.Core

/-- Run-time values (`lib.rs:13-20`).  A function (`Fn`) is a closure: the
evaluator's `Rc<dyn Fn>` captures the environment, the parameters and the body
(`treewalk.rs:157-169,217-234`); `rclo` additionally knows its own name. -/
inductive Val
  | int (x : UInt64)
  | bool (b : Bool)
  | str (s : List UInt8)
  | comp (tag : Name) (fields : List Val)
  | clo (env : List (Name × Val)) (params : List Name) (body : Expr)
  | rclo (env : List (Name × Val)) (self : Name) (params : List Name) (body : Expr)
deriving Inhabited

/-- Environments: innermost binding first (`ExtendedEnv`, `treewalk.rs:33-61`;
`HashMap::insert` of the global environment also overrides, `treewalk.rs:20-22`). -/
abbrev Env := List (Name × Val)

/-- Outcome of running code for a bounded number of steps: a value, a trap, a
Rust panic, or not finished yet. -/
inductive Res (α : Type)
  | ok (a : α)
  | trap (msg : String)
  | panic
  | timeout
deriving Repr, DecidableEq

/-- Sequencing. -/
def Res.bind {α β : Type} : Res α → (α → Res β) → Res β
  | .ok a, f => f a
  | .trap m, _ => .trap m
  | .panic, _ => .panic
  | .timeout, _ => .timeout

/-- `lookup`, `treewalk.rs:44-53`; an unbound name panics. -/
def lookup (n : Name) : Env → Res Val
  | [] => .panic
  | (k, v) :: ρ => if k = n then .ok v else lookup n ρ

/-- `into_int`, `lib.rs:42-48`. -/
def Val.intoInt : Val → Res UInt64 | .int x => .ok x | _ => .panic
/-- `into_bool`, `lib.rs:50-56`. -/
def Val.intoBool : Val → Res Bool | .bool x => .ok x | _ => .panic
/-- `into_string`, `lib.rs:58-64`. -/
def Val.intoStr : Val → Res (List UInt8) | .str x => .ok x | _ => .panic
/-- `into_composite`, `lib.rs:66-72`. -/
def Val.intoComp : Val → Res (Name × List Val) | .comp t fs => .ok (t, fs) | _ => .panic

/-- Adding parameters one by one (`treewalk.rs:163-165,183-185`): the last one is innermost. -/
def bindAll (ρ : Env) : List Name → List Val → Env
  | n :: ns, v :: vs => bindAll ((n, v) :: ρ) ns vs
  | _, _ => ρ

/-- Binary operators on integers, `treewalk.rs:140-153`. -/
def evalOp (o : Op) (a b : UInt64) : Val :=
  match o with
  | .add => .int (a + b)
  | .subtract => .int (a - b)
  | .multiply => .int (a * b)
  | .divide => .int (if b = 0 then 0 else a / b)
  | .modulo => .int (if b = 0 then a else a % b)
  | .less => .bool (decide (a < b))
  | .lessEq => .bool (decide (a ≤ b))
  | .greater => .bool (decide (b < a))
  | .greaterEq => .bool (decide (b ≤ a))
  | .equal => .bool (decide (a = b))
  | .notEqual => .bool (!decide (a = b))

/-- `StringLen`, `treewalk.rs:101-104`. -/
def strLen (s : List UInt8) : UInt64 := UInt64.ofNat s.length
/-- `StringCharAt`, `treewalk.rs:113-118`. -/
def strCharAt (i : UInt64) (s : List UInt8) : UInt64 := UInt64.ofNat ((s[i.toNat]?).getD 0).toNat
/-- `StringSubstring`, `treewalk.rs:119-126`: `get(start..)` fails iff `start > len`,
`get(..len)` fails iff `len` is too long. -/
def strSubstring (start len : UInt64) (s : List UInt8) : List UInt8 :=
  let s := if start.toNat ≤ s.length then s.drop start.toNat else []
  if len.toNat ≤ s.length then s.take len.toNat else s
/-- `StringFromChar`, `treewalk.rs:127-130`: `as u8` truncates. -/
def strFromChar (c : UInt64) : List UInt8 := [UInt8.ofNat c.toNat]
/-- `IntToString`, `treewalk.rs:131-134`: the decimal digits. -/
def intToStr (i : UInt64) : List UInt8 := (Names.decimal i.toNat).map fun c => UInt8.ofNat c.toNat

/-- Intrinsics evaluate and convert their arguments one at a time
(`treewalk.rs:98-135`); indexing a missing argument panics, surplus arguments
are ignored. -/
def evalIntr (ev : Expr → Res Val) (i : Intrinsic) (xs : List Expr) : Res Val :=
  match i, xs with
  | .stringLen, x :: _ =>
    (ev x).bind fun v => v.intoStr.bind fun s => .ok (.int (strLen s))
  | .stringConcat, x :: xs =>
    (ev x).bind fun v => v.intoStr.bind fun s1 => match xs with
      | y :: _ => (ev y).bind fun v => v.intoStr.bind fun s2 => .ok (.str (s1 ++ s2))
      | [] => .panic
  | .stringCharAt, x :: xs =>
    (ev x).bind fun v => v.intoInt.bind fun idx => match xs with
      | y :: _ => (ev y).bind fun v => v.intoStr.bind fun s => .ok (.int (strCharAt idx s))
      | [] => .panic
  | .stringSubstring, x :: xs =>
    (ev x).bind fun v => v.intoInt.bind fun start => match xs with
      | y :: xs => (ev y).bind fun v => v.intoInt.bind fun len => match xs with
        | z :: _ => (ev z).bind fun v => v.intoStr.bind fun s => .ok (.str (strSubstring start len s))
        | [] => .panic
      | [] => .panic
  | .stringFromChar, x :: _ =>
    (ev x).bind fun v => v.intoInt.bind fun c => .ok (.str (strFromChar c))
  | .intToString, x :: _ =>
    (ev x).bind fun v => v.intoInt.bind fun i => .ok (.str (intToStr i))
  | _, [] => .panic

/-- Evaluating a list of expressions left to right (`treewalk.rs:88-90,192-195`). -/
def evalList (ev : Expr → Res Val) : List Expr → Res (List Val)
  | [] => .ok []
  | e :: es => (ev e).bind fun v => (evalList ev es).bind fun vs => .ok (v :: vs)

/-- `strip_pis`, `treewalk.rs:236-242`. -/
def stripPis : Expr → Expr
  | .pi _ e => stripPis e
  | e => e

/-- The first branch with the given constructor (`treewalk.rs:178-187`). -/
def findBranch (c : Name) : List Branch → Option Branch
  | [] => none
  | b :: bs => if b.ctor = c then some b else findBranch c bs

/-- Largest supported number of constructor fields, `tagged.rs:25-40`. -/
def maxFields : Nat := 9

/-- Applying a function value (`treewalk.rs:91,161-167,223-232`). -/
def applyFn (ev : Env → Expr → Res Val) (f : Val) (args : List Val) : Res Val :=
  match f with
  | .clo ρ ps b => if ps.length = args.length then ev (bindAll ρ ps args) b else .panic
  | .rclo ρ self ps b =>
    if ps.length = args.length then ev ((self, .rclo ρ self ps b) :: bindAll ρ ps args) b else .panic
  | _ => .panic

/-- Is the value a function? `into_fn`, `lib.rs:74-80`. -/
def Val.isFn : Val → Bool
  | .clo .. => true
  | .rclo .. => true
  | _ => false

/-- The parameters and body of a recursive definition, which must be a function
(`treewalk.rs:204-213`). -/
def recLam (v : Expr) : Option (List Name × Expr) :=
  match stripPis v with
  | .lam ps b => some (ps.map (·.1), b)
  | _ => none

/-- Continuing with the branch for constructor `c` (`treewalk.rs:174-189`). -/
def runBranch (ev : Env → Expr → Res Val) (ρ : Env) (bs : List Branch) (c : Name) (fs : List Val) : Res Val :=
  match findBranch c bs with
  | some br => if br.binds.length = fs.length then ev (bindAll ρ br.binds fs) br.body else .panic
  | none => .panic

/-- `eval_impl`, `treewalk.rs:81-215`, with a bound on the recursion depth. -/
def eval : Nat → Env → Expr → Res Val
  | 0, _, _ => .timeout
  | n + 1, ρ, e =>
    match e with
    | .bool b => .ok (.bool b)
    | .int i => .ok (.int i)
    | .str s => .ok (.str s)
    | .name x => lookup x ρ
    | .call f args =>
      (eval n ρ f).bind fun fv =>
        if fv.isFn then
          (evalList (eval n ρ) args).bind fun vs => applyFn (eval n) fv vs
        else .panic
    | .ite c t e =>
      (eval n ρ c).bind fun v => v.intoBool.bind fun b => if b then eval n ρ t else eval n ρ e
    | .op a o b =>
      (eval n ρ a).bind fun v => v.intoInt.bind fun a =>
        (eval n ρ b).bind fun v => v.intoInt.bind fun b => .ok (evalOp o a b)
    | .intr i xs => evalIntr (eval n ρ) i xs
    | .lam ps b => .ok (.clo ρ (ps.map (·.1)) b)
    | .mtch e bs =>
      (eval n ρ e).bind fun v => v.intoComp.bind fun cf => runBranch (eval n) ρ bs cf.1 cf.2
    | .con c _ fields =>
      (evalList (eval n ρ) fields).bind fun vs =>
        if vs.length ≤ maxFields then .ok (.comp c vs) else .panic
    | .let_ x v e => (eval n ρ v).bind fun v => eval n ((x, v) :: ρ) e
    | .letrec x _ v e =>
      match recLam v with
      | some (ps, b) => eval n ((x, .rclo ρ x ps b) :: ρ) e
      | none => .panic
    | .pi _ e => eval n ρ e
    | .piApp e _ => eval n ρ e
    | .trap m _ => .trap m

/-- The definitions of a program, in order (`treewalk.rs:63-69`). -/
def evalDefs (n : Nat) : List ValueDef → Env → Res Env
  | [], ρ => .ok ρ
  | d :: ds, ρ => (eval n ρ d.value).bind fun v => evalDefs n ds ((d.name, v) :: ρ)

/-- `treewalk::eval`, `treewalk.rs:63-76`. -/
def evalProgram (n : Nat) (p : Program) (exprs : List Expr) : Res (List Val) :=
  (evalDefs n p.defs []).bind fun ρ => evalList (eval n ρ) exprs

/-- What can be observed of a result value: closures are opaque (`Debug`, `lib.rs:22-39`). -/
inductive Obs
  | int (x : UInt64)
  | bool (b : Bool)
  | str (s : List UInt8)
  | comp (tag : Name) (fields : List Obs)
  | fn

mutual
/-- Observation of a value. -/
def Val.obs : Val → Obs
  | .int x => .int x
  | .bool b => .bool b
  | .str s => .str s
  | .comp t fs => .comp t (obsList fs)
  | .clo .. => .fn
  | .rclo .. => .fn
/-- Observation of a list of values. -/
def obsList : List Val → List Obs
  | [] => []
  | v :: vs => v.obs :: obsList vs
end

end Tic.Core
