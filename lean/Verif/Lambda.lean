import Verif.Treewalk
/-
The closure-compiling evaluator, `ticc-eval/src/lambda.rs`.

The Rust code turns an expression into a `Box<dyn Fn(&mut CompactEnv) -> Result<Value, Trap>>`.  Here
the boxed closures are data (`LCode`, one constructor per `Box::new(move |env| ..)`) and `run` is what
calling them does.  Simplifications: the specialised closures for 0-3 call arguments and 0-4
constructor fields (`lambda.rs:165-207,429-479`) are the general one, which evaluates the same things
in the same order; `run` has a bound on the depth of calls, and `LCode.skip` stands for a `Pi`
or `PiApply` node, for which Rust makes no closure, so that the bounds of both evaluators agree.
Iterating over a `HashSet` visits its elements in an arbitrary order, given by the parameter `ord`.
-/
namespace Tic.Core

mutual
/-- `Value<Function>`; a function is the Rust closure made at `lambda.rs:372-389` (`clo`) or
`:532-553` (`rclo`, which passes itself to its body): captured values and compiled body.  Nothing in it
knows the number of parameters. -/
inductive LVal
  | int (x : UInt64)
  | bool (b : Bool)
  | str (s : List UInt8)
  | comp (tag : Name) (fields : List LVal)
  | clo (caps : List LVal) (body : LCode)
  | rclo (caps : List LVal) (body : LCode)
/-- Compiled expressions. -/
inductive LCode
  | const (v : LVal)
  | slot (i : Nat)
  | call (f : LCode) (args : List LCode)
  | ite (c t e : LCode)
  | op (a : LCode) (o : Op) (b : LCode)
  | intr (i : Intrinsic) (args : List LCode)
  | lam (caps : List Nat) (body : LCode)
  | mtch (d : LCode) (bs : List (Name × LCode))
  | con (tag : Name) (fields : List LCode)
  | let_ (v e : LCode)
  | letrec (caps : List Nat) (body e : LCode)
  | skip (e : LCode)
  | trap (msg : String)
end

instance : Inhabited LVal := ⟨.int 0⟩

/-- `CompactEnv`, `lambda.rs:38-66`. -/
structure CEnv where
  names : List LVal := []
  frameStart : Nat := 0

/-- Code that runs on a `CompactEnv`. -/
abbrev LM (α : Type) := CEnv → Res α × CEnv

/-- `let a = m(env)?; f(a)` -/
def LM.bind {α β : Type} (m : LM α) (f : α → LM β) : LM β := fun s =>
  match m s with
  | (.ok a, s) => f a s
  | (.trap t, s) => (.trap t, s)
  | (.panic, s) => (.panic, s)
  | (.timeout, s) => (.timeout, s)

/-- A result that does not touch the environment. -/
def LM.lift {α : Type} (r : Res α) : LM α := fun s => (r, s)

/-- `lookup`, `lambda.rs:55-57`; out of range panics. -/
def CEnv.lookup (s : CEnv) (i : Nat) : Res LVal :=
  match s.names[s.frameStart + i]? with
  | some v => .ok v
  | none => .panic

/-- `add`, `lambda.rs:59-61`. -/
def CEnv.add (s : CEnv) (v : LVal) : CEnv := { s with names := s.names ++ [v] }
/-- `remove`, `lambda.rs:63-65`. -/
def CEnv.remove (s : CEnv) : CEnv := { s with names := s.names.dropLast }
/-- `for v in vs { env.add(v) }` -/
def CEnv.addAll (s : CEnv) (vs : List LVal) : CEnv := vs.foldl CEnv.add s
/-- `for _ in vs { env.remove() }` -/
def CEnv.removeAll (s : CEnv) (vs : List LVal) : CEnv := vs.foldl (fun s _ => s.remove) s

/-- Running `m` with some values on top, which are removed afterwards whatever the result. -/
def withVals (vs : List LVal) (m : LM LVal) : LM LVal := fun s =>
  let r := m (s.addAll vs)
  (r.1, r.2.removeAll vs)

/-- A new frame around `m`: `open_frame`, `pop_frame`, `lambda.rs:45-53`. -/
def inFrame (m : LM LVal) : LM LVal := fun s =>
  let r := m { s with frameStart := s.names.length }
  (r.1, { r.2 with frameStart := s.frameStart })

/-- `into_int`, `lib.rs:42-48`. -/
def LVal.intoInt : LVal → Res UInt64 | .int x => .ok x | _ => .panic
/-- `into_bool`, `lib.rs:50-56`. -/
def LVal.intoBool : LVal → Res Bool | .bool x => .ok x | _ => .panic
/-- `into_string`, `lib.rs:58-64`. -/
def LVal.intoStr : LVal → Res (List UInt8) | .str x => .ok x | _ => .panic
/-- `into_composite`, `lib.rs:66-72`. -/
def LVal.intoComp : LVal → Res (Name × List LVal) | .comp t fs => .ok (t, fs) | _ => .panic
/-- `into_fn`, `lib.rs:74-80`. -/
def LVal.isFn : LVal → Bool
  | .clo .. => true
  | .rclo .. => true
  | _ => false

/-- Operators, `lambda.rs:222-281`. -/
def lop (o : Op) (a b : UInt64) : LVal :=
  match o with
  | .add => .int (a + b)
  | .subtract => .int (a - b)
  | .multiply => .int (a * b)
  | .divide => .int (if b = 0 then 0 else a / b)
  | .modulo => .int (if b = 0 then a else a % b)
  | .less => .bool (decide (a < b))
  | .lessEq => .bool (decide (a ≤ b))
  | .greater => .bool (decide (b < a))
  | .greaterEq => .bool (decide (b ≤ a))
  | .equal => .bool (decide (a = b))
  | .notEqual => .bool (!decide (a = b))

/-- Intrinsics, `lambda.rs:283-341`: the arguments have been checked to exist when compiling. -/
def runIntr (ev : LCode → LM LVal) (i : Intrinsic) (xs : List LCode) : LM LVal :=
  match i, xs with
  | .stringLen, [x] =>
    (ev x).bind fun v => (LM.lift v.intoStr).bind fun s => LM.lift (.ok (.int (strLen s)))
  | .stringConcat, [x, y] =>
    (ev x).bind fun v => (LM.lift v.intoStr).bind fun s1 =>
      (ev y).bind fun v => (LM.lift v.intoStr).bind fun s2 => LM.lift (.ok (.str (s1 ++ s2)))
  | .stringCharAt, [x, y] =>
    (ev x).bind fun v => (LM.lift v.intoInt).bind fun idx =>
      (ev y).bind fun v => (LM.lift v.intoStr).bind fun s => LM.lift (.ok (.int (strCharAt idx s)))
  | .stringSubstring, [x, y, z] =>
    (ev x).bind fun v => (LM.lift v.intoInt).bind fun start =>
      (ev y).bind fun v => (LM.lift v.intoInt).bind fun len =>
        (ev z).bind fun v => (LM.lift v.intoStr).bind fun s =>
          LM.lift (.ok (.str (strSubstring start len s)))
  | .stringFromChar, [x] =>
    (ev x).bind fun v => (LM.lift v.intoInt).bind fun c => LM.lift (.ok (.str (strFromChar c)))
  | .intToString, [x] =>
    (ev x).bind fun v => (LM.lift v.intoInt).bind fun i => LM.lift (.ok (.str (intToStr i)))
  | _, _ => LM.lift .panic

/-- Evaluating compiled expressions left to right (`lambda.rs:199-204,473-477`). -/
def runList (ev : LCode → LM LVal) : List LCode → LM (List LVal)
  | [] => LM.lift (.ok [])
  | c :: cs => (ev c).bind fun v => (runList ev cs).bind fun vs => LM.lift (.ok (v :: vs))

/-- `captures.iter().map(|n| env.lookup(*n))`, `lambda.rs:366-370`. -/
def capture (s : CEnv) : List Nat → Res (List LVal)
  | [] => .ok []
  | i :: is => (s.lookup i).bind fun v => (capture s is).bind fun vs => .ok (v :: vs)

/-- Calling a function value (`lambda.rs:372-389,532-553`). -/
def callFn (ev : LCode → LM LVal) (f : LVal) (args : List LVal) : LM LVal :=
  match f with
  | .clo caps body => inFrame (withVals caps (withVals args (ev body)))
  | .rclo caps body =>
    inFrame (withVals caps (withVals args (withVals [.rclo caps body] (ev body))))
  | _ => LM.lift .panic

/-- The first branch for a constructor (`lambda.rs:408-424`). -/
def findCode (c : Name) : List (Name × LCode) → Option LCode
  | [] => none
  | (d, code) :: bs => if d = c then some code else findCode c bs

/-- Calling a compiled expression, with a bound on the depth. -/
def run : Nat → LCode → LM LVal
  | 0, _ => LM.lift .timeout
  | n + 1, code =>
    match code with
    | .const v => LM.lift (.ok v)
    | .slot i => fun s => (s.lookup i, s)
    | .call f args =>
      (run n f).bind fun fv =>
        if fv.isFn then (runList (run n) args).bind fun vs => callFn (run n) fv vs
        else LM.lift .panic
    | .ite c t e =>
      (run n c).bind fun v => (LM.lift v.intoBool).bind fun b => if b then run n t else run n e
    | .op a o b =>
      (run n a).bind fun v => (LM.lift v.intoInt).bind fun a =>
        (run n b).bind fun v => (LM.lift v.intoInt).bind fun b => LM.lift (.ok (lop o a b))
    | .intr i xs => runIntr (run n) i xs
    | .lam caps body => fun s =>
      ((capture s caps).bind fun vs => .ok (.clo vs body), s)
    | .mtch d bs =>
      (run n d).bind fun v => (LM.lift v.intoComp).bind fun cf =>
        match findCode cf.1 bs with
        | some code => withVals cf.2 (run n code)
        | none => LM.lift .panic
    | .con c fields =>
      (runList (run n) fields).bind fun vs =>
        if vs.length ≤ maxFields then LM.lift (.ok (.comp c vs)) else LM.lift .panic
    | .let_ v e => (run n v).bind fun v => withVals [v] (run n e)
    | .letrec caps body e => LM.bind (fun s => (capture s caps, s)) fun vs =>
        withVals [.rclo vs body] (run n e)
    | .skip e => run n e
    | .trap m => LM.lift (.trap m)

/-! ## Compiling -/

/-- `EnvResolver` without `known_values`, `lambda.rs:73-77`. -/
structure Resolver where
  names : List (Name × Nat) := []
  stack : List Name := []

/-- `HashMap::get` -/
def assoc {α : Type} (x : Name) : List (Name × α) → Option α
  | [] => none
  | (y, a) :: r => if y = x then some a else assoc x r

/-- `add`, `lambda.rs:108-111`. -/
def Resolver.add (r : Resolver) (x : Name) : Resolver :=
  ⟨(x, r.stack.length) :: r.names.filter (fun p => p.1 ≠ x), r.stack ++ [x]⟩

/-- `remove`, `lambda.rs:113-116`; `none` is the failing assertion. -/
def Resolver.remove (r : Resolver) (x : Name) : Option Resolver :=
  if r.stack.getLast? = some x then
    some ⟨r.names.filter (fun p => p.1 ≠ x), r.stack.dropLast⟩
  else none

/-- `for x in xs { env.add(x) }` -/
def Resolver.addAll (r : Resolver) (xs : List Name) : Resolver := xs.foldl Resolver.add r
/-- `for x in xs { env.remove(x) }` -/
def Resolver.removeAll (r : Resolver) : List Name → Option Resolver
  | [] => some r
  | x :: xs => (r.remove x).bind fun r => r.removeAll xs

mutual
/-- `free_names`, `lambda.rs:590-646`: `result` is a set, as a list without repetitions. -/
def freeNames : Expr → List Name → List Name
  | .bool _, acc => acc
  | .int _, acc => acc
  | .str _, acc => acc
  | .trap _ _, acc => acc
  | .name n, acc => if n ∈ acc then acc else acc ++ [n]
  | .call f xs, acc => freeNamesL xs (freeNames f acc)
  | .ite c t e, acc => freeNames e (freeNames t (freeNames c acc))
  | .op a _ b, acc => freeNames b (freeNames a acc)
  | .intr _ xs, acc => freeNamesL xs acc
  | .con _ _ xs, acc => freeNamesL xs acc
  | .lam ps b, acc => (freeNames b acc).filter (fun x => x ∉ ps.map (·.1))
  | .mtch d bs, acc => freeNamesB bs (freeNames d acc)
  | .let_ n v e, acc => (freeNames e (freeNames v acc)).filter (fun x => x ≠ n)
  | .letrec n _ v e, acc => (freeNames e (freeNames v acc)).filter (fun x => x ≠ n)
  | .pi _ e, acc => freeNames e acc
  | .piApp e _, acc => freeNames e acc
def freeNamesL : List Expr → List Name → List Name
  | [], acc => acc
  | e :: es, acc => freeNamesL es (freeNames e acc)
def freeNamesB : List Branch → List Name → List Name
  | [], acc => acc
  | .mk _ ns e :: bs, acc => freeNamesB bs ((freeNames e acc).filter (fun x => x ∉ ns))
end

/-- How many arguments an intrinsic indexes (`lambda.rs:283-341`). -/
def Intrinsic.arity : Intrinsic → Nat
  | .stringLen => 1
  | .stringConcat => 2
  | .stringCharAt => 2
  | .stringSubstring => 3
  | .stringFromChar => 1
  | .intToString => 1

/-- The loop over captured names (`lambda.rs:348-356,505-513`): names whose value is known are
skipped, the others are looked up in the resolver and added to the inner one. -/
def captureSlots (G : List (Name × LVal)) (r : Resolver) : List Name → Resolver → Option (List Nat × Resolver)
  | [], inner => some ([], inner)
  | c :: cs, inner =>
    match assoc c G with
    | some _ => captureSlots G r cs inner
    | none =>
      match assoc c r.names with
      | none => none
      | some i => (captureSlots G r cs (inner.add c)).map fun p => (i :: p.1, p.2)

section
variable (ord : Expr → List Name → List Name) (G : List (Name × LVal))

mutual
/-- `compile_expr`, `lambda.rs:143-576`; `none` is a panic.  The resolver is mutable in Rust, so it
is returned. -/
def compileL : Expr → Resolver → Option (LCode × Resolver)
  | .bool b, r => some (.const (.bool b), r)
  | .int i, r => some (.const (.int i), r)
  | .str s, r => some (.const (.str s), r)
  | .name x, r =>
    match assoc x G with
    | some v => some (.const v, r)
    | none => (assoc x r.names).map fun i => (.slot i, r)
  | .call f xs, r =>
    (compileL f r).bind fun f => (compileLs xs f.2).map fun xs => (.call f.1 xs.1, xs.2)
  | .ite c t e, r =>
    (compileL c r).bind fun c => (compileL t c.2).bind fun t =>
      (compileL e t.2).map fun e => (.ite c.1 t.1 e.1, e.2)
  | .op a o b, r =>
    (compileL a r).bind fun a => (compileL b a.2).map fun b => (.op a.1 o b.1, b.2)
  | .intr i xs, r => (compileLn i.arity xs r).map fun xs => (.intr i xs.1, xs.2)
  | .lam ps b, r =>
    (captureSlots G r (ord (.lam ps b) (freeNames (.lam ps b) [])) {}).bind fun ci =>
      (compileL b (ci.2.addAll (ps.map (·.1)))).bind fun b =>
        (b.2.removeAll (ps.map (·.1)).reverse).bind fun inner =>
          if inner.names.length = ci.1.length then some (.lam ci.1 b.1, r) else none
  | .mtch d bs, r =>
    (compileL d r).bind fun d => (compileLb bs d.2).map fun bs => (.mtch d.1 bs.1, bs.2)
  | .con c _ xs, r => (compileLs xs r).map fun xs => (.con c xs.1, xs.2)
  | .let_ n v e, r =>
    (compileL v r).bind fun v => (compileL e (v.2.add n)).bind fun e =>
      (e.2.remove n).map fun r => (.let_ v.1 e.1, r)
  | .letrec n _ v e, r =>
    (compileRec n v r).bind fun f =>
      (compileL e (r.add n)).bind fun e => (e.2.remove n).map fun r => (.letrec f.1 f.2 e.1, r)
  | .pi _ e, r => (compileL e r).map fun e => (.skip e.1, e.2)
  | .piApp e _, r => (compileL e r).map fun e => (.skip e.1, e.2)
  | .trap m _, r => some (.trap m, r)
/-- the value of a recursive definition: `strip_pis` and `lambda.rs:498-523` -/
def compileRec (n : Name) : Expr → Resolver → Option (List Nat × LCode)
  | .pi _ v, r => compileRec n v r
  | .lam ps b, r =>
    (captureSlots G r (ord (.lam ps b) ((freeNames (.lam ps b) []).filter (fun x => x ≠ n))) {}).bind
      fun ci => (compileL b ((ci.2.addAll (ps.map (·.1))).add n)).bind fun b =>
        (b.2.remove n).bind fun inner => (inner.removeAll (ps.map (·.1)).reverse).bind fun inner =>
          if inner.names.length = ci.1.length then some (ci.1, b.1) else none
  | _, _ => none
def compileLs : List Expr → Resolver → Option (List LCode × Resolver)
  | [], r => some ([], r)
  | e :: es, r => (compileL e r).bind fun c => (compileLs es c.2).map fun cs => (c.1 :: cs.1, cs.2)
/-- `compile_expr(&args[0], env)`, `compile_expr(&args[1], env)`, ... -/
def compileLn : Nat → List Expr → Resolver → Option (List LCode × Resolver)
  | 0, _, r => some ([], r)
  | _ + 1, [], _ => none
  | k + 1, e :: es, r =>
    (compileL e r).bind fun c => (compileLn k es c.2).map fun cs => (c.1 :: cs.1, cs.2)
/-- the branches of a match, `lambda.rs:394-407` -/
def compileLb : List Branch → Resolver → Option (List (Name × LCode) × Resolver)
  | [], r => some ([], r)
  | .mk c ns e :: bs, r =>
    (compileL e (r.addAll ns)).bind fun code => (code.2.removeAll ns.reverse).bind fun r =>
      (compileLb bs r).map fun bs => ((c, code.1) :: bs.1, bs.2)
end

end

/-- `eval_expr`, `lambda.rs:133-141`, with its two assertions. -/
def levalExpr (ord : Expr → List Name → List Name) (n : Nat) (G : List (Name × LVal)) (e : Expr) : Res LVal :=
  match compileL ord G e {} with
  | none => .panic
  | some (code, r) =>
    if r.stack.length = 0 then
      let res := run n code {}
      match res.1 with
      | .panic => .panic
      | .timeout => .timeout
      | _ => if res.2.names.length = 0 then res.1 else .panic
    else .panic

/-- the definitions, `lambda.rs:120-124`; inserting into a hash map shadows earlier entries -/
def levalDefs (ord : Expr → List Name → List Name) (n : Nat) :
    List ValueDef → List (Name × LVal) → Res (List (Name × LVal))
  | [], G => .ok G
  | d :: ds, G => (levalExpr ord n G d.value).bind fun v => levalDefs ord n ds ((d.name, v) :: G)

/-- the expressions asked for, `lambda.rs:125-130` -/
def levalList (ord : Expr → List Name → List Name) (n : Nat) (G : List (Name × LVal)) :
    List Expr → Res (List LVal)
  | [] => .ok []
  | e :: es => (levalExpr ord n G e).bind fun v => (levalList ord n G es).bind fun vs => .ok (v :: vs)

/-- `lambda::eval`, `lambda.rs:119-131`. -/
def levalProgram (ord : Expr → List Name → List Name) (n : Nat) (p : Program) (exprs : List Expr) :
    Res (List LVal) :=
  (levalDefs ord n p.defs []).bind fun G => levalList ord n G exprs

mutual
/-- Observation of a value, `Debug`, `lib.rs:22-39`. -/
def LVal.obs : LVal → Obs
  | .int x => .int x
  | .bool b => .bool b
  | .str s => .str s
  | .comp t fs => .comp t (lobsList fs)
  | .clo .. => .fn
  | .rclo .. => .fn
def lobsList : List LVal → List Obs
  | [] => []
  | v :: vs => v.obs :: lobsList vs
end

end Tic.Core
