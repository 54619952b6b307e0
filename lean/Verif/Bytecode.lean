import Verif.Lambda
/-
The bytecode compiler `ticc-eval/src/compile.rs`, the linker and the interpreter loop of
`ticc-eval/src/bytecode.rs`.

Here the interpreter works on *values as trees*: what a pointer on the VM stack leads to.  `HeapVm`
has the interpreter on real heap addresses.  Simplifications: `u32`/`usize` counters are natural
numbers, and a subtraction that would go below zero is a panic, as it is in a debug build.
-/
namespace Tic.Core

/-- `compile::Op`, `compile.rs:5-45`; labels (`compile.rs:47-48`) are numbers, the eleven operators are `arith`, the six intrinsics `intr`. -/
inductive BOp
  | pushInt (x : UInt64)
  | pushBool (b : Bool)
  | pushStr (s : List UInt8)
  | pick (depth : Nat)
  | set (depth : Nat)
  | popN (n : Nat)
  | swapPop
  | arith (o : Op)
  | jump (l : Nat)
  | jumpIfFalse (l : Nat)
  | ret (params captures : Nat)
  | call
  | enter (upvalues usage : Nat)
  | construct (ctor : Name) (fields : Nat)
  | closure (l : Nat) (fields : Nat)
  | branch (table : List (Name × Nat × Nat))
  | trap (msg : String)
  | intr (i : Intrinsic)
  | label (l : Nat)
  | exit
deriving DecidableEq, Repr

/-! ## Free variables -/

mutual
/-- The names pushed to `used` by `go`, in order, `compile.rs:372-424`. -/
def bcUsed : Expr → List Name
  | .bool _ => []
  | .int _ => []
  | .str _ => []
  | .trap _ _ => []
  | .name n => [n]
  | .call f xs => bcUsed f ++ bcUsedL xs
  | .ite c t e => bcUsed c ++ (bcUsed t ++ bcUsed e)
  | .op a _ b => bcUsed a ++ bcUsed b
  | .intr _ xs => bcUsedL xs
  | .con _ _ xs => bcUsedL xs
  | .lam _ b => bcUsed b
  | .mtch d bs => bcUsed d ++ bcUsedB bs
  | .let_ _ v e => bcUsed v ++ bcUsed e
  | .letrec _ _ v e => bcUsed v ++ bcUsed e
  | .pi _ e => bcUsed e
  | .piApp e _ => bcUsed e
def bcUsedL : List Expr → List Name
  | [] => []
  | e :: es => bcUsed e ++ bcUsedL es
def bcUsedB : List Branch → List Name
  | [] => []
  | .mk _ _ e :: bs => bcUsed e ++ bcUsedB bs
end

mutual
/-- The names put into `defined` by `go`, `compile.rs:372-424`. -/
def bcDefined : Expr → List Name
  | .bool _ => []
  | .int _ => []
  | .str _ => []
  | .trap _ _ => []
  | .name _ => []
  | .call f xs => bcDefined f ++ bcDefinedL xs
  | .ite c t e => bcDefined c ++ (bcDefined t ++ bcDefined e)
  | .op a _ b => bcDefined a ++ bcDefined b
  | .intr _ xs => bcDefinedL xs
  | .con _ _ xs => bcDefinedL xs
  | .lam ps b => ps.map (·.1) ++ bcDefined b
  | .mtch d bs => bcDefined d ++ bcDefinedB bs
  | .let_ n v e => n :: (bcDefined v ++ bcDefined e)
  | .letrec n _ v e => n :: (bcDefined v ++ bcDefined e)
  | .pi _ e => bcDefined e
  | .piApp e _ => bcDefined e
def bcDefinedL : List Expr → List Name
  | [] => []
  | e :: es => bcDefined e ++ bcDefinedL es
def bcDefinedB : List Branch → List Name
  | [] => []
  | .mk _ ns e :: bs => ns ++ (bcDefined e ++ bcDefinedB bs)
end

/-- `used.retain(|item| defined.insert(*item))`, `compile.rs:428`. -/
def retainNew : List Name → List Name → List Name
  | _, [] => []
  | seen, x :: xs => if x ∈ seen then retainNew seen xs else x :: retainNew (x :: seen) xs

/-- `free_variables`, `compile.rs:371-430`. -/
def bcFree (e : Expr) : List Name := retainNew (bcDefined e) (bcUsed e)

/-! ## Compiling expressions -/

/-- The part of `FunctionCompiler` that does not change, `compile.rs:103-114`. -/
structure FnCx where
  entrySize : Nat
  tailEntry : Nat
  params : List Name
  rec? : Option Name

/-- What changes while compiling: `Compiler`, `compile.rs:89-92`, and the rest of
`FunctionCompiler`; the operations are returned. -/
structure CS where
  next : Nat
  fns : List (List BOp)
  size : Nat
  maxSize : Nat
  depths : List (Name × Nat)

/-- `change_stack_size` with a non-negative change, `compile.rs:361-368`. -/
def CS.grow (s : CS) (k : Nat) : CS :=
  { s with size := s.size + k, maxSize := max s.maxSize (s.size + k) }
/-- `change_stack_size` with a negative change; underflow panics. -/
def CS.shrink (s : CS) (k : Nat) : Option CS :=
  if k ≤ s.size then some { s with size := s.size - k } else none

/-- `define_local`, `compile.rs:325-328`. -/
def CS.define (s : CS) (x : Name) : Option CS :=
  if 1 ≤ s.size then some { s with depths := (x, s.size - 1) :: s.depths } else none

/-- `pick_var`, `compile.rs:308-312`. -/
def CS.pickVar (x : Name) (s : CS) : Option (List BOp × CS) :=
  (assoc x s.depths).bind fun at_ =>
    if at_ + 1 ≤ s.size then some ([.pick (s.size - at_ - 1)], s.grow 1) else none

/-- `for &c in &captures { self.pick_var(c) }` -/
def CS.pickVars : List Name → CS → Option (List BOp × CS)
  | [], s => some ([], s)
  | x :: xs, s => (s.pickVar x).bind fun c => (CS.pickVars xs c.2).map fun cs => (c.1 ++ cs.1, cs.2)

/-- `set_var`, `compile.rs:314-319`. -/
def CS.setVar (x : Name) (s : CS) : Option (List BOp × CS) :=
  (assoc x s.depths).bind fun at_ =>
    if at_ + 2 ≤ s.size then (s.shrink 1).map fun s' => ([.set (s.size - at_ - 1 - 1)], s') else none

/-- `for p in self.params.iter().rev() { self.set_var(p.name) }`; the argument is the reversed list. -/
def CS.setVars : List Name → CS → Option (List BOp × CS)
  | [], s => some ([], s)
  | x :: xs, s => (s.setVar x).bind fun c => (CS.setVars xs c.2).map fun cs => (c.1 ++ cs.1, cs.2)

/-- `for x in xs { self.change_stack_size(1); self.define_local(x) }` -/
def CS.bindAll (s : CS) : List Name → Option CS
  | [] => some s
  | x :: xs => ((s.grow 1).define x).bind fun s => s.bindAll xs

/-- The self tail call, `compile.rs:136-150`, after the arguments. -/
def tailCall (cx : FnCx) (s : CS) : Option (List BOp × CS) :=
  (s.setVars cx.params.reverse).bind fun c =>
    if cx.entrySize ≤ c.2.size then
      let toPop := c.2.size - cx.entrySize
      some (c.1 ++ ((if toPop > 0 then [.popN toPop] else []) ++ [.jump cx.tailEntry]), c.2.grow 1)
    else none

/-- An ordinary call, `compile.rs:153-158`, after the arguments and the function. -/
def plainCall (k : Nat) (s : CS) : Option (List BOp × CS) :=
  ((s.grow 1).shrink 1).bind fun s => (s.shrink k).map fun s => ([.call], s)

/-- Is the callee the name of the function being compiled, in tail position? `compile.rs:133-134`. -/
def isSelfTail (cx : FnCx) (tail : Bool) : Expr → Bool
  | .name n => tail && (cx.rec? == some n)
  | _ => false

/-- Start of `compile_function`, `compile.rs:330-347`: where the parameters, the function itself and
the captured values are. -/
def fnStart (next : Nat) (fns : List (List BOp)) (ps : List Name) (r : Option Name) (caps : List Name) : Option CS :=
  (CS.bindAll ⟨next, fns, 0, 0, []⟩ ps).bind fun s =>
    ((match r with
      | some n => (s.grow 1).define n
      | none => some (s.grow 1)) : Option CS).bind fun s =>
    (s.grow 1).bindAll caps

/-- End of `compile_function`, `compile.rs:348-359`: `start` is the state before the body, `b` the code
of the body and the state after it. -/
def fnEnd (entry tce : Nat) (nps ncaps : Nat) (start : CS) (b : List BOp × CS) : Option (List BOp) :=
  (b.2.shrink (nps + ncaps + 2)).bind fun s =>
    if s.size = 1 then
      some ([.label entry, .enter ncaps (s.maxSize - start.size + ncaps), .label tce] ++
        (b.1 ++ [.ret nps ncaps]))
    else none

mutual
/-- `compile_expr`, `compile.rs:122-306`. -/
def comp (cx : FnCx) (tail : Bool) : Expr → CS → Option (List BOp × CS)
  | .bool b, s => some ([.pushBool b], s.grow 1)
  | .int i, s => some ([.pushInt i], s.grow 1)
  | .str t, s => some ([.pushStr t], s.grow 1)
  | .name x, s => s.pickVar x
  | .call f xs, s =>
    (compL cx xs s).bind fun a =>
      if isSelfTail cx tail f then (tailCall cx a.2).map fun t => (a.1 ++ t.1, t.2)
      else (comp cx false f a.2).bind fun g => (plainCall xs.length g.2).map fun t => (a.1 ++ (g.1 ++ t.1), t.2)
  | .ite c t e, s =>
    (comp cx false c s).bind fun c =>
      let l := c.2.next
      (CS.shrink { c.2 with next := l + 2 } 1).bind fun s =>
        (comp cx tail t s).bind fun t =>
          (t.2.shrink 1).bind fun s =>
            (comp cx tail e s).map fun e =>
              (c.1 ++ (.jumpIfFalse l :: (t.1 ++ (.jump (l + 1) :: .label l :: (e.1 ++ [.label (l + 1)])))), e.2)
  | .op a o b, s =>
    (comp cx false a s).bind fun a => (comp cx false b a.2).bind fun b =>
      (b.2.shrink 1).map fun s => (a.1 ++ (b.1 ++ [.arith o]), s)
  | .intr i xs, s =>
    (compL cx xs s).bind fun a => (a.2.shrink (i.arity - 1)).map fun s => (a.1 ++ [.intr i], s)
  | .lam ps b, s =>
    let caps := bcFree (.lam ps b)
    (fnStart (s.next + 2) s.fns (ps.map (·.1)) none caps).bind fun st =>
      (comp ⟨st.size, s.next + 1, ps.map (·.1), none⟩ true b st).bind fun b =>
        (fnEnd s.next (s.next + 1) ps.length caps.length st b).bind fun code =>
          (CS.pickVars caps { s with next := b.2.next, fns := b.2.fns ++ [code] }).bind fun c =>
            (c.2.shrink caps.length).map fun s' => (c.1 ++ [.closure s.next caps.length], s'.grow 1)
  | .mtch d bs, s =>
    (comp cx false d s).bind fun d =>
      let l := d.2.next
      let table := (bs.map fun b => (b.ctor, b.binds.length)).mapIdx fun i p => (p.1, l + 1 + i, p.2)
      (CS.shrink { d.2 with next := l + 1 + bs.length } 1).bind fun s =>
        (compB cx tail l (l + 1) bs s).map fun c =>
          (d.1 ++ (.branch table :: (c.1 ++ [.label l])), c.2.grow 1)
  | .con c _ xs, s =>
    (compL cx xs s).bind fun a => (a.2.shrink xs.length).map fun s => (a.1 ++ [.construct c xs.length], s.grow 1)
  | .let_ x v e, s =>
    (comp cx false v s).bind fun v => (v.2.define x).bind fun s =>
      (comp cx tail e s).bind fun e => (e.2.shrink 1).map fun s => (v.1 ++ (e.1 ++ [.swapPop]), s)
  | .letrec x ty v e, s =>
    let caps := (bcFree (.letrec x ty v e)).filter (fun c => c ≠ x)
    (compRec x caps v s).bind fun s' =>
      (CS.pickVars caps s').bind fun c =>
        (c.2.shrink caps.length).bind fun s'' =>
          ((s''.grow 1).define x).bind fun s3 =>
            (comp cx tail e s3).bind fun e => (e.2.shrink 1).map fun s4 =>
              (c.1 ++ (.closure s.next caps.length :: (e.1 ++ [.swapPop])), s4)
  | .pi _ e, s => comp cx tail e s
  | .piApp e _, s => comp cx tail e s
  | .trap m _, s => some ([.trap m], s.grow 1)
/-- The function of a recursive definition, `compile.rs:266-290` and `unwrap_pis`, `:432-437`. -/
def compRec (x : Name) (caps : List Name) : Expr → CS → Option CS
  | .pi _ v, s => compRec x caps v s
  | .lam ps b, s =>
    (fnStart (s.next + 2) s.fns (ps.map (·.1)) (some x) caps).bind fun st =>
      (comp ⟨st.size, s.next + 1, ps.map (·.1), some x⟩ true b st).bind fun b =>
        (fnEnd s.next (s.next + 1) ps.length caps.length st b).map fun code =>
          { s with next := b.2.next, fns := b.2.fns ++ [code] }
  | _, _ => none
/-- Expressions one after the other, none in tail position. -/
def compL (cx : FnCx) : List Expr → CS → Option (List BOp × CS)
  | [], s => some ([], s)
  | e :: es, s => (comp cx false e s).bind fun c => (compL cx es c.2).map fun cs => (c.1 ++ cs.1, cs.2)
/-- The branches of a match, `compile.rs:232-245`; `l` is the label of the next branch. -/
def compB (cx : FnCx) (tail : Bool) (endL : Nat) : Nat → List Branch → CS → Option (List BOp × CS)
  | _, [], s => some ([], s)
  | l, .mk _ ns e :: bs, s =>
    (s.bindAll ns).bind fun s1 =>
      (comp cx tail e s1).bind fun c =>
        (c.2.shrink ns.length).bind fun s2 => (s2.shrink 1).bind fun s3 =>
          (compB cx tail endL (l + 1) bs s3).map fun cs =>
            (.label l :: (c.1 ++ (List.replicate ns.length .swapPop ++ (.jump endL :: cs.1))), cs.2)
end

/-- The definitions of a program, `compile.rs:75-78`. -/
def compDefs (cx : FnCx) : List ValueDef → CS → Option (List BOp × CS)
  | [], s => some ([], s)
  | d :: ds, s =>
    (comp cx false d.value s).bind fun c => (c.2.define d.name).bind fun s =>
      (compDefs cx ds s).map fun cs => (c.1 ++ cs.1, cs.2)

/-- `compile`, `compile.rs:57-87`. -/
def compileProgram (p : Program) (es : List Expr) : Option (List BOp) :=
  let cx : FnCx := ⟨0, 0, [], none⟩
  (compDefs cx p.defs ⟨0, [], 0, 0, []⟩).bind fun d =>
    (compL cx es d.2).bind fun c =>
      if c.2.size = p.defs.length + es.length then
        some ((.enter 0 c.2.maxSize :: (d.1 ++ (c.1 ++ [.exit]))) ++ c.2.fns.flatten)
      else none

/-! ## Linking -/

/-- `bytecode::Op`, `bytecode.rs:398-433`. -/
inductive LOp
  | pushInt (x : UInt64)
  | pushBool (b : Bool)
  | pick (depth : Nat)
  | set (depth : Nat)
  | popN (n : Nat)
  | swapPop
  | arith (o : Op)
  | jump (a : Nat)
  | jumpIfFalse (a : Nat)
  | ret (params captures : Nat)
  | call
  | unpackUpvalues
  | construct (tag : Nat) (fields : Nat)
  | branch (table : List (Nat × Nat))
  | const (idx : Nat)
  | trap (msg : String)
  | intr (i : Intrinsic)
  | exit
deriving DecidableEq, Repr

/-- `TAG_MASK` keeps the low 48 bits, `bytecode.rs:444-447`; masking with it is `% tagSize`. -/
def tagSize : Nat := 2 ^ 48
/-- `OBJ_TAG`, `bytecode.rs:445`. -/
def objTag : Nat := 2 * tagSize
/-- `FN_TAG`, `bytecode.rs:446`. -/
def fnTag : Nat := 4 * tagSize

/-- Does the operation disappear when linking? `bytecode.rs:454-460,490,524`. -/
def BOp.silent : BOp → Bool
  | .label _ => true
  | .enter 0 _ => true
  | _ => false

/-- The address of the operation at position `i`: the operations before it that do not disappear. -/
def addrOf (ops : List BOp) (i : Nat) : Nat := ((ops.take i).filter fun o => !o.silent).length

/-- `label_addresses`, `bytecode.rs:451-461`: for each label, in order, the number of operations so
far; a later one overrides. -/
def labelAddrs : List BOp → (addr : Nat) → List (Nat × Nat) → List (Nat × Nat)
  | [], _, m => m
  | .label l :: ops, a, m => labelAddrs ops a ((l, a) :: m)
  | o :: ops, a, m => labelAddrs ops (if o.silent then a else a + 1) m

/-- The growing tables of `link`: string constants and `CtorTags`. -/
structure LinkSt where
  consts : List (List UInt8) := []
  ctors : List Name := []

/-- Index of the first occurrence. -/
def indexOf (x : Name) : List Name → Option Nat
  | [] => none
  | y :: ys => if y = x then some 0 else (indexOf x ys).map (· + 1)

/-- `CtorTags::resolve`, `bytecode.rs:536-545`. -/
def LinkSt.resolve (st : LinkSt) (c : Name) : Nat × LinkSt :=
  match indexOf c st.ctors with
  | some i => (i ||| objTag, st)
  | none => (st.ctors.length ||| objTag, { st with ctors := st.ctors ++ [c] })

/-- The branch table of a match, `bytecode.rs:499-508`. -/
def linkTable (m : List (Nat × Nat)) : List (Name × Nat × Nat) → LinkSt → Option (List (Nat × Nat) × LinkSt)
  | [], st => some ([], st)
  | (c, l, _) :: bs, st =>
    (assoc l m).bind fun a => (linkTable m bs (st.resolve c).2).map fun r => (((st.resolve c).1, a) :: r.1, r.2)

/-- One operation, `bytecode.rs:464-527`; a missing label panics. -/
def linkOp (m : List (Nat × Nat)) (st : LinkSt) : BOp → Option (List LOp × LinkSt)
  | .pushInt x => some ([.pushInt x], st)
  | .pushBool b => some ([.pushBool b], st)
  | .pushStr s => some ([.const st.consts.length], { st with consts := st.consts ++ [s] })
  | .pick d => some ([.pick d], st)
  | .set d => some ([.set d], st)
  | .popN n => some ([.popN n], st)
  | .swapPop => some ([.swapPop], st)
  | .arith o => some ([.arith o], st)
  | .jump l => (assoc l m).map fun a => ([.jump a], st)
  | .jumpIfFalse l => (assoc l m).map fun a => ([.jumpIfFalse a], st)
  | .ret p c => some ([.ret p c], st)
  | .call => some ([.call], st)
  | .enter 0 _ => some ([], st)
  | .enter (_ + 1) _ => some ([.unpackUpvalues], st)
  | .construct c n => some ([.construct (st.resolve c).1 n], (st.resolve c).2)
  | .closure l n => (assoc l m).map fun a => ([.construct (a ||| fnTag) n], st)
  | .branch t => (linkTable m t st).map fun r => ([.branch r.1], r.2)
  | .trap msg => some ([.trap msg], st)
  | .intr i => some ([.intr i], st)
  | .label _ => some ([], st)
  | .exit => some ([.exit], st)

/-- The loop of `link`, `bytecode.rs:463-529`. -/
def linkOps (m : List (Nat × Nat)) : List BOp → LinkSt → Option (List LOp × LinkSt)
  | [], st => some ([], st)
  | o :: ops, st =>
    (linkOp m st o).bind fun r => (linkOps m ops r.2).map fun r' => (r.1 ++ r'.1, r'.2)

/-- `link`, `bytecode.rs:449-530`. -/
def link (ops : List BOp) : Option (List LOp × LinkSt) := linkOps (labelAddrs ops 0 []) ops {}

/-! ## Running -/

/-- What a value on the VM stack stands for: an integer (also a return address), or what is behind a
pointer: one of the two booleans, a string, or an object with a tag and fields. -/
inductive TVal
  | int (x : UInt64)
  | bool (b : Bool)
  | str (s : List UInt8)
  | obj (tag : Nat) (fields : List TVal)
deriving Inhabited

/-- State of the interpreter: address of the next operation, stack (top first). -/
structure VM where
  ip : Nat
  stack : List TVal

/-- What one operation does. -/
inductive VStep
  | next (s : VM)
  | exit (stack : List TVal)
  | trap (msg : String)
  | stuck

/-- Operators, `bytecode.rs:171-231`. -/
def vmOp (o : Op) (a b : UInt64) : TVal :=
  match o with
  | .add => .int (a + b)
  | .subtract => .int (a - b)
  | .multiply => .int (a * b)
  | .divide => .int (if b = 0 then 0 else a / b)
  | .modulo => .int (if b = 0 then a else a % b)
  | .less => .bool (decide (a < b))
  | .lessEq => .bool (decide (a ≤ b))
  | .greater => .bool (decide (b < a))
  | .greaterEq => .bool (decide (b ≤ a))
  | .equal => .bool (decide (a = b))
  | .notEqual => .bool (!decide (a = b))

/-- Intrinsics, `bytecode.rs:310-378`: the last argument is on top. -/
def vmIntr : Intrinsic → List TVal → Option (List TVal)
  | .stringLen, .str s :: st => some (.int (strLen s) :: st)
  | .stringConcat, .str s2 :: .str s1 :: st => some (.str (s1 ++ s2) :: st)
  | .stringCharAt, .str s :: .int i :: st => some (.int (strCharAt i s) :: st)
  | .stringSubstring, .str s :: .int len :: .int start :: st => some (.str (strSubstring start len s) :: st)
  | .stringFromChar, .int c :: st => some (.str (strFromChar c) :: st)
  | .intToString, .int i :: st => some (.str (intToStr i) :: st)
  | _, _ => none

/-- The first entry of a branch table with the given tag, `bytecode.rs:287-297`. -/
def findTag (tag : Nat) : List (Nat × Nat) → Option Nat
  | [] => none
  | (t, a) :: bs => if t = tag then some a else findTag tag bs

/-- One round of the loop of `run`, `bytecode.rs:141-383`.  `stuck` is a panic (also going past the
end of the code, and operands of a kind that `unreachable!()` excludes).  Calling something that is not
an object is `stuck` here, as is testing something that is not a boolean; the real interpreter would take
a tag for an address, and an object for `true`. -/
def vmStep (ops : List LOp) (consts : List (List UInt8)) (s : VM) : VStep :=
  match ops[s.ip]? with
  | none => .stuck
  | some o =>
    let go (st : List TVal) : VStep := .next ⟨s.ip + 1, st⟩
    match o, s.stack with
    | .pushInt x, st => go (.int x :: st)
    | .pushBool b, st => go (.bool b :: st)
    | .pick d, st => match st[d]? with
      | some v => go (v :: st)
      | none => .stuck
    | .set d, v :: st => if d < st.length then go (st.set d v) else .stuck
    | .popN n, st => if n ≤ st.length then go (st.drop n) else .stuck
    | .swapPop, v :: _ :: st => go (v :: st)
    | .arith o, .int b :: .int a :: st => go (vmOp o a b :: st)
    | .jump a, st => .next ⟨a, st⟩
    | .jumpIfFalse a, .bool b :: st => if b then go st else .next ⟨a, st⟩
    | .ret params captures, v :: st => match st.drop captures with
      | .int r :: _ :: st => if params ≤ st.length then .next ⟨r.toNat, v :: st.drop params⟩ else .stuck
      | _ => .stuck
    | .call, .obj tag fs :: st => .next ⟨tag % tagSize, .int (UInt64.ofNat (s.ip + 1)) :: .obj tag fs :: st⟩
    | .unpackUpvalues, r :: .obj tag fs :: st => go (fs.reverse ++ (r :: .obj tag fs :: st))
    | .construct tag n, st => if n ≤ st.length then go (.obj tag (st.take n).reverse :: st.drop n) else .stuck
    | .branch table, .obj tag fs :: st => match findTag tag table with
      | some a => .next ⟨a, fs.reverse ++ st⟩
      | none => .stuck
    | .const i, st => match consts[i]? with
      | some s => go (.str s :: st)
      | none => .stuck
    | .trap m, _ => .trap m
    | .intr i, st => match vmIntr i st with
      | some st => go st
      | none => .stuck
    | .exit, st => .exit st
    | _, _ => .stuck

/-- The loop, for at most `n` rounds. -/
def vmRun (ops : List LOp) (consts : List (List UInt8)) : Nat → VM → Res (List TVal)
  | 0, _ => .timeout
  | n + 1, s =>
    match vmStep ops consts s with
    | .next s => vmRun ops consts n s
    | .exit st => .ok st
    | .trap m => .trap m
    | .stuck => .panic

mutual
/-- `decode_value`, `bytecode.rs:102-139`: the tag tells functions from constructors, and
`Tagged::from_vec` takes at most `maxFields` fields. -/
def decode (ctors : List Name) : TVal → Option Obs
  | .int x => some (.int x)
  | .bool b => some (.bool b)
  | .str s => some (.str s)
  | .obj tag fs =>
    if tag / tagSize = 4 then some .fn
    else if tag / tagSize = 2 then
      match ctors[tag % tagSize]? with
      | some c => (decodeL ctors fs).bind fun os => if os.length ≤ maxFields then some (.comp c os) else none
      | none => none
    else none
def decodeL (ctors : List Name) : List TVal → Option (List Obs)
  | [] => some []
  | v :: vs => (decode ctors v).bind fun o => (decodeL ctors vs).map fun os => o :: os
end

/-- `bytecode::eval`, `bytecode.rs:72-99`. -/
def bytecodeEval (n : Nat) (p : Program) (es : List Expr) : Res (List Obs) :=
  match compileProgram p es with
  | none => .panic
  | some ops =>
    match link ops with
    | none => .panic
    | some (lops, st) =>
      (vmRun lops st.consts n ⟨0, []⟩).bind fun stack =>
        if es.length ≤ stack.length then
          match decodeL st.ctors (stack.take es.length).reverse with
          | some os => .ok os
          | none => .panic
        else .panic

end Tic.Core
