import Verif.Bytecode
import Verif.VmAlloc
/-
The interpreter loop of `ticc-eval/src/bytecode.rs` as it is: on a stack of machine words and
pointers into the garbage-collected heap of `ticc-eval/src/heap.rs`.  (`Bytecode` has the same loop on
what the pointers lead to.)
-/
namespace Tic.Core
open Tic.Heap (Heap Value Runtime allocObject allocBytes objFields objBytes sizeAt tagAt stringTag)

/-- `Runtime`, `bytecode.rs:5-12`, with the local `ip` of `run`.  The code, which does not change, is a
parameter; the stack is kept top first. -/
structure HVM where
  ip : Nat
  stack : List Value
  rt : Runtime

/-- What one operation does: continue, stop, trap, panic (`stuck`), or exceed a limit of the heap
(`limit`). -/
inductive HStep
  | next (s : HVM)
  | exit (s : HVM)
  | trap (msg : String)
  | stuck
  | limit

/-- `Stack::ptrs`, `bytecode.rs:63-68`. -/
def stackPtrs (st : List Value) : List Nat := st.filterMap fun
  | .ptr a => some a
  | .int _ => none

/-- What the collector does to the stack it borrows the pointers of (`bytecode.rs:63-68,391-397`): the
pointers are replaced, one after the other. -/
def setPtrs : List Value → List Nat → List Value
  | .ptr _ :: st, a :: as => .ptr a :: setPtrs st as
  | .int x :: st, as => .int x :: setPtrs st as
  | st, _ => st

/-- `maybe_gc` and the end of the round, `bytecode.rs:384-397`; the pointers are collected from the
bottom of the stack. -/
def hvGc (ip : Nat) (st : List Value) (rt : Runtime) : HStep :=
  match rt.maybeGc (stackPtrs st.reverse) with
  | some r => .next ⟨ip, (setPtrs st.reverse r.2).reverse, r.1⟩
  | none => .limit

/-- `Op::Construct` after popping, `bytecode.rs:262-274`.  Simplification: an object of more than 64
fields is beyond the limits; the code panics on the shift in `put_ptr` (a pointer field with index 64 or
more) or when it reads such an object (`heap.rs:131-144`). -/
def hvObject (ip : Nat) (st : List Value) (rt : Runtime) (tag : Nat) (vals : List Value) : HStep :=
  if vals.length ≤ 64 then
    match allocObject rt.heap tag vals with
    | some r => hvGc ip (.ptr r.2 :: st) { rt with heap := r.1 }
    | none => .limit
  else .limit

/-- Allocating the result of a string intrinsic, `bytecode.rs:338-342,347-351,356-360,372-376`.  (`as u32`
truncates the length of a string of 4 GiB, and then copying the bytes panics.) -/
def hvBytes (ip : Nat) (st : List Value) (rt : Runtime) (bs : List UInt8) : HStep :=
  match allocBytes rt.heap (bs.length ||| stringTag) bs with
  | some r => hvGc ip (.ptr r.2 :: st) { rt with heap := r.1 }
  | none => .limit

/-- The slices taken by `obj_parts`, `heap.rs:193-199`, are within the heap. -/
def inHeap (h : Heap) (a : Nat) : Bool :=
  decide (a + 24 ≤ h.len ∧ 24 ≤ sizeAt h.mem a ∧ a + sizeAt h.mem a ≤ h.len)

/-- `obj_with_fields`, `heap.rs:131-144`; `none` where slicing panics. -/
def hvFields (h : Heap) (a : Nat) : Option (Nat × List Value) := if inHeap h a then some (objFields h a) else none

/-- The bytes of a string, `&bytes[..len]` with the length from the tag (`bytecode.rs:126-129,322-325`);
`none` where slicing panics. -/
def hvStr (h : Heap) (a : Nat) : Option (List UInt8) :=
  if inHeap h a ∧ tagAt h.mem a % tagSize ≤ (objBytes h a).2.length then
    some ((objBytes h a).2.take (tagAt h.mem a % tagSize))
  else none

/-- `Bools::get`, `bytecode.rs:19-27`. -/
def hvBool (rt : Runtime) (b : Bool) : Value := .ptr (if b then rt.true_ else rt.false_)

/-- Operators, `bytecode.rs:171-231`. -/
def hvOp (rt : Runtime) (o : Op) (a b : UInt64) : Value :=
  match o with
  | .add => .int (a + b)
  | .subtract => .int (a - b)
  | .multiply => .int (a * b)
  | .divide => .int (if b = 0 then 0 else a / b)
  | .modulo => .int (if b = 0 then a else a % b)
  | .less => hvBool rt (decide (a < b))
  | .lessEq => hvBool rt (decide (a ≤ b))
  | .greater => hvBool rt (decide (b < a))
  | .greaterEq => hvBool rt (decide (b ≤ a))
  | .equal => hvBool rt (decide (a = b))
  | .notEqual => hvBool rt (!decide (a = b))

/-- Intrinsics, `bytecode.rs:307-377`: the last argument is on top. -/
def hvIntr (ip : Nat) (rt : Runtime) : Intrinsic → List Value → HStep
  | .stringLen, .ptr p :: st =>
    match hvFields rt.heap p with
    | some o => .next ⟨ip, .int (UInt64.ofNat (o.1 % tagSize)) :: st, rt⟩
    | none => .stuck
  | .stringCharAt, .ptr p :: .int i :: st =>
    if inHeap rt.heap p then
      if i.toNat < tagAt rt.heap.mem p % tagSize then
        match (objBytes rt.heap p).2[i.toNat]? with
        | some b => .next ⟨ip, .int (UInt64.ofNat b.toNat) :: st, rt⟩
        | none => .stuck
      else .next ⟨ip, .int 0 :: st, rt⟩
    else .stuck
  | .stringConcat, .ptr p2 :: .ptr p1 :: st =>
    match hvStr rt.heap p2, hvStr rt.heap p1 with
    | some s2, some s1 => hvBytes ip st rt (s1 ++ s2)
    | _, _ => .stuck
  | .stringFromChar, .int x :: st => hvBytes ip st rt [UInt8.ofNat x.toNat]
  | .intToString, .int x :: st => hvBytes ip st rt ((Names.decimal x.toNat).map fun c => UInt8.ofNat c.toNat)
  | .stringSubstring, .ptr p :: .int len :: .int start :: st =>
    match hvStr rt.heap p with
    | some s =>
      let s := if start.toNat ≤ s.length then s.drop start.toNat else []
      hvBytes ip st rt (if len.toNat ≤ s.length then s.take len.toNat else s)
    | none => .stuck
  | _, _ => .stuck

/-- One round of the loop of `run`, `bytecode.rs:141-381`. -/
def hvStep (ops : List LOp) (s : HVM) : HStep :=
  match ops[s.ip]? with
  | none => .stuck
  | some o =>
    let go (st : List Value) : HStep := .next ⟨s.ip + 1, st, s.rt⟩
    match o, s.stack with
    | .pushInt x, st => go (.int x :: st)
    | .pushBool b, st => go (hvBool s.rt b :: st)
    | .pick d, st => match st[d]? with
      | some v => go (v :: st)
      | none => .stuck
    | .set d, v :: st => if d < st.length then go (st.set d v) else .stuck
    | .popN n, st => if n ≤ st.length then go (st.drop n) else .stuck
    | .swapPop, v :: _ :: st => go (v :: st)
    | .arith o, .int b :: .int a :: st => go (hvOp s.rt o a b :: st)
    | .jump a, st => .next ⟨a, st, s.rt⟩
    | .jumpIfFalse a, .ptr p :: st => if p = s.rt.false_ then .next ⟨a, st, s.rt⟩ else go st
    | .ret params captures, v :: st => match st.drop captures with
      | .int r :: _ :: st => if params ≤ st.length then .next ⟨r.toNat, v :: st.drop params, s.rt⟩ else .stuck
      | _ => .stuck
    | .call, .ptr p :: st => match hvFields s.rt.heap p with
      | some o => .next ⟨o.1 % tagSize, .int (UInt64.ofNat (s.ip + 1)) :: .ptr p :: st, s.rt⟩
      | none => .stuck
    | .unpackUpvalues, r :: .ptr p :: st => match hvFields s.rt.heap p with
      | some o => go (o.2.reverse ++ (r :: .ptr p :: st))
      | none => .stuck
    | .construct tag n, st =>
      if n ≤ st.length then hvObject (s.ip + 1) (st.drop n) s.rt tag (st.take n).reverse else .stuck
    | .branch table, .ptr p :: st => match hvFields s.rt.heap p with
      | some o => match findTag o.1 table with
        | some a => .next ⟨a, o.2.reverse ++ st, s.rt⟩
        | none => .stuck
      | none => .stuck
    | .const i, st => match s.rt.consts[i]? with
      | some a => go (.ptr a :: st)
      | none => .stuck
    | .trap m, _ => .trap m
    | .intr i, st => hvIntr (s.ip + 1) s.rt i st
    | .exit, _ => .exit s
    | _, _ => .stuck

/-- How a run ends: with a result (or a trap, a panic, or not within the given number of rounds), or by
exceeding a limit of the heap. -/
inductive HOut (α : Type)
  | res (r : Res α)
  | limit

/-- The loop, for at most `n` rounds. -/
def hvRun (ops : List LOp) : Nat → HVM → HOut HVM
  | 0, _ => .res .timeout
  | n + 1, s =>
    match hvStep ops s with
    | .next s => hvRun ops n s
    | .exit s => .res (.ok s)
    | .trap m => .res (.trap m)
    | .stuck => .res .panic
    | .limit => .limit

/-- All elements, or nothing. -/
def allSome {α β : Type} (f : α → Option β) : List α → Option (List β)
  | [] => some []
  | a :: as => (f a).bind fun b => (allSome f as).map fun bs => b :: bs

/-- `decode_value`, `bytecode.rs:102-139`, with a bound on the recursion; `none` on a panic.
Simplification: the cache `dedup` (which only saves time) is left out. -/
def hvDecode (rt : Runtime) (ctors : List Name) : Nat → Value → Option Obs
  | 0, _ => none
  | _ + 1, .int x => some (.int x)
  | n + 1, .ptr p =>
    if p = rt.true_ then some (.bool true)
    else if p = rt.false_ then some (.bool false)
    else if inHeap rt.heap p then
      let tag := tagAt rt.heap.mem p
      if tag / tagSize = 4 then some .fn
      else if tag / tagSize = 1 then (hvStr rt.heap p).map .str
      else if tag / tagSize = 2 then
        match ctors[tag % tagSize]? with
        | some c => (allSome (hvDecode rt ctors n) (objFields rt.heap p).2).bind fun os =>
            if os.length ≤ maxFields then some (.comp c os) else none
        | none => none
      else none
    else none

/-- `bytecode::eval`, `bytecode.rs:72-99`.  Decoding goes from an object to objects at higher addresses,
so the size of the heap bounds its depth. -/
def heapEval (n : Nat) (p : Program) (es : List Expr) : HOut (List Obs) :=
  match compileProgram p es with
  | none => .res .panic
  | some ops =>
    match link ops with
    | none => .res .panic
    | some (lops, st) =>
      match Runtime.start st.consts with
      | none => .limit
      | some rt =>
        match hvRun lops n ⟨0, [], rt⟩ with
        | .limit => .limit
        | .res r => .res (r.bind fun s =>
            if es.length ≤ s.stack.length then
              match allSome (hvDecode s.rt st.ctors (s.rt.heap.len + 1)) (s.stack.take es.length).reverse with
              | some os => .ok os
              | none => .panic
            else .panic)

end Tic.Core
