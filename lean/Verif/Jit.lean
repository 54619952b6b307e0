/-
The compiler to machine code, `ticc-eval/src/jit.rs`: the x86-64 instructions it emits for each operation, a machine that runs them, and the runtime functions they call.

Simplifications.  A machine word is a number or an address, and an address says which memory it belongs to (`Word`), so the memories are apart; the stack buffer has no end here
(`cap` only has its recorded size, see `JitExample`).  An address of the heap or of the stack buffer carries a generation: after a call that may move the memory, old addresses fault.
Code addresses are numbers of operations: the encoding by `iced_x86` and the memory map are trusted.  The code that saves registers at the start and fills the table of functions
(`jit.rs:226-263`) is not run instruction by instruction: a run starts in the state it leaves.  Loading the address of a
runtime function into r8 or r9 before a call is part of the call, after which these registers hold anything; that calls do not reserve the 32 bytes the Windows convention asks for is not seen here.  `alloc_obj`
looks at the fields before it allocates (the order cannot be seen), and tags are put together by `|||`, which is addition below 2^48.  The collector, the heap and `maybe_gc` are those of the interpreter (`heap.rs`, shared by both).
-/
import Verif.HeapVm

namespace Tic.Jit
open Tic.Core (Op Intrinsic BOp LinkSt Name Program Expr Obs Res HOut compileProgram allSome hvDecode tagSize objTag fnTag hvFields hvStr inHeap)
open Tic.Heap (Heap Value Runtime allocObject allocBytes objFields objBytes readLE tagAt stringTag)

/-! ### Operations with their tables -/

/-- The operations, with constructor tags, function indices and constants resolved while assembling (`jit.rs:270-665`).  Labels stay. -/
inductive JOp
  | pushInt (x : UInt64)
  | pushBool (b : Bool)
  | const (i : Nat)
  | pick (d : Nat)
  | set (d : Nat)
  | popN (n : Nat)
  | swapPop
  | arith (o : Op)
  | jump (l : Nat)
  | jumpIfFalse (l : Nat)
  | ret (params captures : Nat)
  | call
  | enter (upvalues usage : Nat)
  | construct (tag : UInt64) (fields : Nat)
  | branch (table : List (UInt64 × Nat × Nat))
  | trap (msg : String)
  | intr (i : Intrinsic)
  | label (l : Nat)
  | exit
deriving DecidableEq, Repr

/-- `function_indices`, `jit.rs:250-264`: the labels of closures, in the order of their first use. -/
def fnLabels : List BOp → List Nat → List Nat
  | [], ls => ls
  | .closure l _ :: ops, ls => fnLabels ops (if l ∈ ls then ls else ls ++ [l])
  | _ :: ops, ls => fnLabels ops ls

/-- Index of a label in the table of functions; `function_indices[addr]`, `jit.rs:535`. -/
def fnIndex (l : Nat) : List Nat → Option Nat
  | [] => none
  | l' :: ls => if l' = l then some 0 else (fnIndex l ls).map (· + 1)

/-- The branches of a match, `jit.rs:553-556`: tag, bindings, label. -/
def resolveTable : List (Name × Nat × Nat) → LinkSt → List (UInt64 × Nat × Nat) × LinkSt
  | [], st => ([], st)
  | (c, l, n) :: bs, st =>
    let r := resolveTable bs (st.resolve c).2
    ((UInt64.ofNat (st.resolve c).1, n, l) :: r.1, r.2)

/-- One operation; strings become constants (`jit.rs:291-306`), constructors numbers (`:520`, `CtorTags`, `:864-879`), functions indices (`:535`). -/
def resolveOp (fns : List Nat) (st : LinkSt) : BOp → Option (JOp × LinkSt)
  | .pushInt x => some (.pushInt x, st)
  | .pushBool b => some (.pushBool b, st)
  | .pushStr s => some (.const st.consts.length, { st with consts := st.consts ++ [s] })
  | .pick d => some (.pick d, st)
  | .set d => some (.set d, st)
  | .popN n => some (.popN n, st)
  | .swapPop => some (.swapPop, st)
  | .arith o => some (.arith o, st)
  | .jump l => some (.jump l, st)
  | .jumpIfFalse l => some (.jumpIfFalse l, st)
  | .ret p c => some (.ret p c, st)
  | .call => some (.call, st)
  | .enter k u => some (.enter k u, st)
  | .construct c n => some (.construct (UInt64.ofNat (st.resolve c).1) n, (st.resolve c).2)
  | .closure l n => (fnIndex l fns).map fun i => (.construct (UInt64.ofNat (i + fnTag)) n, st)
  | .branch t => some (.branch (resolveTable t st).1, (resolveTable t st).2)
  | .trap m => some (.trap m, st)
  | .intr i => some (.intr i, st)
  | .label l => some (.label l, st)
  | .exit => some (.exit, st)

/-- All operations. -/
def resolveOps (fns : List Nat) : List BOp → LinkSt → Option (List JOp × LinkSt)
  | [], st => some ([], st)
  | o :: ops, st => (resolveOp fns st o).bind fun r => (resolveOps fns ops r.2).map fun r' => (r.1 :: r'.1, r'.2)

/-- The position of a label, `set_label`, `jit.rs:658-664`. -/
def labelPos (l : Nat) : List JOp → Option Nat
  | [] => none
  | o :: ops => if o = .label l then some 0 else (labelPos l ops).map (· + 1)

/-! ### The machine -/

/-- A machine word: a number, an address in the stack buffer (in words) or in the heap (in bytes), each with the generation of that memory, the address of the `ExecState`, of the table of
functions, of the constants, or of the code of an operation. -/
inductive Word
  | int (x : UInt64)
  | stk (gen : Nat) (w : Int)
  | heap (gen off : Nat)
  | state
  | fns
  | consts
  | code (i : Nat)
deriving DecidableEq, Repr

/-- The registers in use: `tmp1` to `tmp4` are r8 to r11, `stack_ptr` r12, `exec_state` r13, `true_addr` r14, `false_addr` r15, `heap_base` rdi, `function_entrypoints` rsi,
`stack_check` rbp; `jit.rs:216-226`. -/
inductive Reg
  | r8 | r9 | r10 | r11 | r12 | r13 | r14 | r15 | rax | rcx | rdx | rdi | rsi | rbp
deriving DecidableEq, Repr

/-- Conditions of jumps and conditional moves, on unsigned numbers. -/
inductive Cond
  | e | ne | b | be | a | ae
deriving DecidableEq, Repr

/-- The runtime functions, `jit.rs:679-813`. -/
inductive Fn
  | allocObj
  | growStack
  | intr (i : Intrinsic)
deriving DecidableEq, Repr

/-- The instructions in use.  A memory operand is a register and a displacement in bytes. -/
inductive Ins
  | nop
  | mov (d s : Reg)
  | movi (d : Reg) (x : UInt64)
  | load (d base : Reg) (disp : Int)
  | store (base : Reg) (disp : Int) (s : Reg)
  /-- a store of 32 bits that are sign-extended to 64 -/
  | storei (base : Reg) (disp : Int) (x : UInt32)
  | lea (d base : Reg) (disp : Int)
  /-- the address of the code after this operation -/
  | leaNext (d : Reg)
  /-- `mov d, [function_entrypoints + d * 8]` -/
  | loadFn (d : Reg)
  | addi (d : Reg) (n : Int)
  | subi (d : Reg) (n : Int)
  | add (d s : Reg)
  | sub (d s : Reg)
  | addm (base : Reg) (disp : Int) (s : Reg)
  | subm (base : Reg) (disp : Int) (s : Reg)
  | imulm (d base : Reg) (disp : Int)
  /-- `rax, rdx := rdx:rax / s, rdx:rax % s` -/
  | div (s : Reg)
  | zero (d : Reg)
  | andi (d : Reg) (x : UInt64)
  | shr1 (d : Reg)
  | cmp (a b : Reg)
  | cmpi (a : Reg) (x : UInt64)
  | cmpm (base : Reg) (disp : Int) (b : Reg)
  | cmov (c : Cond) (d s : Reg)
  /-- a jump within the code of an operation -/
  | jcc (c : Cond) (n : Nat)
  | jmp (n : Nat)
  | lab (n : Nat)
  /-- jumps to labels of operations -/
  | jmpL (l : Nat)
  | jneL (l : Nat)
  | jmpR (r : Reg)
  | call (f : Fn)
  | ud2
  /-- the saved registers are restored and the code returns -/
  | leave
deriving DecidableEq, Repr

/-- The machine.  Of the `ExecState` (`jit.rs:105-120`): the saved stack pointer, `trap`, `stack_check`, `stack_capacity`; the booleans, the constants and the heap are in `rt`. -/
structure Cpu where
  reg : Reg → Word
  flags : Option (Word × Word)
  mem : Int → Word
  sgen : Nat
  hgen : Nat
  rt : Runtime
  stackPtr : Word
  trap : UInt64
  stackCheck : Word
  cap : Nat

/-- What does not change: what volatile registers hold after a call, the size `Vec::reserve` chooses, `stack_reserve`, and the operations at which functions start. -/
structure Env where
  junk : Reg → Word
  newCap : Nat → Nat → Nat
  reserve : Nat
  entries : List Nat

def setReg (c : Cpu) (r : Reg) (w : Word) : Cpu := { c with reg := fun r' => if r' = r then w else c.reg r' }

def upd (m : Int → Word) (i : Int) (w : Word) : Int → Word := fun j => if j = i then w else m j

/-- Sign extension of an immediate. -/
def signExt (x : UInt32) : UInt64 := if x < 0x80000000 then x.toUInt64 else x.toUInt64 + 0xffffffff00000000

/-- The word at an address. -/
def Cpu.read (c : Cpu) (a : Word) (disp : Int) : Option Word :=
  match a with
  | .stk g w => if g = c.sgen ∧ disp % 8 = 0 then some (c.mem (w + disp / 8)) else none
  | .heap g o => if g = c.hgen ∧ 0 ≤ o + disp ∧ o + disp + 8 ≤ c.rt.heap.len then some (.int (UInt64.ofNat (readLE c.rt.heap.mem (o + disp).toNat 8))) else none
  | .state =>
    if disp = 0 then some c.stackPtr
    else if disp = 8 then some (.int (UInt64.ofNat c.rt.true_))
    else if disp = 16 then some (.int (UInt64.ofNat c.rt.false_))
    else if disp = 24 then some (.heap c.hgen 0)
    else if disp = 32 then some .fns
    else if disp = 40 then some .consts
    else if disp = 48 then some (.int c.trap)
    else if disp = 56 then some c.stackCheck
    else none
  | .consts => if disp % 8 = 0 ∧ 0 ≤ disp then (c.rt.consts[(disp / 8).toNat]?).map fun a => .int (UInt64.ofNat a) else none
  | _ => none

/-- Writing a word. -/
def Cpu.write (c : Cpu) (a : Word) (disp : Int) (v : Word) : Option Cpu :=
  match a with
  | .stk g w => if g = c.sgen ∧ disp % 8 = 0 then some { c with mem := upd c.mem (w + disp / 8) v } else none
  | .state =>
    if disp = 0 then some { c with stackPtr := v }
    else if disp = 48 then match v with
      | .int x => some { c with trap := x }
      | _ => none
    else none
  | _ => none

/-- Adding a number of bytes to an address or a number. -/
def addBytes (a : Word) (n : Int) : Option Word :=
  match a with
  | .stk g w => if n % 8 = 0 then some (.stk g (w + n / 8)) else none
  | _ => none

def binop (f : UInt64 → UInt64 → UInt64) : Word → Word → Option Word
  | .int x, .int y => some (.int (f x y))
  | _, _ => none

/-- Addition of an offset and the base of the heap. -/
def addWord : Word → Word → Option Word
  | .int x, .int y => some (.int (x + y))
  | .int x, .heap g o => some (.heap g (x.toNat + o))
  | _, _ => none

/-- The condition after a comparison; addresses in the stack buffer can be compared with each other. -/
def holds (c : Cond) : Option (Word × Word) → Option Bool
  | some (.int x, .int y) => some <| match c with
    | .e => decide (x = y)
    | .ne => !decide (x = y)
    | .b => decide (x < y)
    | .be => decide (x ≤ y)
    | .a => decide (y < x)
    | .ae => decide (y ≤ x)
  | some (.stk g x, .stk g' y) => if g = g' then some <| match c with
    | .e => decide (x = y)
    | .ne => !decide (x = y)
    | .b => decide (x < y)
    | .be => decide (x ≤ y)
    | .a => decide (y < x)
    | .ae => decide (y ≤ x)
    else none
  | _ => none

/-- An instruction that only computes; `none` is a fault. -/
def step1 (env : Env) (idx : Nat) (c : Cpu) : Ins → Option Cpu
  | .nop => some c
  | .mov d s => some (setReg c d (c.reg s))
  | .movi d x => some (setReg c d (.int x))
  | .load d b disp => (c.read (c.reg b) disp).map (setReg c d)
  | .store b disp s => c.write (c.reg b) disp (c.reg s)
  | .storei b disp x => c.write (c.reg b) disp (.int (signExt x))
  | .lea d b disp => (addBytes (c.reg b) disp).map (setReg c d)
  | .leaNext d => some (setReg c d (.code (idx + 1)))
  | .loadFn d =>
    match c.reg .rsi, c.reg d with
    | .fns, .int i => (env.entries[i.toNat]?).map fun a => setReg c d (.code a)
    | _, _ => none
  | .addi d n => (addBytes (c.reg d) n).map (setReg c d)
  | .subi d n => (addBytes (c.reg d) (-n)).map (setReg c d)
  | .add d s => (addWord (c.reg d) (c.reg s)).map (setReg c d)
  | .sub d s => (binop (· - ·) (c.reg d) (c.reg s)).map (setReg c d)
  | .addm b disp s => (c.read (c.reg b) disp).bind fun w => (binop (· + ·) w (c.reg s)).bind fun w => c.write (c.reg b) disp w
  | .subm b disp s => (c.read (c.reg b) disp).bind fun w => (binop (· - ·) w (c.reg s)).bind fun w => c.write (c.reg b) disp w
  | .imulm d b disp => (c.read (c.reg b) disp).bind fun w => (binop (· * ·) (c.reg d) w).map (setReg c d)
  | .div s =>
    match c.reg .rdx, c.reg .rax, c.reg s with
    | .int h, .int x, .int y => if h = 0 ∧ y ≠ 0 then some (setReg (setReg c .rax (.int (x / y))) .rdx (.int (x % y))) else none
    | _, _, _ => none
  | .zero d => some (setReg c d (.int 0))
  | .andi d x => (binop (· &&& ·) (c.reg d) (.int x)).map (setReg c d)
  | .shr1 d => (binop (· >>> ·) (c.reg d) (.int 1)).map (setReg c d)
  | .cmp a b => some { c with flags := some (c.reg a, c.reg b) }
  | .cmpi a x => some { c with flags := some (c.reg a, .int x) }
  | .cmpm b disp r => (c.read (c.reg b) disp).map fun w => { c with flags := some (w, c.reg r) }
  | .cmov k d s => (holds k c.flags).map fun b => if b then setReg c d (c.reg s) else c
  | _ => none

/-! ### Runtime functions -/

/-- How a call, or the code of an operation, ends. -/
inductive Out
  | next (c : Cpu)
  | goto (i : Nat) (c : Cpu)
  | done (c : Cpu)
  | fault
  | limit

/-- A value on the stack: what it is from its tag, `jit.rs:687-692`. -/
def slotVal (m : Int → Word) (p : Int) : Option Value :=
  match m (p - 1), m p with
  | .int t, .int x => some (if t = 0 then .int x else .ptr x.toNat)
  | _, _ => none

/-- The topmost values, the lowest first, `jit.rs:683-694`. -/
def slotVals (m : Int → Word) (p : Int) : Nat → Option (List Value)
  | 0 => some []
  | n + 1 => (slotVals m (p - 2) n).bind fun vs => (slotVal m p).map fun v => vs ++ [v]

/-- `stack_ptrs`, `jit.rs:174-184`: the pointers in `k` slots from slot `i` on. -/
def memPtrs (m : Int → Word) : (i k : Nat) → Option (List Nat)
  | _, 0 => some []
  | i, k + 1 =>
    match m (2 * i) with
    | .int t => if t = 1 then
        match m (2 * i + 1) with
        | .int x => (memPtrs m (i + 1) k).map (x.toNat :: ·)
        | _ => none
      else memPtrs m (i + 1) k
    | _ => none

/-- What the collector does to the slots it borrows. -/
def memSet : (m : Int → Word) → (i k : Nat) → List Nat → (Int → Word)
  | m, _, 0, _ => m
  | m, i, k + 1, as =>
    if m (2 * i) = .int 1 then
      match as with
      | a :: as => memSet (upd m (2 * i + 1) (.int (UInt64.ofNat a))) (i + 1) k as
      | [] => m
    else memSet m (i + 1) k as

/-- `maybe_gc`, `gc`, `jit.rs:165-205`; the heap may be elsewhere afterwards. -/
def gcCpu (c : Cpu) (p : Int) : Out :=
  match memPtrs c.mem 0 ((p + 1) / 2).toNat with
  | none => .fault
  | some ptrs =>
    match c.rt.maybeGc ptrs with
    | none => .limit
    | some r => .next { c with rt := r.1, mem := memSet c.mem 0 ((p + 1) / 2).toNat r.2, hgen := c.hgen + 1, stackPtr := .stk c.sgen p }

/-- `push_ptr` and `push_int`, `jit.rs:147-163`, onto a stack with top `p`. -/
def pushMem (m : Int → Word) (p : Int) (tag : UInt64) (x : UInt64) : Int → Word := upd (upd m (p + 1) (.int tag)) (p + 2) (.int x)

/-- Allocating the result of a string function and pushing it. -/
def pushBytes (c : Cpu) (p : Int) (bs : List UInt8) : Out :=
  match allocBytes c.rt.heap (bs.length ||| stringTag) bs with
  | none => .limit
  | some r => gcCpu { c with rt := { c.rt with heap := r.1 }, mem := pushMem c.mem p 1 (UInt64.ofNat r.2) } (p + 2)

/-- `string_len` is inline; the other intrinsics, `jit.rs:729-813`. -/
def callIntr (c : Cpu) (p : Int) : Intrinsic → Out
  | .stringConcat =>
    match c.mem (p - 2), c.mem p with
    | .int a1, .int a2 =>
      match hvStr c.rt.heap a2.toNat, hvStr c.rt.heap a1.toNat with
      | some s2, some s1 => pushBytes c (p - 4) (s1 ++ s2)
      | _, _ => .fault
    | _, _ => .fault
  | .stringCharAt =>
    match c.mem p, c.mem (p - 2) with
    | .int a, .int i =>
      if inHeap c.rt.heap a.toNat then
        if i.toNat < tagAt c.rt.heap.mem a.toNat % tagSize then
          match (objBytes c.rt.heap a.toNat).2[i.toNat]? with
          | some b => gcCpu { c with mem := pushMem c.mem (p - 4) 0 (UInt64.ofNat b.toNat) } (p - 2)
          | none => .fault
        else gcCpu { c with mem := pushMem c.mem (p - 4) 0 0 } (p - 2)
      else .fault
    | _, _ => .fault
  | .stringFromChar =>
    match c.mem p with
    | .int x => pushBytes c (p - 2) [UInt8.ofNat x.toNat]
    | _ => .fault
  | .intToString =>
    match c.mem p with
    | .int x => pushBytes c (p - 2) ((Names.decimal x.toNat).map fun ch => UInt8.ofNat ch.toNat)
    | _ => .fault
  | .stringSubstring =>
    match c.mem p, c.mem (p - 2), c.mem (p - 4) with
    | .int a, .int len, .int start =>
      match hvStr c.rt.heap a.toNat with
      | some s =>
        let s := if start.toNat ≤ s.length then s.drop start.toNat else []
        pushBytes c (p - 6) (if len.toNat ≤ s.length then s.take len.toNat else s)
      | none => .fault
    | _, _, _ => .fault
  | .stringLen => .fault

/-- `alloc_obj`, `jit.rs:679-710`.  An object of more than 64 fields is beyond the limits, as in `HeapVm`. -/
def allocObj (c : Cpu) (p : Int) (tag fields : UInt64) : Out :=
  match slotVals c.mem p fields.toNat with
  | none => .fault
  | some vals =>
    if vals.length ≤ 64 then
      match allocObject c.rt.heap tag.toNat vals with
      | none => .limit
      | some r =>
        let c := { c with rt := { c.rt with heap := r.1 } }
        if 0 < fields.toNat then
          let q := p - 2 * fields.toNat
          gcCpu { c with mem := pushMem c.mem q 1 (UInt64.ofNat r.2) } (q + 2)
        else gcCpu { c with mem := pushMem c.mem p 1 (UInt64.ofNat r.2) } (p + 2)
    else .limit

/-- `grow_stack`, `jit.rs:712-723`: the buffer may be elsewhere afterwards. -/
def growStack (env : Env) (c : Cpu) (p : Int) : Cpu :=
  let cap := env.newCap c.cap (max c.cap (env.reserve * 2))
  { c with sgen := c.sgen + 1, cap := cap, stackPtr := .stk (c.sgen + 1) p, stackCheck := .stk (c.sgen + 1) (cap / 2 * 2 - (env.reserve + 1) * 2) }

/-- After a call the volatile registers hold anything (Windows calling convention). -/
def clobber (env : Env) (c : Cpu) : Cpu :=
  { c with flags := none, reg := fun r => match r with
    | .rax | .rcx | .rdx | .r8 | .r9 | .r10 | .r11 => env.junk r
    | r => c.reg r }

def Out.map (f : Cpu → Cpu) : Out → Out
  | .next c => .next (f c)
  | .goto i c => .goto i (f c)
  | .done c => .done (f c)
  | .fault => .fault
  | .limit => .limit

/-- A call: the first argument, the state, is in rcx. -/
def callFn (env : Env) (c : Cpu) (f : Fn) : Out :=
  match c.reg .rcx, c.stackPtr with
  | .state, .stk g p =>
    if g = c.sgen then
      Out.map (clobber env) <| match f with
        | .allocObj => match c.reg .rdx, c.reg .r8 with
          | .int tag, .int fields => allocObj c p tag fields
          | _, _ => .fault
        | .growStack => .next (growStack env c p)
        | .intr i => callIntr c p i
    else .fault
  | _, _ => .fault

/-- Running the code of one operation.  With `some n` instructions are passed over up to the local label `n`, to which a jump goes. -/
def exec (env : Env) (idx : Nat) (pos : Nat → Option Nat) : List Ins → Option Nat → Cpu → Out
  | [], none, c => .next c
  | [], some _, _ => .fault
  | .lab n :: is, some m, c => exec env idx pos is (if n = m then none else some m) c
  | _ :: is, some m, c => exec env idx pos is (some m) c
  | .lab _ :: is, none, c => exec env idx pos is none c
  | .jcc k n :: is, none, c =>
    match holds k c.flags with
    | none => .fault
    | some b => exec env idx pos is (if b then some n else none) c
  | .jmp n :: is, none, c => exec env idx pos is (some n) c
  | .jmpL l :: _, none, c => match pos l with
    | some i => .goto i c
    | none => .fault
  | .jneL l :: is, none, c =>
    match holds .ne c.flags with
    | none => .fault
    | some b => if b then
        match pos l with
        | some i => .goto i c
        | none => .fault
      else exec env idx pos is none c
  | .jmpR r :: _, none, c => match c.reg r with
    | .code i => .goto i c
    | _ => .fault
  | .call f :: is, none, c => match callFn env c f with
    | .next c => exec env idx pos is none c
    | o => o
  | .ud2 :: _, none, _ => .fault
  | .leave :: _, none, c => .done c
  | i :: is, none, c => match step1 env idx c i with
    | some c => exec env idx pos is none c
    | none => .fault

/-! ### The code of each operation -/

/-- Saving the stack pointer before and loading the registers after a call that may collect, for example `jit.rs:521-531`. -/
def reload : List Ins := [.load .r12 .r13 0, .load .r14 .r13 8, .load .r15 .r13 16, .load .rdi .r13 24]

/-- The operators, `jit.rs:340-437`. -/
def asmArith : Op → List Ins
  | .add => [.load .r8 .r12 0, .subi .r12 16, .addm .r12 0 .r8]
  | .subtract => [.load .r8 .r12 0, .subi .r12 16, .subm .r12 0 .r8]
  | .multiply => [.load .r8 .r12 0, .subi .r12 16, .imulm .r8 .r12 0, .store .r12 0 .r8]
  | .divide => [.load .r8 .r12 0, .subi .r12 16, .cmpi .r8 0, .jcc .e 0, .zero .rdx, .load .rax .r12 0, .div .r8, .jmp 1, .lab 0, .zero .rax, .lab 1, .store .r12 0 .rax]
  | .modulo => [.load .r8 .r12 0, .subi .r12 16, .cmpi .r8 0, .jcc .e 0, .zero .rdx, .load .rax .r12 0, .div .r8, .store .r12 0 .rdx, .lab 0]
  | .less => cmpCode .b
  | .lessEq => cmpCode .be
  | .greater => cmpCode .a
  | .greaterEq => cmpCode .ae
  | .equal => cmpCode .e
  | .notEqual => cmpCode .ne
where
  cmpCode (k : Cond) : List Ins := [.mov .r9 .r15, .load .r8 .r12 0, .subi .r12 16, .cmpm .r12 0 .r8, .cmov k .r9 .r14, .storei .r12 (-8) 1, .store .r12 0 .r9]

/-- Pushing the fields of a closure, `jit.rs:507-516`; `n` fields from field `i` on. -/
def asmUpvalues : (i n : Nat) → List Ins
  | _, 0 => []
  | i, n + 1 => [.mov .r10 .r9, .andi .r10 1, .shr1 .r9, .addi .r12 16, .store .r12 (-8) .r10, .load .r10 .r8 (i * 8 + 24), .store .r12 0 .r10] ++ asmUpvalues (i + 1) n

/-- Putting the fields of an object in its place on the stack, `jit.rs:559-572`. -/
def asmBindings : Nat → List Ins
  | 0 => [.subi .r12 16]
  | n + 1 => [.mov .r10 .r9, .andi .r10 1, .shr1 .r9, .store .r12 (-8) .r10, .load .r10 .r8 24, .store .r12 0 .r10] ++ asmUpvalues 1 n

/-- The branches of a match, `jit.rs:552-577`. -/
def asmBranches : Nat → List (UInt64 × Nat × Nat) → List Ins
  | _, [] => [.ud2]
  | i, (tag, n, l) :: bs => [.movi .r11 tag, .cmp .r10 .r11, .jcc .ne i] ++ asmBindings n ++ [.jmpL l, .lab i] ++ asmBranches (i + 1) bs

/-- The code of one operation, `jit.rs:270-665`; `idx` is its number. -/
def asmOp (idx : Nat) : JOp → List Ins
  | .pushInt x => [.nop, .addi .r12 16, .storei .r12 (-8) 0] ++ if x.toNat < 2 ^ 32 then [.storei .r12 0 x.toUInt32] else [.movi .r8 x, .store .r12 0 .r8]
  | .pushBool b => [.nop, .addi .r12 16, .storei .r12 (-8) 1, .store .r12 0 (if b then .r14 else .r15)]
  | .const i => [.nop, .load .r8 .r13 40, .load .r8 .r8 (i * 8), .addi .r12 16, .storei .r12 (-8) 1, .store .r12 0 .r8]
  | .pick d => [.nop, .lea .r8 .r12 (-(d * 16)), .load .r9 .r8 (-8), .load .r8 .r8 0, .addi .r12 16, .store .r12 (-8) .r9, .store .r12 0 .r8]
  | .set d => [.nop, .load .r8 .r12 0, .load .r9 .r12 (-8), .store .r12 (-((d + 1) * 16)) .r8, .store .r12 (-((d + 1) * 16 + 8)) .r9, .subi .r12 16]
  | .popN n => .nop :: if 0 < n then [.subi .r12 (n * 16)] else []
  | .swapPop => [.nop, .load .r8 .r12 0, .load .r9 .r12 (-8), .subi .r12 16, .store .r12 0 .r8, .store .r12 (-8) .r9]
  | .arith o => .nop :: asmArith o
  | .jump l => [.nop, .jmpL l]
  | .jumpIfFalse l => [.nop, .load .r8 .r12 0, .subi .r12 16, .cmp .r8 .r14, .jneL l]
  | .ret params captures => [.nop, .load .r8 .r12 0, .load .r9 .r12 (-8), .subi .r12 ((captures + 1) * 16), .load .r10 .r12 0, .subi .r12 ((params + 1) * 16), .store .r12 0 .r8, .store .r12 (-8) .r9,
      .jmpR .r10]
  | .call => [.nop, .load .r8 .r12 0, .add .r8 .rdi, .load .r9 .r8 16, .addi .r12 16, .storei .r12 (-8) 0, .leaNext .r10, .store .r12 0 .r10, .andi .r9 0x7fffffff, .loadFn .r9, .jmpR .r9]
  | .enter k _ => [.nop, .cmp .r12 .rbp, .jcc .b 0, .store .r13 0 .r12, .mov .rcx .r13, .call .growStack, .load .r12 .r13 0, .load .rbp .r13 56, .lab 0] ++
      if 0 < k then [.load .r8 .r12 (-16), .add .r8 .rdi, .load .r9 .r8 8] ++ asmUpvalues 0 k else []
  | .construct tag n => [.nop, .store .r13 0 .r12, .mov .rcx .r13, .movi .rdx tag, .movi .r8 (UInt64.ofNat n), .call .allocObj] ++ reload
  | .branch table => [.nop, .load .r8 .r12 0, .add .r8 .rdi, .load .r9 .r8 8, .load .r10 .r8 16] ++ asmBranches 0 table
  | .trap _ => [.nop, .movi .r8 (UInt64.ofNat idx), .store .r13 48 .r8, .mov .rax .r12, .leave]
  | .intr .stringLen => [.nop, .load .r8 .r12 0, .add .r8 .rdi, .load .r8 .r8 16, .movi .r9 (UInt64.ofNat stringTag), .sub .r8 .r9, .storei .r12 (-8) 0, .store .r12 0 .r8]
  | .intr i => [.nop, .store .r13 0 .r12, .mov .rcx .r13, .call (.intr i)] ++ reload
  | .label _ => [.nop]
  | .exit => [.nop, .mov .rax .r12, .leave]

/-- Running at most `n` operations, from operation `i` on. -/
def jitRun (env : Env) (ops : List JOp) : Nat → Nat → Cpu → Option Out
  | 0, _, _ => none
  | n + 1, i, c =>
    match ops[i]? with
    | none => some .fault
    | some o =>
      match exec env i (labelPos · ops) (asmOp i o) none c with
      | .next c => jitRun env ops n (i + 1) c
      | .goto i c => jitRun env ops n i c
      | out => some out

/-! ### What the operations mean -/

/-- A value of the abstract machine: a number, an address in the heap, or the number of an operation to return to. -/
inductive JVal
  | int (x : UInt64)
  | ptr (a : UInt64)
  | ret (i : Nat)
deriving DecidableEq, Repr

/-- The abstract machine: the next operation, the stack (top first) and the heap with its roots. -/
structure JVM where
  ip : Nat
  stack : List JVal
  rt : Runtime

inductive JStep
  | next (s : JVM)
  | exit (s : JVM)
  | trap (msg : String)
  | stuck
  | limit

/-- The pointers, the lowest first. -/
def jPtrs : List JVal → List Nat
  | [] => []
  | .ptr a :: vs => a.toNat :: jPtrs vs
  | _ :: vs => jPtrs vs

/-- Pointers that moved, the lowest first. -/
def jSet : List JVal → List Nat → List JVal
  | .ptr _ :: vs, a :: as => .ptr (UInt64.ofNat a) :: jSet vs as
  | .int x :: vs, as => .int x :: jSet vs as
  | .ret i :: vs, as => .ret i :: jSet vs as
  | vs, _ => vs

/-- Collecting if necessary. -/
def jGc (ip : Nat) (st : List JVal) (rt : Runtime) : JStep :=
  match rt.maybeGc (jPtrs st.reverse) with
  | some r => .next ⟨ip, (jSet st.reverse r.2).reverse, r.1⟩
  | none => .limit

def jBool (rt : Runtime) (b : Bool) : JVal := .ptr (UInt64.ofNat (if b then rt.true_ else rt.false_))

/-- The operators. -/
def jArith (rt : Runtime) (o : Op) (a b : UInt64) : JVal :=
  match o with
  | .add => .int (a + b)
  | .subtract => .int (a - b)
  | .multiply => .int (a * b)
  | .divide => .int (if b = 0 then 0 else a / b)
  | .modulo => .int (if b = 0 then a else a % b)
  | .less => jBool rt (decide (a < b))
  | .lessEq => jBool rt (decide (a ≤ b))
  | .greater => jBool rt (decide (b < a))
  | .greaterEq => jBool rt (decide (b ≤ a))
  | .equal => jBool rt (decide (a = b))
  | .notEqual => jBool rt (!decide (a = b))

/-- A field of an object as a value. -/
def ofValue : Value → JVal
  | .int x => .int x
  | .ptr a => .ptr (UInt64.ofNat a)

/-- A value as a field. -/
def toValue : JVal → Option Value
  | .int x => some (.int x)
  | .ptr a => some (.ptr a.toNat)
  | .ret _ => none

/-- The topmost values, the lowest first. -/
def jTake : Nat → List JVal → Option (List Value)
  | 0, _ => some []
  | n + 1, v :: st => (jTake n st).bind fun vs => (toValue v).map fun v => vs ++ [v]
  | _ + 1, [] => none

/-- A new string on the stack. -/
def jBytes (ip : Nat) (st : List JVal) (rt : Runtime) (bs : List UInt8) : JStep :=
  match allocBytes rt.heap (bs.length ||| stringTag) bs with
  | some r => jGc ip (.ptr (UInt64.ofNat r.2) :: st) { rt with heap := r.1 }
  | none => .limit

/-- Intrinsics. -/
def jIntr (ip : Nat) (rt : Runtime) : Intrinsic → List JVal → JStep
  | .stringLen, .ptr p :: st =>
    match hvFields rt.heap p.toNat with
    | some o => if o.1 / tagSize = 1 then .next ⟨ip, .int (UInt64.ofNat (o.1 % tagSize)) :: st, rt⟩ else .stuck
    | none => .stuck
  | .stringCharAt, .ptr p :: .int i :: st =>
    if inHeap rt.heap p.toNat then
      if i.toNat < tagAt rt.heap.mem p.toNat % tagSize then
        match (objBytes rt.heap p.toNat).2[i.toNat]? with
        | some b => jGc ip (.int (UInt64.ofNat b.toNat) :: st) rt
        | none => .stuck
      else jGc ip (.int 0 :: st) rt
    else .stuck
  | .stringConcat, .ptr p2 :: .ptr p1 :: st =>
    match hvStr rt.heap p2.toNat, hvStr rt.heap p1.toNat with
    | some s2, some s1 => jBytes ip st rt (s1 ++ s2)
    | _, _ => .stuck
  | .stringFromChar, .int x :: st => jBytes ip st rt [UInt8.ofNat x.toNat]
  | .intToString, .int x :: st => jBytes ip st rt ((Names.decimal x.toNat).map fun c => UInt8.ofNat c.toNat)
  | .stringSubstring, .ptr p :: .int len :: .int start :: st =>
    match hvStr rt.heap p.toNat with
    | some s =>
      let s := if start.toNat ≤ s.length then s.drop start.toNat else []
      jBytes ip st rt (if len.toNat ≤ s.length then s.take len.toNat else s)
    | none => .stuck
  | _, _ => .stuck

/-- The first branch with a tag. -/
def findBranch (tag : Nat) : List (UInt64 × Nat × Nat) → Option (Nat × Nat)
  | [] => none
  | (t, n, l) :: bs => if t.toNat = tag then some (n, l) else findBranch tag bs

/-- One operation.  Going to a label that is not there, and operands of another kind, are `stuck`; an object must have the number of fields that the operation expects. -/
def jvStep (entries : List Nat) (ops : List JOp) (s : JVM) : JStep :=
  match ops[s.ip]? with
  | none => .stuck
  | some o =>
    let go (st : List JVal) : JStep := .next ⟨s.ip + 1, st, s.rt⟩
    let goto (l : Nat) (st : List JVal) : JStep := match labelPos l ops with
      | some i => .next ⟨i, st, s.rt⟩
      | none => .stuck
    match o, s.stack with
    | .pushInt x, st => go (.int x :: st)
    | .pushBool b, st => go (jBool s.rt b :: st)
    | .const i, st => match s.rt.consts[i]? with
      | some a => go (.ptr (UInt64.ofNat a) :: st)
      | none => .stuck
    | .pick d, st => match st[d]? with
      | some v => go (v :: st)
      | none => .stuck
    | .set d, v :: st => if d < st.length then go (st.set d v) else .stuck
    | .popN n, st => if n ≤ st.length then go (st.drop n) else .stuck
    | .swapPop, v :: _ :: st => go (v :: st)
    | .arith o, .int b :: .int a :: st => go (jArith s.rt o a b :: st)
    | .jump l, st => goto l st
    | .jumpIfFalse l, .ptr p :: st => if p = UInt64.ofNat s.rt.true_ then go st else goto l st
    | .ret params captures, v :: st => match st.drop captures with
      | .ret r :: _ :: st => if params ≤ st.length then .next ⟨r, v :: st.drop params, s.rt⟩ else .stuck
      | _ => .stuck
    | .call, .ptr p :: st => match hvFields s.rt.heap p.toNat with
      | some o => match entries[o.1 % tagSize]? with
        | some i => .next ⟨i, .ret (s.ip + 1) :: .ptr p :: st, s.rt⟩
        | none => .stuck
      | none => .stuck
    | .enter 0 _, st => go st
    | .enter k _, r :: .ptr p :: st => match hvFields s.rt.heap p.toNat with
      | some o => if o.2.length = k then go ((o.2.map ofValue).reverse ++ (r :: .ptr p :: st)) else .stuck
      | none => .stuck
    | .construct tag n, st =>
      match jTake n st with
      | some vals => if n ≤ 64 then
          match allocObject s.rt.heap tag.toNat vals with
          | some r => jGc (s.ip + 1) (.ptr (UInt64.ofNat r.2) :: st.drop n) { s.rt with heap := r.1 }
          | none => .limit
        else .limit
      | none => .stuck
    | .branch table, .ptr p :: st => match hvFields s.rt.heap p.toNat with
      | some o => match findBranch o.1 table with
        | some (n, l) => if o.2.length = n then goto l ((o.2.map ofValue).reverse ++ st) else .stuck
        | none => .stuck
      | none => .stuck
    | .trap m, _ => .trap m
    | .intr i, st => jIntr (s.ip + 1) s.rt i st
    | .label _, st => go st
    | .exit, _ => .exit s
    | _, _ => .stuck

/-! ### Whole runs -/

/-- The loop, for at most `n` rounds. -/
def jvRun (entries : List Nat) (ops : List JOp) : Nat → JVM → HOut JVM
  | 0, _ => .res .timeout
  | n + 1, s =>
    match jvStep entries ops s with
    | .next s => jvRun entries ops n s
    | .exit s => .res (.ok s)
    | .trap m => .res (.trap m)
    | .stuck => .res .panic
    | .limit => .limit

/-- `assemble`: operations, where functions start, constants and constructors. -/
structure Asm where
  ops : List JOp
  entries : List Nat
  link : LinkSt

def assemble (bops : List BOp) : Option Asm :=
  (resolveOps (fnLabels bops []) bops {}).bind fun r =>
    (allSome (labelPos · r.1) (fnLabels bops [])).map fun es => ⟨r.1, es, r.2⟩

/-- The machine when the first operation starts, `exec_in_heap`, `jit.rs:27-50`, and the prologue, `:238-246`; `m` is what the buffer contained. -/
def startCpu (junk : Reg → Word) (m : Int → Word) (rt : Runtime) : Cpu where
  reg := fun r => match r with
    | .r12 => .stk 0 (-1)
    | .r13 => .state
    | .r14 => .int (UInt64.ofNat rt.true_)
    | .r15 => .int (UInt64.ofNat rt.false_)
    | .rdi => .heap 0 0
    | .rsi => .fns
    | .rbp => .stk 0 (-1)
    | r => junk r
  flags := none
  mem := m
  sgen := 0
  hgen := 0
  rt := rt
  stackPtr := .stk 0 (-1)
  trap := 0xffffffffffffffff
  stackCheck := .stk 0 (-1)
  cap := 32

/-- Decoding the values at the top, `jit.rs:69-79`. -/
def decodeAll (rt : Runtime) (ctors : List Name) (vals : Option (List Value)) : Res (List Obs) :=
  match vals.bind (allSome (hvDecode rt ctors (rt.heap.len + 1))) with
  | some os => .ok os
  | none => .panic

/-- The result, `jit.rs:51-88`; a fault is a panic here. -/
def jitResult (a : Asm) (pick : Nat) : Option Out → HOut (List Obs)
  | none => .res .timeout
  | some (.done c) =>
    if c.trap = 0xffffffffffffffff then
      match c.reg .rax with
      | .stk g p => if g = c.sgen ∧ 2 * (pick : Int) ≤ p + 1 then .res (decodeAll c.rt a.link.ctors (slotVals c.mem p pick)) else .res .panic
      | _ => .res .panic
    else match a.ops[c.trap.toNat]? with
      | some (.trap m) => .res (.trap m)
      | _ => .res .panic
  | some .limit => .limit
  | some _ => .res .panic

/-- `jit::eval`, `jit.rs:8-89`, with at most `n` operations run. -/
def jitEval (env : Env) (m : Int → Word) (n : Nat) (p : Program) (es : List Expr) : HOut (List Obs) :=
  match compileProgram p es with
  | none => .res .panic
  | some bops =>
    match assemble bops with
    | none => .res .panic
    | some a =>
      match Runtime.start a.link.consts with
      | none => .limit
      | some rt => jitResult a es.length (jitRun { env with entries := a.entries } a.ops n 0 (startCpu env.junk m rt))

/-- What the operations mean for a whole program. -/
def jvEval (n : Nat) (p : Program) (es : List Expr) : HOut (List Obs) :=
  match compileProgram p es with
  | none => .res .panic
  | some bops =>
    match assemble bops with
    | none => .res .panic
    | some a =>
      match Runtime.start a.link.consts with
      | none => .limit
      | some rt =>
        match jvRun a.entries a.ops n ⟨0, [], rt⟩ with
        | .limit => .limit
        | .res r => .res (r.bind fun s => decodeAll s.rt a.link.ctors (jTake es.length s.stack))

end Tic.Jit
