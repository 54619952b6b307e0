import Verif.Heap
/-
The allocation policy of the bytecode interpreter (`ticc-eval/src/bytecode.rs`):
which heap operations a program run performs, and in which order.
-/
namespace Tic.Heap

/-- `STRING_TAG`, `bytecode.rs:440`. -/
def stringTag : Nat := 2 ^ 48

/-- Linking of one `PushString` (`bytecode.rs:461-471`): grow if there are fewer
than `len + 256` free bytes, then allocate the constant.  `as u32` truncates. -/
def linkConst (h : Heap) (consts : List Nat) (s : List UInt8) : Option (Heap × List Nat) :=
  let need := s.length + 256
  let hc := if h.freeSpace < need then collectAndGrow h consts (need % 2 ^ 32) else some (h, consts)
  hc.bind fun (h, consts) =>
    (allocBytes h (s.length ||| stringTag) s).map fun (h, a) => (h, consts ++ [a])

/-- All string constants of a program, in program order (`bytecode.rs:457-505`). -/
def linkConsts (h : Heap) (consts : List Nat) : List (List UInt8) → Option (Heap × List Nat)
  | [] => some (h, consts)
  | s :: ss => (linkConst h consts s).bind fun (h, consts) => linkConsts h consts ss

/-- The interpreter's heap, its constants and booleans (`struct Runtime`, `bytecode.rs:5-12`). -/
structure Runtime where
  heap : Heap
  consts : List Nat
  true_ : Nat
  false_ : Nat

/-- Start of `eval`, `bytecode.rs:76-93`. -/
def Runtime.start (consts : List (List UInt8)) : Option Runtime :=
  (linkConsts Heap.new [] consts).bind fun (h, cs) =>
    (allocObject h 0 []).bind fun (h, f) =>
      (allocObject h 1 []).map fun (h, t) => { heap := h, consts := cs, true_ := t, false_ := f }

/-- `gc`, `bytecode.rs:383-389`; `stack` are the pointers on the stack.  The
roots are updated in place. -/
def Runtime.gc (rt : Runtime) (stack : List Nat) : Option (Runtime × List Nat) :=
  (collect rt.heap (stack ++ rt.consts ++ [rt.true_] ++ [rt.false_])).map fun (h, roots) =>
    let rest := roots.drop stack.length
    ({ heap := h, consts := rest.take rt.consts.length,
       true_ := rest.getD rt.consts.length 0, false_ := rest.getD (rt.consts.length + 1) 0 },
     roots.take stack.length)

/-- `maybe_gc`, `bytecode.rs:377-381`. -/
def Runtime.maybeGc (rt : Runtime) (stack : List Nat) : Option (Runtime × List Nat) :=
  if rt.heap.allocated > rt.heap.capacity / 2 then rt.gc stack else some (rt, stack)

end Tic.Heap
