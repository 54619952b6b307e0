/-
Machine code at work, and where it does not do what it should.
-/
import Verif.JitRun
import Verif.PropHeapVm

namespace Tic.Jit
open Tic.Core (Op Intrinsic BOp LinkSt Name Program Expr Obs Res HOut compileProgram allSome hvDecode tagSize objTag fnTag hvFields hvStr inHeap exLam exLamQ exCells)
open Tic.Heap (Heap Value Runtime)

def fitsB : JOp → Bool
  | .pushInt x => decide (x.toNat < 2 ^ 31 ∨ 2 ^ 32 ≤ x.toNat)
  | .construct _ n => decide (n < 2 ^ 64)
  | _ => true

theorem fitsB_ok {o : JOp} (h : fitsB o = true) : Fits o := by
  cases o with
  | pushInt x => exact of_decide_eq_true (p := x.toNat < 2 ^ 31 ∨ 2 ^ 32 ≤ x.toNat) h
  | construct t n => exact of_decide_eq_true (p := n < 2 ^ 64) h
  | _ => trivial

/-- The conditions of C58 for a program. -/
def fitsProgram (p : Program) (es : List Expr) : Bool :=
  match (compileProgram p es).bind assemble with
  | some a => decide (a.entries.length ≤ 2 ^ 31) && decide (a.ops.length < 2 ^ 64) && a.ops.all fitsB
  | none => true

/-- **C58.**  `jit::eval` gives what the operations mean: for every program within the conditions, whatever the volatile registers, the stack buffer and the other registers hold, and however the buffer grows,
unless the operations themselves get stuck, the machine code gives the same values, traps with the same message, or reaches the same limit of the heap, and it never faults. -/
theorem jit_same (env : Env) (m : Int → Word) (n : Nat) (p : Program) (es : List Expr) (hf : fitsProgram p es = true) (h : jvEval n p es ≠ .res .panic) : jitEval env m n p es = jvEval n p es := by
  unfold jitEval jvEval at *
  cases hc : compileProgram p es with
  | none => rfl
  | some bops =>
    rw [hc] at h
    dsimp only at h ⊢
    cases ha : assemble bops with
    | none => rfl
    | some a =>
      rw [ha] at h
      dsimp only at h ⊢
      cases hr : Runtime.start a.link.consts with
      | none => rfl
      | some rt =>
        rw [hr] at h
        dsimp only at h ⊢
        simp only [fitsProgram, hc, ha, Option.bind_some, Bool.and_eq_true, decide_eq_true_eq, List.all_eq_true] at hf
        exact jit_operations env m n es.length a rt hf.1.1 (fun o ho => fitsB_ok (hf.2 o ho)) hf.1.2 h

/-- Nothing is known about volatile registers, and the buffer doubles. -/
def exEnv : Env := ⟨fun _ => .code 12345, fun c k => c + k, 40, []⟩

def exMem : Int → Word := fun _ => .int 0xdeadbeef

def isInt (x : UInt64) : HOut (List Obs) → Bool
  | .res (.ok [.int y]) => y == x
  | _ => false

theorem isInt_ok {x : UInt64} {r : HOut (List Obs)} (h : isInt x r = true) : r = .res (.ok [.int x]) := by
  unfold isInt at h
  split at h
  · rw [eq_of_beq h]
  · cases h

def isComp (c : Nat) (x : UInt64) : HOut (List Obs) → Bool
  | .res (.ok [.comp c' [.int y, .fn]]) => c' == c && y == x
  | _ => false

theorem isComp_ok {c : Nat} {x : UInt64} {r : HOut (List Obs)} (h : isComp c x r = true) : r = .res (.ok [.comp c [.int x, .fn]]) := by
  unfold isComp at h
  split at h
  · rw [Bool.and_eq_true] at h; rw [eq_of_beq h.1, eq_of_beq h.2]
  · cases h

/-- Closures, calls and objects: a function of two arguments with captured variables, and its result in an object. -/
example : fitsProgram exLam [exLamQ] = true ∧ jvEval 500 exLam [exLamQ] = .res (.ok [.comp 7 [.int 126, .fn]]) ∧ jitEval exEnv exMem 500 exLam [exLamQ] = .res (.ok [.comp 7 [.int 126, .fn]]) := by
  have h1 : fitsProgram exLam [exLamQ] = true := by decide +kernel
  have h2 : jvEval 500 exLam [exLamQ] = .res (.ok [.comp 7 [.int 126, .fn]]) := isComp_ok (by decide +kernel)
  refine ⟨h1, h2, ?_⟩
  rw [jit_same _ _ _ _ _ h1 (by rw [h2]; intro e; cases e), h2]

/-- **Finding.**  An integer literal from 2^31 to 2^32 - 1 is put on the stack with 32 bits that are sign-extended: 3000000000 becomes 18446744072414584320. -/
theorem pushInt_wrong : jvEval 20 ⟨[], []⟩ [.int 3000000000] = .res (.ok [.int 3000000000]) ∧ jitEval exEnv exMem 20 ⟨[], []⟩ [.int 3000000000] = .res (.ok [.int 18446744072414584320]) := by
  exact ⟨isInt_ok (by decide +kernel), isInt_ok (by decide +kernel)⟩

def isOk : HOut (List Obs) → Bool
  | .res (.ok _) => true
  | _ => false

/-- The collector moves the heap during this run. -/
example : ∃ os, jvEval 200 ⟨[], []⟩ [exCells] = .res (.ok os) ∧ jitEval exEnv exMem 200 ⟨[], []⟩ [exCells] = .res (.ok os) := by
  have h1 : fitsProgram ⟨[], []⟩ [exCells] = true := by decide +kernel
  have h2 : isOk (jvEval 200 ⟨[], []⟩ [exCells]) = true := by decide +kernel
  unfold isOk at h2
  split at h2
  · rename_i os e
    exact ⟨os, e, by rw [jit_same _ _ _ _ _ h1 (by rw [e]; intro e; cases e), e]⟩
  · cases h2

end Tic.Jit
