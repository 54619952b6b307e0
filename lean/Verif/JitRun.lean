/-
C58.  Running the machine code is running the operations.
-/
import Verif.JitGc

namespace Tic.Jit
open Tic.Core (Op Intrinsic BOp LinkSt Name Program Expr Obs Res HOut compileProgram allSome hvDecode tagSize objTag fnTag hvFields hvStr inHeap)
open Tic.Heap (Heap Value Runtime)

/-- What the machine code does when the operations do this. -/
def RunMatches (ops : List JOp) (out : Option Out) : HOut JVM → Prop
  | .res (.ok s) => ∃ c p, out = some (.done c) ∧ c.reg .rax = .stk c.sgen p ∧ Holds c.mem s.stack p ∧ c.rt = s.rt ∧ c.trap = 0xffffffffffffffff
  | .res (.trap m) => ∃ c, out = some (.done c) ∧ ops[c.trap.toNat]? = some (.trap m) ∧ c.trap ≠ 0xffffffffffffffff
  | .res .timeout => out = none
  | .res .panic => True
  | .limit => out = some .limit

theorem jGc_trap {ip : Nat} {st : List JVal} {rt : Runtime} {m : String} : jGc ip st rt ≠ .trap m := by
  unfold jGc; split <;> simp

theorem jBytes_trap {ip : Nat} {st : List JVal} {rt : Runtime} {bs : List UInt8} {m : String} : jBytes ip st rt bs ≠ .trap m := by
  unfold jBytes; split
  · exact jGc_trap
  · simp

theorem jIntr_trap {ip : Nat} {rt : Runtime} {k : Intrinsic} {st : List JVal} {m : String} : jIntr ip rt k st ≠ .trap m := by
  unfold jIntr
  split
  all_goals (repeat' split)
  all_goals first | exact jGc_trap | exact jBytes_trap | simp

theorem jvStep_trap {entries : List Nat} {ops : List JOp} {s : JVM} {m : String} (h : jvStep entries ops s = .trap m) : ops[s.ip]? = some (.trap m) := by
  unfold jvStep at h
  cases ho : ops[s.ip]? with
  | none => simp [ho] at h
  | some o =>
    simp only [ho] at h
    split at h
    all_goals (repeat' split at h)
    all_goals first | (cases h; rfl) | exact absurd h jGc_trap | exact absurd h jIntr_trap | cases h

theorem run_ok {env : Env} {ops : List JOp} (hlen : env.entries.length ≤ 2 ^ 31) (hfit : ∀ o ∈ ops, Fits o) (hops : ops.length < 2 ^ 64) : ∀ (n : Nat) {s : JVM} {c : Cpu} {p : Int},
    Rel c s.stack p → c.rt = s.rt → RunMatches ops (jitRun env ops n s.ip c) (jvRun env.entries ops n s)
  | 0, _, _, _, _, _ => rfl
  | n + 1, s, c, p, h, hrt => by
    rw [jvRun, jitRun]
    cases ho : ops[s.ip]? with
    | none => simp only [jvStep, ho]; trivial
    | some o =>
      have hm := op_ok (env := env) h hrt ho hlen (hfit o (List.mem_of_getElem? ho))
      dsimp only
      cases hj : jvStep env.entries ops s with
      | next s' =>
        rw [hj] at hm
        obtain ⟨c', p', ho' | ⟨ho', hip⟩, hr, ht⟩ := hm
        · rw [ho']; exact run_ok hlen hfit hops n hr ht
        · rw [ho']; dsimp only; rw [← hip]; exact run_ok hlen hfit hops n hr ht
      | exit s' =>
        rw [hj] at hm
        obtain ⟨c', p', ho', hr⟩ := hm
        rw [ho']; exact ⟨c', p', rfl, hr⟩
      | trap m =>
        rw [hj] at hm
        obtain ⟨c', ho', hr⟩ := hm
        rw [ho']
        have hlt : s.ip < 2 ^ 64 - 1 := by have := (List.getElem?_eq_some_iff.1 ho).1; omega
        have e : c'.trap.toNat = s.ip := by rw [hr, UInt64.toNat_ofNat']; omega
        refine ⟨c', rfl, ?_, ?_⟩
        · rw [e]; exact jvStep_trap hj
        · intro e'; rw [e'] at e; have : s.ip = 2 ^ 64 - 1 := e.symm; omega
      | stuck => trivial
      | limit => rw [hj] at hm; rw [hm]; rfl

/-- The machine at the start. -/
theorem start_rel (junk : Reg → Word) (m : Int → Word) (rt : Runtime) : Rel (startCpu junk m rt) [] (-1) :=
  ⟨rfl, rfl, rfl, rfl, rfl, rfl, rfl, ⟨-1, rfl⟩, rfl⟩

/-- **C58, part 1.**  Assembled operations: whatever is in volatile registers after calls (`env.junk`), in the stack buffer and in other registers at the start, however the stack buffer grows and moves, as long as
the operations have a meaning, the machine code does not fault, and ends with the same values, the same trap or the same limit of the heap, in the same number of operations. -/
theorem jit_operations (env : Env) (m : Int → Word) (n pick : Nat) (a : Asm) (rt : Runtime) (hlen : a.entries.length ≤ 2 ^ 31) (hfit : ∀ o ∈ a.ops, Fits o) (hops : a.ops.length < 2 ^ 64) :
    let r := match jvRun a.entries a.ops n ⟨0, [], rt⟩ with
      | .limit => .limit
      | .res r => .res (r.bind fun s => decodeAll s.rt a.link.ctors (jTake pick s.stack))
    r ≠ .res .panic → jitResult a pick (jitRun { env with entries := a.entries } a.ops n 0 (startCpu env.junk m rt)) = r := by
  intro r hr
  have h := run_ok (env := { env with entries := a.entries }) hlen hfit hops n (s := ⟨0, [], rt⟩) (start_rel env.junk m rt) rfl
  dsimp only at h
  generalize jitRun { env with entries := a.entries } a.ops n 0 (startCpu env.junk m rt) = out at h ⊢
  revert hr
  show r ≠ _ → _
  have er : r = match jvRun a.entries a.ops n ⟨0, [], rt⟩ with
      | .limit => .limit
      | .res r => .res (r.bind fun s => decodeAll s.rt a.link.ctors (jTake pick s.stack)) := rfl
  generalize r = r at er ⊢
  subst er
  cases hv : jvRun a.entries a.ops n ⟨0, [], rt⟩ with
  | limit => rw [hv] at h; rw [show out = some .limit from h]; intro _; rfl
  | res v =>
    rw [hv] at h
    cases v with
    | ok s =>
      obtain ⟨c, p, rfl, h1, h2, h3, h4⟩ := h
      intro hr
      simp only [Res.bind] at hr ⊢
      cases ht : jTake pick s.stack with
      | none => simp [ht, decodeAll] at hr
      | some vals =>
        obtain ⟨q1, q2, q3⟩ := slotVals_ok h2 ht
        have hl := h2.len
        have e : 2 * (pick : Int) ≤ p + 1 := by omega
        simp only [jitResult, h4, h1, q1, h3, if_true, true_and, e]
    | trap t =>
      obtain ⟨c, rfl, h1, h2⟩ := h
      intro _
      simp [jitResult, h2, h1, Res.bind]
    | timeout => rw [show out = none from h]; intro _; rfl
    | panic => intro hr; exact absurd rfl hr

end Tic.Jit
