/-
The machine code of each operation does what the operation means.
-/
import Verif.Jit

namespace Tic.Jit
open Tic.Core (Op Intrinsic BOp LinkSt Name tagSize objTag fnTag hvFields hvStr inHeap)
open Tic.Heap (Heap Value Runtime allocObject allocBytes objFields objBytes readLE tagAt stringTag)

/-- The two words of a value on the stack: its tag, `INT_STACK_TAG` or `PTR_STACK_TAG`, and itself; a code address counts as a number. -/
def tagW : JVal → Word
  | .ptr _ => .int 1
  | _ => .int 0
def valW : JVal → Word
  | .int x => .int x
  | .ptr a => .int a
  | .ret i => .code i

/-- The stack buffer has these values, the first at the top, where `p` is the word the stack pointer points to. -/
def Holds (m : Int → Word) : List JVal → Int → Prop
  | [], p => p = -1
  | v :: st, p => m (p - 1) = tagW v ∧ m p = valW v ∧ Holds m st (p - 2)

/-- The machine between two operations. -/
structure Rel (c : Cpu) (st : List JVal) (p : Int) : Prop where
  sp : c.reg .r12 = .stk c.sgen p
  mem : Holds c.mem st p
  state : c.reg .r13 = .state
  tru : c.reg .r14 = .int (UInt64.ofNat c.rt.true_)
  fls : c.reg .r15 = .int (UInt64.ofNat c.rt.false_)
  base : c.reg .rdi = .heap c.hgen 0
  fns : c.reg .rsi = .fns
  chk : ∃ w, c.reg .rbp = .stk c.sgen w
  trap : c.trap = 0xffffffffffffffff

/-- The machine after the code of operation `i` and what the operation means. -/
def Matches (i : Nat) (out : Out) : JStep → Prop
  | .next s => ∃ c p, (out = .goto s.ip c ∨ (out = .next c ∧ s.ip = i + 1)) ∧ Rel c s.stack p ∧ c.rt = s.rt
  | .exit s => ∃ c p, out = .done c ∧ c.reg .rax = .stk c.sgen p ∧ Holds c.mem s.stack p ∧ c.rt = s.rt ∧ c.trap = 0xffffffffffffffff
  | .trap _ => ∃ c, out = .done c ∧ c.trap = UInt64.ofNat i
  | .stuck => True
  | .limit => out = .limit

/-! ### The stack buffer -/

theorem upd_same (m : Int → Word) (i : Int) (w : Word) : upd m i w i = w := if_pos rfl
theorem upd_other {m : Int → Word} {i j : Int} {w : Word} (h : j ≠ i) : upd m i w j = m j := if_neg h

theorem Holds.upd {m : Int → Word} {j : Int} {w : Word} : ∀ {st : List JVal} {p : Int}, Holds m st p → p < j → Holds (upd m j w) st p
  | [], _, h, _ => h
  | v :: st, p, ⟨h1, h2, h3⟩, hj => ⟨by rw [upd_other (by omega), h1], by rw [upd_other (by omega), h2], h3.upd (by omega)⟩

theorem Holds.congr {m m' : Int → Word} : ∀ {st : List JVal} {p : Int}, Holds m st p → (∀ j ≤ p, m' j = m j) → Holds m' st p
  | [], _, h, _ => h
  | v :: st, p, ⟨h1, h2, h3⟩, hj => ⟨by rw [hj _ (by omega), h1], by rw [hj _ (by omega), h2], h3.congr fun j h => hj j (by omega)⟩

theorem Holds.len {m : Int → Word} : ∀ {st : List JVal} {p : Int}, Holds m st p → p = 2 * st.length - 1
  | [], _, h => by rw [Holds] at h; simp; exact h
  | v :: st, p, ⟨_, _, h3⟩ => by have := h3.len; simp only [List.length_cons]; omega

/-- Pushing. -/
theorem Holds.push {m : Int → Word} {st : List JVal} {p q r : Int} {v : JVal} {t w : Word} (h : Holds m st p) (hq : q = p + 1) (hr : r = p + 2) (ht : t = tagW v) (hw : w = valW v) :
    Holds (Jit.upd (Jit.upd m q t) r w) (v :: st) r := by
  subst hq hr ht hw
  refine ⟨?_, upd_same .., ?_⟩
  · rw [upd_other (by omega), show p + 2 - 1 = p + 1 by omega, upd_same]
  · rw [show p + 2 - 2 = p by omega]
    exact (h.upd (by omega)).upd (by omega)

theorem Holds.push' {m : Int → Word} {st : List JVal} {p q r : Int} {v : JVal} {t w : Word} (h : Holds m st p) (hq : q = p + 1) (hr : r = p + 2) (ht : t = tagW v) (hw : w = valW v) :
    Holds (Jit.upd (Jit.upd m r w) q t) (v :: st) r := by
  subst hq hr ht hw
  refine ⟨?_, ?_, ?_⟩
  · rw [show p + 2 - 1 = p + 1 by omega, upd_same]
  · rw [upd_other (by omega), upd_same]
  · rw [show p + 2 - 2 = p by omega]
    exact (h.upd (by omega)).upd (by omega)

theorem Holds.get {m : Int → Word} : ∀ {st : List JVal} {p : Int} {d : Nat} {v : JVal}, Holds m st p → st[d]? = some v → m (p - 2 * d - 1) = tagW v ∧ m (p - 2 * d) = valW v
  | _ :: _, p, 0, v, ⟨h1, h2, _⟩, e => by cases e; simp only [Int.ofNat_zero, Int.mul_zero, Int.sub_zero] at *; exact ⟨h1, h2⟩
  | _ :: st, p, d + 1, v, ⟨_, _, h3⟩, e => by
    have := h3.get (d := d) (v := v) (by simpa using e)
    rw [show p - 2 * ((d + 1 : Nat) : Int) - 1 = p - 2 - 2 * (d : Int) - 1 by omega, show p - 2 * ((d + 1 : Nat) : Int) = p - 2 - 2 * (d : Int) by omega]
    exact this

theorem Holds.drop {m : Int → Word} : ∀ {st : List JVal} {p : Int} {n : Nat}, Holds m st p → n ≤ st.length → Holds m (st.drop n) (p - 2 * n)
  | st, p, 0, h, _ => by simpa using h
  | v :: st, p, n + 1, ⟨_, _, h3⟩, hn => by
    have := h3.drop (n := n) (by simpa using hn)
    rw [List.drop_succ_cons, show p - 2 * ((n + 1 : Nat) : Int) = p - 2 - 2 * (n : Int) by omega]
    exact this

theorem Holds.set {m : Int → Word} {v : JVal} : ∀ {st : List JVal} {p : Int} {d : Nat}, Holds m st p → d < st.length →
    Holds (Jit.upd (Jit.upd m (p - 2 * d) (valW v)) (p - 2 * d - 1) (tagW v)) (st.set d v) p
  | w :: st, p, 0, ⟨_, _, h3⟩, _ => by
    simp only [Int.ofNat_zero, Int.mul_zero, Int.sub_zero, List.set_cons_zero]
    refine ⟨upd_same .., ?_, (h3.upd (by omega)).upd (by omega)⟩
    rw [upd_other (by omega), upd_same]
  | w :: st, p, d + 1, ⟨h1, h2, h3⟩, hd => by
    have := h3.set (v := v) (d := d) (by simpa using hd)
    rw [List.set_cons_succ, show p - 2 * ((d + 1 : Nat) : Int) - 1 = p - 2 - 2 * (d : Int) - 1 by omega, show p - 2 * ((d + 1 : Nat) : Int) = p - 2 - 2 * (d : Int) by omega]
    refine ⟨?_, ?_, this⟩
    · rw [upd_other (by omega), upd_other (by omega), h1]
    · rw [upd_other (by omega), upd_other (by omega), h2]

/-! ### Simple operations -/

section
variable {env : Env} {i : Nat} {pos : Nat → Option Nat} {c : Cpu} {st : List JVal} {p : Int}

/-- The registers that keep their meaning are as before. -/
theorem Rel.next {c' : Cpu} {st' : List JVal} {p' : Int} (h : Rel c st p) (hsp : c'.reg .r12 = .stk c.sgen p') (hm : Holds c'.mem st' p')
    (hr : c'.reg .r13 = c.reg .r13 ∧ c'.reg .r14 = c.reg .r14 ∧ c'.reg .r15 = c.reg .r15 ∧ c'.reg .rdi = c.reg .rdi ∧ c'.reg .rsi = c.reg .rsi ∧ c'.reg .rbp = c.reg .rbp)
    (hc : c'.sgen = c.sgen ∧ c'.hgen = c.hgen ∧ c'.rt = c.rt ∧ c'.trap = c.trap) : Rel c' st' p' := by
  obtain ⟨a1, a2, a3, a4, a5, a6⟩ := hr
  obtain ⟨b1, b2, b3, b4⟩ := hc
  obtain ⟨w, hw⟩ := h.chk
  exact ⟨by rw [hsp, b1], hm, by rw [a1, h.state], by rw [a2, h.tru, b3], by rw [a3, h.fls, b3], by rw [a4, h.base, b2], by rw [a5, h.fns], ⟨w, by rw [a6, hw, b1]⟩, by rw [b4, h.trap]⟩

theorem match_next {c' : Cpu} {st' : List JVal} {p' : Int} (h : Rel c st p) (hsp : c'.reg .r12 = .stk c.sgen p') (hm : Holds c'.mem st' p')
    (hr : c'.reg .r13 = c.reg .r13 ∧ c'.reg .r14 = c.reg .r14 ∧ c'.reg .r15 = c.reg .r15 ∧ c'.reg .rdi = c.reg .rdi ∧ c'.reg .rsi = c.reg .rsi ∧ c'.reg .rbp = c.reg .rbp)
    (hc : c'.sgen = c.sgen ∧ c'.hgen = c.hgen ∧ c'.rt = c.rt ∧ c'.trap = c.trap) : Matches i (.next c') (.next ⟨i + 1, st', c.rt⟩) :=
  ⟨c', p', .inr ⟨rfl, rfl⟩, h.next hsp hm hr hc, hc.2.2.1⟩

theorem match_goto {c' : Cpu} {st' : List JVal} {p' : Int} {j : Nat} (h : Rel c st p) (hsp : c'.reg .r12 = .stk c.sgen p') (hm : Holds c'.mem st' p')
    (hr : c'.reg .r13 = c.reg .r13 ∧ c'.reg .r14 = c.reg .r14 ∧ c'.reg .r15 = c.reg .r15 ∧ c'.reg .rdi = c.reg .rdi ∧ c'.reg .rsi = c.reg .rsi ∧ c'.reg .rbp = c.reg .rbp)
    (hc : c'.sgen = c.sgen ∧ c'.hgen = c.hgen ∧ c'.rt = c.rt ∧ c'.trap = c.trap) : Matches i (.goto j c') (.next ⟨j, st', c.rt⟩) :=
  ⟨c', p', .inl rfl, h.next hsp hm hr hc, hc.2.2.1⟩

theorem pushBool_ok {b : Bool} (h : Rel c st p) : Matches i (exec env i pos (asmOp i (.pushBool b)) none c) (.next ⟨i + 1, jBool c.rt b :: st, c.rt⟩) := by
  cases b <;> simp [asmOp, exec, step1, addBytes, Cpu.write, setReg, h.sp, h.tru, h.fls]
  all_goals exact match_next (p' := p + 2) h (by simp) (h.mem.push (by omega) (by omega) rfl (by simp [jBool, valW])) (by simp) (by simp)

theorem signExt_small {x : UInt64} (h : x.toNat < 2 ^ 31) : signExt x.toUInt32 = x := by
  have h1 : x.toUInt32.toNat = x.toNat := by rw [UInt64.toNat_toUInt32]; omega
  have h2 : x.toUInt32 < 0x80000000 := by rw [UInt32.lt_iff_toNat_lt, h1]; exact h
  rw [signExt, if_pos h2]
  apply UInt64.toNat_inj.1
  rw [UInt32.toNat_toUInt64, h1]

theorem pushInt_ok {x : UInt64} (h : Rel c st p) (hx : x.toNat < 2 ^ 31 ∨ 2 ^ 32 ≤ x.toNat) : Matches i (exec env i pos (asmOp i (.pushInt x)) none c) (.next ⟨i + 1, .int x :: st, c.rt⟩) := by
  rw [asmOp]
  split
  · rename_i hs
    have hx' : x.toNat < 2 ^ 31 := by omega
    simp [exec, step1, addBytes, Cpu.write, setReg, h.sp, signExt_small hx']
    exact match_next (p' := p + 2) h (by simp) (h.mem.push (by omega) (by omega) rfl (by simp [valW])) (by simp) (by simp)
  · simp [exec, step1, addBytes, Cpu.write, setReg, h.sp]
    exact match_next (p' := p + 2) h (by simp) (h.mem.push (by omega) (by omega) rfl (by simp [valW])) (by simp) (by simp)

theorem const_ok {n a : Nat} (h : Rel c st p) (ha : c.rt.consts[n]? = some a) : Matches i (exec env i pos (asmOp i (.const n)) none c) (.next ⟨i + 1, .ptr (UInt64.ofNat a) :: st, c.rt⟩) := by
  have e1 : ((n : Int) * 8) % 8 = 0 ∧ 0 ≤ (n : Int) * 8 := by omega
  have e2 : ((n : Int) * 8 / 8).toNat = n := by omega
  simp [asmOp, exec, step1, addBytes, Cpu.write, Cpu.read, setReg, h.sp, h.state, e1, e2, ha]
  exact match_next (p' := p + 2) h (by simp) (h.mem.push (by omega) (by omega) rfl (by simp [valW])) (by simp) (by simp)

theorem pick_ok {d : Nat} {v : JVal} (h : Rel c st p) (hv : st[d]? = some v) : Matches i (exec env i pos (asmOp i (.pick d)) none c) (.next ⟨i + 1, v :: st, c.rt⟩) := by
  obtain ⟨g1, g2⟩ := h.mem.get hv
  have e1 : (-((d : Int) * 16)) % 8 = 0 := by omega
  have e2 : p + -((d : Int) * 16) / 8 + -1 = p - 2 * d - 1 := by omega
  have e3 : p + -((d : Int) * 16) / 8 = p - 2 * d := by omega
  simp [asmOp, exec, step1, addBytes, Cpu.write, Cpu.read, setReg, h.sp, e1, e2, e3, g1, g2]
  exact match_next (p' := p + 2) h (by simp) (h.mem.push (by omega) (by omega) g1 rfl) (by simp) (by simp)

theorem set_ok {d : Nat} {v : JVal} (h : Rel c (v :: st) p) (hd : d < st.length) : Matches i (exec env i pos (asmOp i (.set d)) none c) (.next ⟨i + 1, st.set d v, c.rt⟩) := by
  obtain ⟨g1, g2, g3⟩ := h.mem
  have e1 : (-(((d : Int) + 1) * 16)) % 8 = 0 := by omega
  have e2 : (-(((d : Int) + 1) * 16 + 8)) % 8 = 0 := by omega
  have e3 : p + -(((d : Int) + 1) * 16) / 8 = p - 2 - 2 * d := by omega
  have e4 : p + -(((d : Int) + 1) * 16 + 8) / 8 = p - 2 - 2 * d - 1 := by omega
  have e5 : p + -1 = p - 1 := rfl
  simp [asmOp, exec, step1, addBytes, Cpu.write, Cpu.read, setReg, h.sp, e1, e2, e3, e4, e5, g1, g2]
  exact match_next (p' := p - 2) h (by simp; omega) (g3.set hd) (by simp) (by simp)

theorem popN_ok {n : Nat} (h : Rel c st p) (hn : n ≤ st.length) : Matches i (exec env i pos (asmOp i (.popN n)) none c) (.next ⟨i + 1, st.drop n, c.rt⟩) := by
  rw [asmOp]
  have e1 : (-((n : Int) * 16)) % 8 = 0 := by omega
  split
  · simp [exec, step1, addBytes, setReg, h.sp, e1]
    exact match_next (p' := p - 2 * n) h (by simp; omega) (h.mem.drop hn) (by simp) (by simp)
  · have : n = 0 := by omega
    subst this
    simp [exec, step1]
    exact match_next (p' := p) h h.sp h.mem (by simp) (by simp)

theorem swapPop_ok {v w : JVal} (h : Rel c (v :: w :: st) p) : Matches i (exec env i pos (asmOp i .swapPop) none c) (.next ⟨i + 1, v :: st, c.rt⟩) := by
  obtain ⟨g1, g2, -, -, g3⟩ := h.mem
  have e5 : p + -1 = p - 1 := rfl
  simp [asmOp, exec, step1, addBytes, Cpu.write, Cpu.read, setReg, h.sp, e5, g1, g2]
  exact match_next (p' := p + -2) h (by simp) (g3.push' (by omega) (by omega) rfl rfl) (by simp) (by simp)

theorem jump_ok {l j : Nat} (h : Rel c st p) (hl : pos l = some j) : Matches i (exec env i pos (asmOp i (.jump l)) none c) (.next ⟨j, st, c.rt⟩) := by
  simp [asmOp, exec, step1, hl]
  exact match_goto h h.sp h.mem (by simp) (by simp)

theorem label_ok {l : Nat} (h : Rel c st p) : Matches i (exec env i pos (asmOp i (.label l)) none c) (.next ⟨i + 1, st, c.rt⟩) := by
  simp [asmOp, exec, step1]
  exact match_next h h.sp h.mem (by simp) (by simp)

theorem exit_ok (h : Rel c st p) : Matches i (exec env i pos (asmOp i .exit) none c) (.exit ⟨i, st, c.rt⟩) := by
  simp [asmOp, exec, step1]
  exact ⟨_, p, rfl, by simp [setReg, h.sp], h.mem, rfl, h.trap⟩

theorem trap_ok {m : String} (h : Rel c st p) : Matches i (exec env i pos (asmOp i (.trap m)) none c) (.trap m) := by
  simp [asmOp, exec, step1, Cpu.write, setReg, h.state]
  exact ⟨_, rfl, rfl⟩

theorem jumpIfFalse_ok {l : Nat} {a : UInt64} (h : Rel c (.ptr a :: st) p) :
    (a = UInt64.ofNat c.rt.true_ → Matches i (exec env i pos (asmOp i (.jumpIfFalse l)) none c) (.next ⟨i + 1, st, c.rt⟩)) ∧
    (a ≠ UInt64.ofNat c.rt.true_ → ∀ j, pos l = some j → Matches i (exec env i pos (asmOp i (.jumpIfFalse l)) none c) (.next ⟨j, st, c.rt⟩)) := by
  obtain ⟨g1, g2, g3⟩ := h.mem
  have g2 : c.mem p = .int a := g2
  refine ⟨fun e => ?_, fun e j hj => ?_⟩
  · simp [asmOp, exec, step1, addBytes, Cpu.read, setReg, h.sp, h.tru, g2, holds, e]
    exact match_next (p' := p - 2) h (by simp; omega) g3 (by simp) (by simp)
  · simp [asmOp, exec, step1, addBytes, Cpu.read, setReg, h.sp, h.tru, g2, holds, e, hj]
    exact match_goto (p' := p - 2) h (by simp; omega) g3 (by simp) (by simp)

theorem arith_ok {o : Op} {a b : UInt64} (h : Rel c (.int b :: .int a :: st) p) : Matches i (exec env i pos (asmOp i (.arith o)) none c) (.next ⟨i + 1, jArith c.rt o a b :: st, c.rt⟩) := by
  obtain ⟨g1, g2, g3, g4, g5⟩ := h.mem
  have g2 : c.mem p = .int b := g2
  have g4 : c.mem (p + -2) = .int a := g4
  have g3' : c.mem (p + -2 - 1) = .int 0 := g3
  have keep : ∀ (w : UInt64), Holds (upd c.mem (p + -2) (.int w)) (.int w :: st) (p + -2) := fun w =>
    ⟨by rw [upd_other (by omega), g3']; rfl, by rw [upd_same]; rfl, g5.upd (by omega)⟩
  have cmp : ∀ (k : Cond) (r : Bool), holds k (some (.int a, .int b)) = some r →
      Matches i (exec env i pos (.nop :: asmArith.cmpCode k) none c) (.next ⟨i + 1, jBool c.rt r :: st, c.rt⟩) := by
    intro k r hk
    simp [asmArith.cmpCode, exec, step1, addBytes, Cpu.read, Cpu.write, setReg, h.sp, h.tru, h.fls, g2, g4, hk]
    cases r
    all_goals
      simp [Cpu.write, h.sp]
      exact match_next (p' := p + -2) h (by simp) (g5.push (by omega) (by omega) rfl (by simp [jBool, valW])) (by simp) (by simp)
  cases o with
  | add =>
    simp [asmOp, asmArith, exec, step1, addBytes, Cpu.read, Cpu.write, setReg, h.sp, g2, g4, binop]
    exact match_next (p' := p + -2) h (by simp) (keep _) (by simp) (by simp)
  | subtract =>
    simp [asmOp, asmArith, exec, step1, addBytes, Cpu.read, Cpu.write, setReg, h.sp, g2, g4, binop]
    exact match_next (p' := p + -2) h (by simp) (keep _) (by simp) (by simp)
  | multiply =>
    simp [asmOp, asmArith, exec, step1, addBytes, Cpu.read, Cpu.write, setReg, h.sp, g2, g4, binop]
    rw [show jArith c.rt .multiply a b = .int (b * a) by rw [jArith, UInt64.mul_comm]]
    exact match_next (p' := p + -2) h (by simp) (keep _) (by simp) (by simp)
  | divide =>
    by_cases hb : b = 0
    · simp [asmOp, asmArith, exec, step1, addBytes, Cpu.read, Cpu.write, setReg, h.sp, g2, g4, holds, hb]
      exact match_next (p' := p + -2) h (by simp) (by simp only [jArith, if_pos]; exact keep 0) (by simp) (by simp)
    · simp [asmOp, asmArith, exec, step1, addBytes, Cpu.read, Cpu.write, setReg, h.sp, g2, g4, holds, hb]
      exact match_next (p' := p + -2) h (by simp) (by simp only [jArith, if_neg hb]; exact keep _) (by simp) (by simp)
  | modulo =>
    by_cases hb : b = 0
    · simp [asmOp, asmArith, exec, step1, addBytes, Cpu.read, Cpu.write, setReg, h.sp, g2, g4, holds, hb]
      exact match_next (p' := p + -2) h (by simp) (by simp only [jArith, if_pos]; exact ⟨g3', g4, g5⟩) (by simp) (by simp)
    · simp [asmOp, asmArith, exec, step1, addBytes, Cpu.read, Cpu.write, setReg, h.sp, g2, g4, holds, hb]
      exact match_next (p' := p + -2) h (by simp) (by simp only [jArith, if_neg hb]; exact keep _) (by simp) (by simp)
  | less => exact cmp .b _ rfl
  | lessEq => exact cmp .be _ rfl
  | greater => exact cmp .a _ rfl
  | greaterEq => exact cmp .ae _ rfl
  | equal => exact cmp .e _ rfl
  | notEqual => exact cmp .ne _ rfl

end

end Tic.Jit
