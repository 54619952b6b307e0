/-
Operations that allocate: the runtime functions see the stack through the buffer, and the collector changes the pointers in it.
-/
import Verif.JitCalls

namespace Tic.Jit
open Tic.Core (Op Intrinsic BOp LinkSt Name tagSize objTag fnTag hvFields hvStr inHeap)
open Tic.Heap (Heap Value Runtime allocObject allocBytes objFields objBytes readLE tagAt stringTag)

/-- The values in the slots from `i` on, upwards. -/
def HoldsUp (m : Int → Word) : Nat → List JVal → Prop
  | _, [] => True
  | i, v :: vs => m (2 * i) = tagW v ∧ m (2 * i + 1) = valW v ∧ HoldsUp m (i + 1) vs

theorem HoldsUp.append {m : Int → Word} : ∀ {vs ws : List JVal} {i : Nat}, HoldsUp m i (vs ++ ws) ↔ HoldsUp m i vs ∧ HoldsUp m (i + vs.length) ws
  | [], ws, i => by simp [HoldsUp]
  | v :: vs, ws, i => by
    have e : i + 1 + vs.length = i + (vs.length + 1) := by omega
    simp [HoldsUp, HoldsUp.append (vs := vs), e, and_assoc]

theorem Holds.up {m : Int → Word} : ∀ {st : List JVal} {p : Int}, Holds m st p → HoldsUp m 0 st.reverse
  | [], _, _ => trivial
  | v :: st, p, ⟨h1, h2, h3⟩ => by
    have hl := h3.len
    rw [List.reverse_cons, HoldsUp.append]
    refine ⟨h3.up, ?_, ?_, trivial⟩
    · rw [← h1]; congr 1; simp; omega
    · rw [← h2]; congr 1; simp; omega

theorem HoldsUp.down {m : Int → Word} : ∀ {st : List JVal} {p : Int}, HoldsUp m 0 st.reverse → p = 2 * st.length - 1 → Holds m st p
  | [], _, _, hp => by simp at hp; exact hp
  | v :: st, p, h, hp => by
    rw [List.reverse_cons, HoldsUp.append] at h
    obtain ⟨h3, h1, h2, -⟩ := h
    simp only [List.length_cons] at hp
    refine ⟨?_, ?_, h3.down (by omega)⟩
    · rw [← h1]; congr 1; simp; omega
    · rw [← h2]; congr 1; simp; omega

theorem memPtrs_ok {m : Int → Word} : ∀ {vs : List JVal} {i : Nat}, HoldsUp m i vs → memPtrs m i vs.length = some (jPtrs vs)
  | [], _, _ => rfl
  | .ptr a :: vs, i, ⟨h1, h2, h3⟩ => by simp [memPtrs, h1, h2, tagW, valW, memPtrs_ok h3, jPtrs]
  | .int a :: vs, i, ⟨h1, _, h3⟩ => by simp [memPtrs, h1, tagW, memPtrs_ok h3, jPtrs]
  | .ret a :: vs, i, ⟨h1, _, h3⟩ => by simp [memPtrs, h1, tagW, memPtrs_ok h3, jPtrs]

theorem memSet_below : ∀ {k i : Nat} {m : Int → Word} {as : List Nat} {j : Int}, j < 2 * i → memSet m i k as j = m j
  | 0, _, _, _, _, _ => rfl
  | k + 1, i, m, as, j, h => by
    rw [memSet.eq_def]
    dsimp only
    split
    · split
      · rw [memSet_below (by omega), upd_other (by omega)]
      · rfl
    · exact memSet_below (by omega)

theorem HoldsUp.congr {m m' : Int → Word} : ∀ {vs : List JVal} {i : Nat}, HoldsUp m i vs → (∀ j ≥ (2 * i : Int), m' j = m j) → HoldsUp m' i vs
  | [], _, _, _ => trivial
  | v :: vs, i, ⟨h1, h2, h3⟩, hj => ⟨by rw [hj _ (by omega), h1], by rw [hj _ (by omega), h2], h3.congr fun j h => hj j (by omega)⟩

theorem memSet_ok : ∀ {vs : List JVal} {m : Int → Word} {i : Nat} {as : List Nat}, HoldsUp m i vs → HoldsUp (memSet m i vs.length as) i (jSet vs as)
  | [], _, _, _, _ => by simp [memSet, jSet, HoldsUp]
  | .ptr a :: vs, m, i, [], h => by
    have h1 : m (2 * i) = .int 1 := h.1
    simp only [List.length_cons, memSet, h1, jSet]; exact h
  | .ptr a :: vs, m, i, b :: as, ⟨h1, h2, h3⟩ => by
    have h1 : m (2 * i) = .int 1 := h1
    simp only [List.length_cons, memSet, h1, jSet, if_true]
    refine ⟨?_, ?_, memSet_ok (h3.congr fun j hj => upd_other (by omega))⟩
    · rw [memSet_below (by omega), upd_other (by omega), h1]; rfl
    · rw [memSet_below (by omega), upd_same]; rfl
  | .int a :: vs, m, i, as, ⟨h1, h2, h3⟩ => by
    have h1' : ¬ m (2 * i) = .int 1 := by rw [h1]; simp [tagW]
    simp only [List.length_cons, memSet, h1', jSet, if_false]
    refine ⟨?_, ?_, memSet_ok h3⟩
    · rw [memSet_below (by omega), h1]
    · rw [memSet_below (by omega), h2]
  | .ret a :: vs, m, i, as, ⟨h1, h2, h3⟩ => by
    have h1' : ¬ m (2 * i) = .int 1 := by rw [h1]; simp [tagW]
    simp only [List.length_cons, memSet, h1', jSet, if_false]
    refine ⟨?_, ?_, memSet_ok h3⟩
    · rw [memSet_below (by omega), h1]
    · rw [memSet_below (by omega), h2]

theorem jSet_length : ∀ (vs : List JVal) (as : List Nat), (jSet vs as).length = vs.length
  | [], _ => by simp [jSet]
  | .ptr a :: vs, [] => by simp [jSet]
  | .ptr a :: vs, b :: as => by simp [jSet, jSet_length vs as]
  | .int a :: vs, as => by simp [jSet, jSet_length vs as]
  | .ret a :: vs, as => by simp [jSet, jSet_length vs as]

/-- What a runtime function called with machine `c` does, and what the operation means. -/
def Ran (c : Cpu) (ip : Nat) (out : Out) : JStep → Prop
  | .next s => ∃ m q, out = .next { c with rt := s.rt, mem := m, hgen := c.hgen + 1, stackPtr := .stk c.sgen q } ∧ Holds m s.stack q ∧ s.ip = ip
  | .limit => out = .limit
  | .stuck => True
  | _ => False

/-- The collector. -/
theorem gc_ok {c : Cpu} {m : Int → Word} {rt : Runtime} {st : List JVal} {p : Int} (ip : Nat) (h : Holds m st p) : Ran c ip (gcCpu { c with rt := rt, mem := m } p) (jGc ip st rt) := by
  have hl := h.len
  have e : ((p + 1) / 2).toNat = st.reverse.length := by rw [List.length_reverse]; omega
  simp only [gcCpu, e, memPtrs_ok h.up, jGc]
  cases hg : rt.maybeGc (jPtrs st.reverse) with
  | none => simp only [Ran]
  | some r =>
    refine ⟨_, p, rfl, ?_, rfl⟩
    apply HoldsUp.down
    · rw [List.reverse_reverse]; exact memSet_ok h.up
    · simp [jSet_length]; omega

/-- The registers after a call. -/
theorem finish {env : Env} {i : Nat} {pos : Nat → Option Nat} {c : Cpu} {f : Fn} {out : Out} {js : JStep} (h : Ran c (i + 1) out js) (hf : callFn env c f = Out.map (clobber env) out)
    (h13 : c.reg .r13 = .state) (hsi : c.reg .rsi = .fns) (hbp : ∃ w, c.reg .rbp = .stk c.sgen w) (ht : c.trap = 0xffffffffffffffff) :
    Matches i (exec env i pos (.call f :: reload) none c) js := by
  rw [exec, hf]
  cases js with
  | next s =>
    obtain ⟨m, q, rfl, hm, hip⟩ := h
    simp [Out.map, clobber, reload, exec, step1, Cpu.read, setReg, h13]
    exact ⟨_, q, .inr ⟨rfl, hip⟩, ⟨by simp, hm, by simp [h13], by simp, by simp, by simp, by simp [hsi], by simpa using hbp, ht⟩, rfl⟩
  | exit s => exact h.elim
  | trap m => exact h.elim
  | stuck => trivial
  | limit => rw [Ran] at h; subst h; rfl

section
variable {env : Env} {i : Nat} {pos : Nat → Option Nat} {c : Cpu} {st : List JVal} {p : Int}

theorem slotVals_ok {m : Int → Word} : ∀ {n : Nat} {st : List JVal} {p : Int} {vals : List Value}, Holds m st p → jTake n st = some vals → slotVals m p n = some vals ∧ n ≤ st.length ∧ vals.length = n
  | 0, _, _, vals, _, e => by cases e; exact ⟨rfl, Nat.zero_le _, rfl⟩
  | n + 1, v :: st, p, vals, ⟨h1, h2, h3⟩, e => by
    simp only [jTake] at e
    cases e1 : jTake n st with
    | none => simp [e1] at e
    | some vs =>
      obtain ⟨a1, a2, a3⟩ := slotVals_ok h3 e1
      simp only [e1, Option.bind_some] at e
      cases v with
      | int x =>
        simp [toValue] at e; subst e
        have h1 : m (p - 1) = .int 0 := h1
        have h2 : m p = .int x := h2
        simp [slotVals, a1, slotVal, h1, h2]; omega
      | ptr x =>
        simp [toValue] at e; subst e
        have h1 : m (p - 1) = .int 1 := h1
        have h2 : m p = .int x := h2
        simp [slotVals, a1, slotVal, h1, h2]; omega
      | ret x => simp [toValue] at e

theorem pushed {m : Int → Word} {st : List JVal} {p q : Int} {v : JVal} {t x : UInt64} (h : Holds m st p) (hq : q = p + 2) (ht : .int t = tagW v) (hx : .int x = valW v) : Holds (pushMem m p t x) (v :: st) q := by
  subst hq; exact h.push rfl rfl ht hx

theorem allocObj_ok {tag fields : UInt64} {vals : List Value} (ip : Nat) (h : Holds c.mem st p) (hv : jTake fields.toNat st = some vals) (hn : fields.toNat ≤ 64) :
    Ran c ip (allocObj c p tag fields) (match allocObject c.rt.heap tag.toNat vals with
      | some r => jGc ip (.ptr (UInt64.ofNat r.2) :: st.drop fields.toNat) { c.rt with heap := r.1 }
      | none => .limit) := by
  obtain ⟨h1, h2, h3⟩ := slotVals_ok h hv
  rw [allocObj, h1]
  simp only [h3, hn, if_true]
  cases allocObject c.rt.heap tag.toNat vals with
  | none => rfl
  | some r =>
    dsimp only
    split
    · exact gc_ok (c := c) ip (pushed (h.drop h2) (by omega) rfl rfl)
    · rename_i hz
      have hz : fields.toNat = 0 := by omega
      rw [hz, List.drop_zero]
      exact gc_ok (c := c) ip (pushed h (by omega) rfl rfl)

theorem construct_ok {tag : UInt64} {n : Nat} {vals : List Value} (h : Rel c st p) (hv : jTake n st = some vals) (hn : n ≤ 64) :
    Matches i (exec env i pos (asmOp i (.construct tag n)) none c) (match allocObject c.rt.heap tag.toNat vals with
      | some r => jGc (i + 1) (.ptr (UInt64.ofNat r.2) :: st.drop n) { c.rt with heap := r.1 }
      | none => .limit) := by
  have en : (UInt64.ofNat n).toNat = n := by rw [UInt64.toNat_ofNat']; omega
  have hr := allocObj_ok (c := { setReg (setReg (setReg { c with stackPtr := .stk c.sgen p } .rcx .state) .rdx (.int tag)) .r8 (.int (UInt64.ofNat n)) with stackPtr := .stk c.sgen p })
    (tag := tag) (fields := UInt64.ofNat n) (vals := vals) (i + 1) h.mem (by rw [en]; exact hv) (by rw [en]; exact hn)
  rw [en] at hr
  have := finish (env := env) (pos := pos) (f := .allocObj) hr (by simp [callFn, setReg]) (by simp [setReg, h.state]) (by simp [setReg, h.fns]) (by simpa [setReg] using h.chk) h.trap
  have e : exec env i pos (asmOp i (.construct tag n)) none c = exec env i pos (.call .allocObj :: reload) none { setReg (setReg (setReg { c with stackPtr := .stk c.sgen p } .rcx .state) .rdx (.int tag)) .r8 (.int (UInt64.ofNat n)) with stackPtr := .stk c.sgen p } := by
    simp [asmOp, exec, step1, Cpu.write, setReg, h.state, h.sp]
  rw [e]; exact this

/-! ### Intrinsics -/

theorem bytes_ok {st : List JVal} {p : Int} (ip : Nat) {bs : List UInt8} (h : Holds c.mem st p) : Ran c ip (pushBytes c p bs) (jBytes ip st c.rt bs) := by
  rw [pushBytes, jBytes]
  cases allocBytes c.rt.heap (bs.length ||| stringTag) bs with
  | none => rfl
  | some r => exact gc_ok (c := c) ip (pushed h rfl rfl rfl)

theorem callIntr_ok {k : Intrinsic} (ip : Nat) (hk : k ≠ .stringLen) (h : Holds c.mem st p) : Ran c ip (callIntr c p k) (jIntr ip c.rt k st) := by
  unfold jIntr
  split
  · exact (hk rfl).elim
  · rename_i a x st
    obtain ⟨-, g1, -, g2, g3⟩ := h
    have g1 : c.mem p = .int a := g1
    have g2 : c.mem (p - 2) = .int x := g2
    simp only [callIntr, g1, g2]
    have e : p - 2 - 2 = p - 4 := by omega
    rw [e] at g3
    split
    · split
      · split
        · exact gc_ok (c := c) ip (pushed g3 (by omega) rfl rfl)
        · trivial
      · exact gc_ok (c := c) ip (pushed g3 (by omega) rfl rfl)
    · trivial
  · rename_i a b st
    obtain ⟨-, g1, -, g2, g3⟩ := h
    have g1 : c.mem p = .int a := g1
    have g2 : c.mem (p - 2) = .int b := g2
    have e : p - 2 - 2 = p - 4 := by omega
    rw [e] at g3
    simp only [callIntr, g1, g2]
    cases hvStr c.rt.heap a.toNat with
    | none => trivial
    | some s2 =>
      cases hvStr c.rt.heap b.toNat with
      | none => trivial
      | some s1 => exact bytes_ok ip g3
  · rename_i x st
    obtain ⟨-, g1, g3⟩ := h
    have g1 : c.mem p = .int x := g1
    simp only [callIntr, g1]
    exact bytes_ok ip g3
  · rename_i x st
    obtain ⟨-, g1, g3⟩ := h
    have g1 : c.mem p = .int x := g1
    simp only [callIntr, g1]
    exact bytes_ok ip g3
  · rename_i a x y st
    obtain ⟨-, g1, -, g2, -, g3, g4⟩ := h
    have e1 : p - 2 - 2 = p - 4 := by omega
    have e2 : p - 4 - 2 = p - 6 := by omega
    rw [e1] at g3 g4
    rw [e2] at g4
    have g1 : c.mem p = .int a := g1
    have g2 : c.mem (p - 2) = .int x := g2
    have g3 : c.mem (p - 4) = .int y := g3
    simp only [callIntr, g1, g2, g3]
    cases hvStr c.rt.heap a.toNat with
    | none => trivial
    | some s => exact bytes_ok ip g4
  · trivial

theorem stringLen_ok (h : Rel c st p) : Matches i (exec env i pos (asmOp i (.intr .stringLen)) none c) (jIntr (i + 1) c.rt .stringLen st) := by
  match st, h with
  | .ptr a :: st, h =>
    simp only [jIntr]
    obtain ⟨g1, g2, g3⟩ := h.mem
    have g2 : c.mem p = .int a := g2
    cases ho : hvFields c.rt.heap a.toNat with
    | none => trivial
    | some o =>
      obtain ⟨q1, q2, q3, rfl⟩ := inHeap_iff ho
      dsimp only
      split
      · rename_i ht
        have e1 : (0 : Int) ≤ (a.toNat : Int) + 16 ∧ (a.toNat : Int) + 16 + 8 ≤ c.rt.heap.len := by omega
        have e2 : ((a.toNat : Int) + 16).toNat = a.toNat + 16 := by omega
        have hlt : tagAt c.rt.heap.mem a.toNat < 2 ^ 64 := readLE_lt _ _ _
        have e3 : UInt64.ofNat (readLE c.rt.heap.mem (a.toNat + 16) 8) - UInt64.ofNat stringTag = UInt64.ofNat ((objFields c.rt.heap a.toNat).1 % tagSize) := by
          apply UInt64.toNat_inj.1
          simp only [objFields, tagSize] at ht ⊢
          unfold tagAt at ht hlt ⊢
          rw [UInt64.toNat_sub, UInt64.toNat_ofNat', UInt64.toNat_ofNat', UInt64.toNat_ofNat']
          unfold stringTag
          omega
        simp [asmOp, exec, step1, addBytes, addWord, binop, Cpu.write, Cpu.read, setReg, h.sp, h.base, e1, e2, e3, g2]
        exact match_next (p' := p) h (by simp [h.sp]) (g3.push (by omega) (by omega) rfl rfl) (by simp) (by simp)
      · trivial
  | [], _ => trivial
  | .int _ :: _, _ => trivial
  | .ret _ :: _, _ => trivial

theorem intr_ok {k : Intrinsic} (h : Rel c st p) : Matches i (exec env i pos (asmOp i (.intr k)) none c) (jIntr (i + 1) c.rt k st) := by
  by_cases hk : k = .stringLen
  · subst hk; exact stringLen_ok h
  · have hr := callIntr_ok (c := { setReg { c with stackPtr := .stk c.sgen p } .rcx .state with stackPtr := .stk c.sgen p }) (i + 1) hk h.mem
    have := finish (env := env) (pos := pos) (f := .intr k) hr (by simp [callFn, setReg]) (by simp [setReg, h.state]) (by simp [setReg, h.fns]) (by simpa [setReg] using h.chk) h.trap
    have e : exec env i pos (asmOp i (.intr k)) none c = exec env i pos (.call (.intr k) :: reload) none { setReg { c with stackPtr := .stk c.sgen p } .rcx .state with stackPtr := .stk c.sgen p } := by
      cases k <;> simp [asmOp, exec, step1, Cpu.write, setReg, h.state, h.sp] at hk ⊢
    rw [e]; exact this

/-- The operations for which it does: not the integer literals that are sign-extended (`JitExample`), and the number of fields is a machine word. -/
def Fits : JOp → Prop
  | .pushInt x => x.toNat < 2 ^ 31 ∨ 2 ^ 32 ≤ x.toNat
  | .construct _ n => n < 2 ^ 64
  | _ => True

/-- An object of more than 64 fields is beyond the limits. -/
theorem construct_limit {tag : UInt64} {n : Nat} {vals : List Value} (h : Rel c st p) (hv : jTake n st = some vals) (hn : ¬ n ≤ 64) (hf : n < 2 ^ 64) :
    exec env i pos (asmOp i (.construct tag n)) none c = .limit := by
  have en : (UInt64.ofNat n).toNat = n := by rw [UInt64.toNat_ofNat']; omega
  obtain ⟨h1, h2, h3⟩ := slotVals_ok h.mem hv
  simp [asmOp, exec, step1, Cpu.write, setReg, h.state, h.sp, callFn, allocObj, en, h1, h3, hn, Out.map]

/-- The code of every operation does what the operation means. -/
theorem op_ok {ops : List JOp} {o : JOp} {s : JVM} (h : Rel c s.stack p) (hrt : c.rt = s.rt) (ho : ops[s.ip]? = some o) (hlen : env.entries.length ≤ 2 ^ 31)
    (hfit : Fits o) :
    Matches s.ip (exec env s.ip (labelPos · ops) (asmOp s.ip o) none c) (jvStep env.entries ops s) := by
  obtain ⟨ip, st, rt⟩ := s
  subst hrt
  dsimp only at h ho ⊢
  unfold jvStep
  simp only [ho]
  split
  · exact pushInt_ok h hfit
  · exact pushBool_ok h
  · split
    · rename_i hc; exact const_ok h hc
    · trivial
  · split
    · rename_i hc; exact pick_ok h hc
    · trivial
  · split
    · rename_i hc; exact set_ok h hc
    · trivial
  · split
    · rename_i hc; exact popN_ok h hc
    · trivial
  · exact swapPop_ok h
  · exact arith_ok h
  · split
    · rename_i hc; exact jump_ok h hc
    · trivial
  · split
    · rename_i hc; exact (jumpIfFalse_ok h).1 hc
    · rename_i hn
      split
      · rename_i hc; exact (jumpIfFalse_ok h).2 hn _ hc
      · trivial
  · split
    · rename_i hd
      split
      · rename_i hp; exact ret_ok h hd hp
      · trivial
    · trivial
  · split
    · rename_i hf
      split
      · rename_i hj; exact call_ok h hf hj hlen
      · trivial
    · trivial
  · exact enter_ok0 h
  · split
    · rename_i hf
      split
      · rename_i hl; exact enter_ok h (Nat.pos_of_ne_zero (by assumption)) hf hl
      · trivial
    · trivial
  · split
    · rename_i hv
      split
      · rename_i hn; exact construct_ok h hv hn
      · rename_i hn
        exact construct_limit h hv hn hfit
    · trivial
  · split
    · rename_i hf
      split
      · rename_i hb
        split
        · rename_i hl
          split
          · rename_i hp; exact branch_ok h hf hb hl hp
          · trivial
        · trivial
      · trivial
    · trivial
  · exact trap_ok h
  · exact intr_ok h
  · exact label_ok h
  · exact exit_ok h
  · trivial

end

end Tic.Jit
