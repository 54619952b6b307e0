/-
The machine code of calls, of operations that read objects, and of operations that allocate.
-/
import Verif.JitProof

namespace Tic.Jit
open Tic.Core (Op Intrinsic BOp LinkSt Name tagSize objTag fnTag hvFields hvStr inHeap)
open Tic.Heap (Heap Value Runtime allocObject allocBytes objFields objBytes readLE tagAt ptrsAt fieldAt nfields sizeAt stringTag)

section
variable {env : Env} {i : Nat} {pos : Nat → Option Nat} {c : Cpu} {st : List JVal} {p : Int}

theorem ret_ok {params captures r : Nat} {v w : JVal} {rest : List JVal} (h : Rel c (v :: st) p) (hd : st.drop captures = .ret r :: w :: rest) (hp : params ≤ rest.length) :
    Matches i (exec env i pos (asmOp i (.ret params captures)) none c) (.next ⟨r, v :: rest.drop params, c.rt⟩) := by
  obtain ⟨g1, g2, g3⟩ := h.mem
  have hc : captures ≤ st.length := by
    apply Decidable.byContradiction; intro hn
    rw [List.drop_eq_nil_of_le (by omega)] at hd; cases hd
  have g4 := g3.drop hc
  rw [hd] at g4
  obtain ⟨-, g5, g6⟩ := g4
  have g5 : c.mem (p - 2 - 2 * captures) = .code r := g5
  obtain ⟨-, -, g7⟩ := g6
  have g8 := g7.drop hp
  have e1 : (-(((captures : Int) + 1) * 16)) % 8 = 0 := by omega
  have e2 : p + -(((captures : Int) + 1) * 16) / 8 = p - 2 - 2 * captures := by omega
  have e3 : (-(((params : Int) + 1) * 16)) % 8 = 0 := by omega
  have e5 : p + -1 = p - 1 := rfl
  simp [asmOp, exec, step1, addBytes, Cpu.write, Cpu.read, setReg, h.sp, e1, e2, e3, e5, g1, g2, g5]
  exact match_goto (p' := p - 2 - 2 * captures + -(((params : Int) + 1) * 16) / 8) h (by simp) (g8.push' (by omega) (by omega) rfl rfl) (by simp) (by simp)

/-! ### Reading objects -/

theorem inHeap_iff {h : Heap} {a : Nat} {o : Nat × List Value} (ho : hvFields h a = some o) : a + 24 ≤ h.len ∧ 24 ≤ sizeAt h.mem a ∧ a + sizeAt h.mem a ≤ h.len ∧ o = objFields h a := by
  unfold hvFields at ho
  split at ho
  · rename_i hi
    unfold inHeap at hi
    rw [decide_eq_true_eq] at hi
    cases ho
    exact ⟨hi.1, hi.2.1, hi.2.2, rfl⟩
  · cases ho

theorem readLE_lt (m : Tic.Heap.Mem) : ∀ (n a : Nat), readLE m a n < 256 ^ n
  | 0, a => by simp [readLE]
  | n + 1, a => by
    rw [readLE]
    have := readLE_lt m n (a + 1)
    have := (m a).toNat_lt
    rw [Nat.pow_succ]
    omega

theorem call_ok {a : UInt64} {o : Nat × List Value} {j : Nat} (h : Rel c (.ptr a :: st) p) (ho : hvFields c.rt.heap a.toNat = some o) (hj : env.entries[o.1 % tagSize]? = some j)
    (hlen : env.entries.length ≤ 2 ^ 31) : Matches i (exec env i pos (asmOp i .call) none c) (.next ⟨j, .ret (i + 1) :: .ptr a :: st, c.rt⟩) := by
  obtain ⟨g1, g2, g3⟩ := h.mem
  have g2 : c.mem p = .int a := g2
  obtain ⟨q1, q2, q3, rfl⟩ := inHeap_iff ho
  have e1 : (0 : Int) ≤ (a.toNat : Int) + 16 ∧ (a.toNat : Int) + 16 + 8 ≤ c.rt.heap.len := by omega
  have e2 : ((a.toNat : Int) + 16).toNat = a.toNat + 16 := by omega
  have hlt : tagAt c.rt.heap.mem a.toNat < 2 ^ 64 := readLE_lt _ _ _
  have hi : (objFields c.rt.heap a.toNat).1 % tagSize < 2 ^ 31 := by
    have := (List.getElem?_eq_some_iff.1 hj).1
    omega
  have e3 : (UInt64.ofNat (readLE c.rt.heap.mem (a.toNat + 16) 8) &&& 0x7fffffff).toNat = (objFields c.rt.heap a.toNat).1 % tagSize := by
    rw [UInt64.toNat_and]
    show _ &&& (2 ^ 31 - 1) = _
    rw [Nat.and_two_pow_sub_one_eq_mod, UInt64.toNat_ofNat', Nat.mod_eq_of_lt (show readLE c.rt.heap.mem (a.toNat + 16) 8 < 2 ^ 64 from hlt)]
    simp only [objFields, tagSize] at hi ⊢
    unfold tagAt at hi ⊢
    omega
  have e5 : ∀ (q : Int), q + -1 = q - 1 := fun _ => rfl
  simp [asmOp, exec, step1, addBytes, addWord, binop, Cpu.write, Cpu.read, setReg, h.sp, h.base, h.fns, e1, e2, e3, g2, hj]
  exact match_goto (p' := p + 2) h (by simp) (h.mem.push (by omega) (by omega) rfl rfl) (by simp) (by simp)

/-- The word of field `k` and its bit, of an object in the heap. -/
theorem field_get {h : Heap} {a k : Nat} (hk : k < nfields h.mem a) : (objFields h a).2[k]? =
    some (if (ptrsAt h.mem a).testBit k then .ptr (fieldAt h.mem a k) else .int (UInt64.ofNat (fieldAt h.mem a k))) := by
  unfold objFields
  rw [List.getElem?_map, List.getElem?_range hk]
  rfl

theorem bit_eq (x k : Nat) : x / 2 ^ k % 2 = if x.testBit k then 1 else 0 := by
  rw [Nat.testBit_eq_decide_div_mod_eq]
  have := Nat.mod_two_eq_zero_or_one (x / 2 ^ k)
  rcases this with h | h <;> simp [h]

/-- The code goes on with `rest` with these values on the stack. -/
def Reaches (env : Env) (i : Nat) (pos : Nat → Option Nat) (rest : List Ins) (rt : Runtime) (vs : List JVal) (out : Out) : Prop :=
  ∃ c' p', out = exec env i pos rest none c' ∧ Rel c' vs p' ∧ c'.rt = rt

/-- Pushing the fields from field `k` on. -/
theorem upvalues_ok {a : Nat} {rest : List Ins} : ∀ (n k : Nat) (c : Cpu) (st : List JVal) (p : Int), Rel c st p → c.reg .r8 = .heap c.hgen a →
    c.reg .r9 = .int (UInt64.ofNat (ptrsAt c.rt.heap.mem a / 2 ^ k)) → a + sizeAt c.rt.heap.mem a ≤ c.rt.heap.len → k + n ≤ nfields c.rt.heap.mem a →
    Reaches env i pos rest c.rt ((((objFields c.rt.heap a).2.drop k).take n |>.map ofValue).reverse ++ st) (exec env i pos (asmUpvalues k n ++ rest) none c)
  | 0, k, c, st, p, h, _, _, _, _ => ⟨c, p, rfl, by simpa using h, rfl⟩
  | n + 1, k, c, st, p, h, h8, h9, hlen, hk => by
    have hnf : nfields c.rt.heap.mem a = (sizeAt c.rt.heap.mem a - 24) / 8 := rfl
    have e1 : (0 : Int) ≤ (a : Int) + (k * 8 + 24) ∧ (a : Int) + (k * 8 + 24) + 8 ≤ c.rt.heap.len := by omega
    have e2 : ((a : Int) + (k * 8 + 24)).toNat = a + 24 + 8 * k := by omega
    have hf : readLE c.rt.heap.mem (a + 24 + 8 * k) 8 = fieldAt c.rt.heap.mem a k := rfl
    have hpl : ptrsAt c.rt.heap.mem a < 2 ^ 64 := readLE_lt _ _ _
    have hq : ptrsAt c.rt.heap.mem a / 2 ^ k < 2 ^ 64 := Nat.lt_of_le_of_lt (Nat.div_le_self _ _) hpl
    have eb : (UInt64.ofNat (ptrsAt c.rt.heap.mem a / 2 ^ k)) &&& 1 = if (ptrsAt c.rt.heap.mem a).testBit k then 1 else 0 := by
      apply UInt64.toNat_inj.1
      rw [UInt64.toNat_and, UInt64.toNat_ofNat', Nat.mod_eq_of_lt hq]
      show _ &&& 1 = _
      rw [Nat.and_one_is_mod, bit_eq]
      split <;> rfl
    have es : (UInt64.ofNat (ptrsAt c.rt.heap.mem a / 2 ^ k)) >>> 1 = UInt64.ofNat (ptrsAt c.rt.heap.mem a / 2 ^ (k + 1)) := by
      apply UInt64.toNat_inj.1
      rw [UInt64.toNat_shiftRight, UInt64.toNat_ofNat', Nat.mod_eq_of_lt hq, UInt64.toNat_ofNat',
        Nat.mod_eq_of_lt (Nat.lt_of_le_of_lt (Nat.div_le_self _ _) hpl), Nat.pow_succ, ← Nat.div_div_eq_div_mul]
      rfl
    have hget := field_get (h := c.rt.heap) (a := a) (k := k) (by omega)
    have hdrop : ((objFields c.rt.heap a).2.drop k).take (n + 1) =
        (if (ptrsAt c.rt.heap.mem a).testBit k then .ptr (fieldAt c.rt.heap.mem a k) else .int (UInt64.ofNat (fieldAt c.rt.heap.mem a k))) :: ((objFields c.rt.heap a).2.drop (k + 1)).take n := by
      obtain ⟨hlt, hge⟩ := List.getElem?_eq_some_iff.1 hget
      rw [List.drop_eq_getElem_cons hlt, List.take_succ_cons, hge]
    let v : JVal := ofValue (if (ptrsAt c.rt.heap.mem a).testBit k then .ptr (fieldAt c.rt.heap.mem a k) else .int (UInt64.ofNat (fieldAt c.rt.heap.mem a k)))
    have hm : Holds (upd (upd c.mem (p + 2 + -1) (.int (if (ptrsAt c.rt.heap.mem a).testBit k then 1 else 0))) (p + 2) (.int (UInt64.ofNat (readLE c.rt.heap.mem (a + 24 + 8 * k) 8)))) (v :: st) (p + 2) := by
      refine h.mem.push (by omega) (by omega) ?_ ?_
      · show _ = tagW (ofValue _)
        split <;> rfl
      · show _ = valW (ofValue _)
        rw [hf]
        split <;> rfl
    have H : ∀ c1 : Cpu, Rel c1 (v :: st) (p + 2) → c1.reg .r8 = .heap c1.hgen a → c1.reg .r9 = .int (UInt64.ofNat (ptrsAt c.rt.heap.mem a / 2 ^ (k + 1))) → c1.rt = c.rt →
        Reaches env i pos rest c.rt ((((objFields c.rt.heap a).2.drop k).take (n + 1) |>.map ofValue).reverse ++ st) (exec env i pos (asmUpvalues (k + 1) n ++ rest) none c1) := by
      intro c1 r1 r2 r3 r4
      obtain ⟨c', p', i1, i2, i3⟩ := upvalues_ok (rest := rest) n (k + 1) c1 (v :: st) (p + 2) r1 r2 (by rw [r4]; exact r3) (by rw [r4]; exact hlen) (by rw [r4]; omega)
      refine ⟨c', p', i1, ?_, i3.trans r4⟩
      rw [hdrop]
      rw [r4] at i2
      simp only [List.map_cons, List.reverse_cons, List.append_assoc, List.singleton_append]
      exact i2
    simp [asmUpvalues, exec, step1, addBytes, binop, Cpu.write, Cpu.read, setReg, h.sp, h8, h9, e1, e2, eb, es, - List.map_take, - List.map_drop]
    refine H _ ?_ ?_ ?_ rfl
    · exact h.next (by simp) hm (by simp) (by simp)
    · simp [h8]
    · simp

theorem grow_rel (h : Rel c st p) : ∃ c1 : Cpu, exec env i pos [.nop, .cmp .r12 .rbp, .jcc .b 0, .store .r13 0 .r12, .mov .rcx .r13, .call .growStack, .load .r12 .r13 0, .load .rbp .r13 56, .lab 0] none c = .next c1 ∧
    Rel c1 st p ∧ c1.rt = c.rt := by
  obtain ⟨w, hw⟩ := h.chk
  by_cases hb : p < w
  · simp [exec, step1, h.sp, hw, holds, hb]
    exact ⟨h.sp, h.mem, h.state, h.tru, h.fls, h.base, h.fns, ⟨w, hw⟩, h.trap⟩
  · simp [exec, step1, h.sp, hw, holds, hb, Cpu.write, h.state, setReg, callFn, growStack, Out.map, clobber, Cpu.read]
    exact ⟨by simp, h.mem, by simp [h.state], by simp [h.tru], by simp [h.fls], by simp [h.base], by simp [h.fns], ⟨_, by simp; rfl⟩, h.trap⟩

/-- Code after code. -/
theorem exec_append {b : List Ins} {c1 : Cpu} : ∀ (a : List Ins) (m : Option Nat) (c : Cpu), exec env i pos a m c = .next c1 → exec env i pos (a ++ b) m c = exec env i pos b none c1
  | [], none, c, h => by
    simp only [exec, Out.next.injEq] at h
    rw [h]; rfl
  | [], some m, c, h => by simp [exec] at h
  | ins :: a, some m, c, h => by
    rw [List.cons_append]
    cases ins
    case lab n =>
      rw [exec] at h ⊢
      exact exec_append a _ c h
    all_goals
      rw [exec] at h ⊢
      · exact exec_append a _ c h
      all_goals exact nofun
  | ins :: a, none, c, h => by
    rw [List.cons_append]
    cases ins
    case lab n =>
      rw [exec] at h ⊢
      exact exec_append a _ c h
    case jcc k n =>
      rw [exec] at h ⊢
      match hk : holds k c.flags with
      | none => rw [hk] at h; cases h
      | some r =>
        rw [hk] at h
        exact exec_append a _ c h
    case jmp n =>
      rw [exec] at h ⊢
      exact exec_append a _ c h
    case jmpL l =>
      rw [exec] at h
      split at h <;> cases h
    case jneL l =>
      rw [exec] at h ⊢
      match hk : holds .ne c.flags with
      | none => rw [hk] at h; cases h
      | some r =>
        rw [hk] at h
        simp only at h ⊢
        cases r
        · exact exec_append a _ c (by simpa using h)
        · simp only [if_true] at h
          split at h <;> cases h
    case jmpR r =>
      rw [exec] at h
      split at h <;> cases h
    case call f =>
      rw [exec] at h ⊢
      match hk : callFn env c f with
      | .next c2 =>
        rw [hk] at h
        exact exec_append a _ c2 h
      | .goto _ _ => rw [hk] at h; cases h
      | .done _ => rw [hk] at h; cases h
      | .fault => rw [hk] at h; cases h
      | .limit => rw [hk] at h; cases h
    case ud2 => simp [exec] at h
    case leave => simp [exec] at h
    all_goals
      rw [exec] at h ⊢
      · split at h
        · exact exec_append a _ _ h
        · cases h
      all_goals exact nofun

theorem enter_ok0 {u : Nat} (h : Rel c st p) : Matches i (exec env i pos (asmOp i (.enter 0 u)) none c) (.next ⟨i + 1, st, c.rt⟩) := by
  obtain ⟨c1, h1, h2, h3⟩ := grow_rel (env := env) (i := i) (pos := pos) h
  show Matches i (exec env i pos (_ ++ []) none c) _
  rw [exec_append _ _ _ h1]
  exact ⟨c1, p, .inr ⟨rfl, rfl⟩, h2, h3⟩

theorem enter_ok {k u : Nat} {r : JVal} {a : UInt64} {o : Nat × List Value} (h : Rel c (r :: .ptr a :: st) p) (hk : 0 < k) (ho : hvFields c.rt.heap a.toNat = some o) (hl : o.2.length = k) :
    Matches i (exec env i pos (asmOp i (.enter k u)) none c) (.next ⟨i + 1, (o.2.map ofValue).reverse ++ (r :: .ptr a :: st), c.rt⟩) := by
  obtain ⟨c1, h1, h2, h3⟩ := grow_rel (env := env) (i := i) (pos := pos) h
  rw [asmOp, if_pos hk, exec_append _ _ _ h1]
  rw [← h3] at ho ⊢
  obtain ⟨q1, q2, q3, rfl⟩ := inHeap_iff ho
  have hnf : (objFields c1.rt.heap a.toNat).2.length = nfields c1.rt.heap.mem a.toNat := by simp [objFields]
  obtain ⟨-, -, -, g2, g3⟩ := h2.mem
  have g2 : c1.mem (p - 2) = .int a := g2
  have e1 : (0 : Int) ≤ (a.toNat : Int) + 8 ∧ (a.toNat : Int) + 8 + 8 ≤ c1.rt.heap.len := by omega
  have e2 : ((a.toNat : Int) + 8).toNat = a.toNat + 8 := by omega
  have e5 : p + -2 = p - 2 := rfl
  have H : ∀ c2 : Cpu, Rel c2 (r :: .ptr a :: st) p → c2.reg .r8 = .heap c2.hgen a.toNat → c2.reg .r9 = .int (UInt64.ofNat (ptrsAt c1.rt.heap.mem a.toNat)) → c2.rt = c1.rt →
      Matches i (exec env i pos (asmUpvalues 0 k) none c2) (.next ⟨i + 1, ((objFields c1.rt.heap a.toNat).2.map ofValue).reverse ++ (r :: .ptr a :: st), c1.rt⟩) := by
    intro c2 r1 r2 r3 r4
    obtain ⟨c', p', i1, i2, i3⟩ := upvalues_ok (env := env) (i := i) (pos := pos) (rest := []) k 0 c2 _ p r1 r2 (by rw [r4, r3]; simp) (by rw [r4]; exact q3) (by rw [r4]; omega)
    rw [List.append_nil] at i1
    rw [i1]
    refine ⟨c', p', .inr ⟨rfl, rfl⟩, ?_, by rw [i3, r4]⟩
    rw [r4, List.drop_zero, List.take_of_length_le (by omega)] at i2
    exact i2
  simp [exec, step1, addBytes, addWord, Cpu.read, setReg, h2.sp, h2.base, g2, e1, e2, e5]
  refine H _ ?_ ?_ ?_ rfl
  · exact h2.next (by simp [h2.sp]) h2.mem (by simp) (by simp)
  · simp
  · simp [ptrsAt]

/-! ### Matches -/

/-- Code without labels is passed over. -/
theorem exec_skip {b : List Ins} {m : Nat} : ∀ (a : List Ins), (∀ n, .lab n ∉ a) → exec env i pos (a ++ b) (some m) c = exec env i pos b (some m) c
  | [], _ => rfl
  | ins :: a, h => by
    rw [List.cons_append]
    cases ins
    case lab n => exact absurd (List.mem_cons_self ..) (h n)
    all_goals
      rw [exec]
      · exact exec_skip a fun n hn => h n (List.mem_cons_of_mem _ hn)
      all_goals exact nofun

theorem upvalues_noLab : ∀ (n k m : Nat), .lab m ∉ asmUpvalues k n
  | 0, _, _ => nofun
  | n + 1, k, m => by
    rw [asmUpvalues, List.mem_append]
    rintro (h | h)
    · simp at h
    · exact upvalues_noLab n (k + 1) m h

theorem bindings_noLab (n m : Nat) : .lab m ∉ asmBindings n := by
  cases n with
  | zero => simp [asmBindings]
  | succ n =>
    rw [asmBindings, List.mem_append]
    rintro (h | h)
    · simp at h
    · exact upvalues_noLab n 1 m h

theorem bindings_ok {a n : Nat} {x : UInt64} {rest : List Ins} (h : Rel c (.ptr x :: st) p) (h8 : c.reg .r8 = .heap c.hgen a) (h9 : c.reg .r9 = .int (UInt64.ofNat (ptrsAt c.rt.heap.mem a)))
    (hlen : a + sizeAt c.rt.heap.mem a ≤ c.rt.heap.len) (hn : nfields c.rt.heap.mem a = n) :
    Reaches env i pos rest c.rt (((objFields c.rt.heap a).2.map ofValue).reverse ++ st) (exec env i pos (asmBindings n ++ rest) none c) := by
  have hl : (objFields c.rt.heap a).2.length = n := by simp [objFields, hn]
  obtain ⟨-, -, g3⟩ := h.mem
  cases n with
  | zero =>
    have hnil : (objFields c.rt.heap a).2 = [] := List.eq_nil_of_length_eq_zero hl
    rw [hnil]
    simp [asmBindings, exec, step1, addBytes, setReg, h.sp]
    exact ⟨_, p - 2, rfl, h.next (by simp; omega) g3 (by simp) (by simp), rfl⟩
  | succ n =>
    have hnf : nfields c.rt.heap.mem a = (sizeAt c.rt.heap.mem a - 24) / 8 := rfl
    have e1 : (0 : Int) ≤ (a : Int) + 24 ∧ (a : Int) + 24 + 8 ≤ c.rt.heap.len := by omega
    have e2 : ((a : Int) + 24).toNat = a + 24 := by omega
    have hf : readLE c.rt.heap.mem (a + 24) 8 = fieldAt c.rt.heap.mem a 0 := rfl
    have hpl : ptrsAt c.rt.heap.mem a < 2 ^ 64 := readLE_lt _ _ _
    have eb : (UInt64.ofNat (ptrsAt c.rt.heap.mem a)) &&& 1 = if (ptrsAt c.rt.heap.mem a).testBit 0 then 1 else 0 := by
      apply UInt64.toNat_inj.1
      rw [UInt64.toNat_and, UInt64.toNat_ofNat', Nat.mod_eq_of_lt hpl]
      show _ &&& 1 = _
      have := bit_eq (ptrsAt c.rt.heap.mem a) 0
      rw [Nat.and_one_is_mod]
      simp only [Nat.pow_zero, Nat.div_one] at this
      rw [this]
      split <;> rfl
    have es : (UInt64.ofNat (ptrsAt c.rt.heap.mem a)) >>> 1 = UInt64.ofNat (ptrsAt c.rt.heap.mem a / 2 ^ 1) := by
      apply UInt64.toNat_inj.1
      rw [UInt64.toNat_shiftRight, UInt64.toNat_ofNat', Nat.mod_eq_of_lt hpl, UInt64.toNat_ofNat', Nat.mod_eq_of_lt (Nat.lt_of_le_of_lt (Nat.div_le_self _ _) hpl)]
      rfl
    have hget := field_get (h := c.rt.heap) (a := a) (k := 0) (by omega)
    have hcons : (objFields c.rt.heap a).2 =
        (if (ptrsAt c.rt.heap.mem a).testBit 0 then .ptr (fieldAt c.rt.heap.mem a 0) else .int (UInt64.ofNat (fieldAt c.rt.heap.mem a 0))) :: ((objFields c.rt.heap a).2.drop 1).take n := by
      obtain ⟨hlt, hge⟩ := List.getElem?_eq_some_iff.1 hget
      rw [List.take_of_length_le (by rw [List.length_drop]; omega)]
      refine Eq.trans (List.drop_zero).symm ?_
      rw [List.drop_eq_getElem_cons hlt, hge]
    let v : JVal := ofValue (if (ptrsAt c.rt.heap.mem a).testBit 0 then .ptr (fieldAt c.rt.heap.mem a 0) else .int (UInt64.ofNat (fieldAt c.rt.heap.mem a 0)))
    have hm : Holds (upd (upd c.mem (p + -1) (.int (if (ptrsAt c.rt.heap.mem a).testBit 0 then 1 else 0))) p (.int (UInt64.ofNat (readLE c.rt.heap.mem (a + 24) 8)))) (v :: st) p := by
      refine g3.push (by omega) (by omega) ?_ ?_
      · show _ = tagW (ofValue _)
        split <;> rfl
      · show _ = valW (ofValue _)
        rw [hf]
        split <;> rfl
    have H : ∀ c1 : Cpu, Rel c1 (v :: st) p → c1.reg .r8 = .heap c1.hgen a → c1.reg .r9 = .int (UInt64.ofNat (ptrsAt c.rt.heap.mem a / 2 ^ 1)) → c1.rt = c.rt →
        Reaches env i pos rest c.rt (((objFields c.rt.heap a).2.map ofValue).reverse ++ st) (exec env i pos (asmUpvalues 1 n ++ rest) none c1) := by
      intro c1 r1 r2 r3 r4
      obtain ⟨c', p', i1, i2, i3⟩ := upvalues_ok (env := env) (i := i) (pos := pos) (rest := rest) n 1 c1 (v :: st) p r1 r2 (by rw [r4]; exact r3) (by rw [r4]; exact hlen) (by rw [r4]; omega)
      refine ⟨c', p', i1, ?_, i3.trans r4⟩
      rw [r4] at i2
      rw [hcons]
      simp only [List.map_cons, List.reverse_cons, List.append_assoc, List.singleton_append]
      exact i2
    simp [asmBindings, exec, step1, binop, Cpu.write, Cpu.read, setReg, h.sp, h8, h9, e1, e2, eb, es, - Nat.testBit_zero]
    refine H _ ?_ ?_ ?_ rfl
    · exact h.next (by simp [h.sp]) hm (by simp) (by simp)
    · simp [h8]
    · simp

theorem branches_ok {a n l j : Nat} {x : UInt64} : ∀ (table : List (UInt64 × Nat × Nat)) (k : Nat) (c : Cpu), Rel c (.ptr x :: st) p → c.reg .r8 = .heap c.hgen a →
    c.reg .r9 = .int (UInt64.ofNat (ptrsAt c.rt.heap.mem a)) → c.reg .r10 = .int (UInt64.ofNat (tagAt c.rt.heap.mem a)) → a + sizeAt c.rt.heap.mem a ≤ c.rt.heap.len →
    nfields c.rt.heap.mem a = n → findBranch (tagAt c.rt.heap.mem a) table = some (n, l) → pos l = some j →
    Matches i (exec env i pos (asmBranches k table) none c) (.next ⟨j, ((objFields c.rt.heap a).2.map ofValue).reverse ++ st, c.rt⟩) := by
  intro table
  induction table with
  | nil => intro k c _ _ _ _ _ _ hf; cases hf
  | cons e table ih =>
    obtain ⟨t, n', l'⟩ := e
    intro k c h h8 h9 h10 hlen hn hf hl
    have htl : tagAt c.rt.heap.mem a < 2 ^ 64 := readLE_lt _ _ _
    have key : (UInt64.ofNat (tagAt c.rt.heap.mem a) = t) ↔ t.toNat = tagAt c.rt.heap.mem a := by
      rw [← UInt64.toNat_inj, UInt64.toNat_ofNat', Nat.mod_eq_of_lt htl]
      exact eq_comm
    rw [findBranch] at hf
    rw [asmBranches]
    by_cases ht : t.toNat = tagAt c.rt.heap.mem a
    · rw [if_pos ht] at hf
      cases hf
      have H : ∀ c1 : Cpu, Rel c1 (.ptr x :: st) p → c1.reg .r8 = .heap c1.hgen a → c1.reg .r9 = .int (UInt64.ofNat (ptrsAt c.rt.heap.mem a)) → c1.rt = c.rt →
          Matches i (exec env i pos (asmBindings n ++ ([.jmpL l, .lab k] ++ asmBranches (k + 1) table)) none c1) (.next ⟨j, ((objFields c.rt.heap a).2.map ofValue).reverse ++ st, c.rt⟩) := by
        intro c1 r1 r2 r3 r4
        obtain ⟨c', p', i1, i2, i3⟩ := bindings_ok (env := env) (i := i) (pos := pos) (rest := [.jmpL l, .lab k] ++ asmBranches (k + 1) table) r1 r2 (by rw [r4]; exact r3) (by rw [r4]; exact hlen) (n := n) (by rw [r4]; exact hn)
        rw [i1]
        simp [exec, hl]
        exact ⟨c', p', .inl rfl, by rw [r4] at i2; simpa using i2, by rw [i3, r4]⟩
      have e : UInt64.ofNat (tagAt c.rt.heap.mem a) = t := key.2 ht
      simp [exec, step1, setReg, h10, holds, e]
      refine H _ ?_ ?_ ?_ rfl
      · exact h.next (by simp [h.sp]) h.mem (by simp) (by simp)
      · simp [h8]
      · simp [h9]
    · rw [if_neg ht] at hf
      have H : ∀ c1 : Cpu, Rel c1 (.ptr x :: st) p → c1.reg .r8 = .heap c1.hgen a → c1.reg .r9 = .int (UInt64.ofNat (ptrsAt c.rt.heap.mem a)) →
          c1.reg .r10 = .int (UInt64.ofNat (tagAt c.rt.heap.mem a)) → c1.rt = c.rt →
          Matches i (exec env i pos (asmBindings n' ++ (.jmpL l' :: .lab k :: asmBranches (k + 1) table)) (some k) c1) (.next ⟨j, ((objFields c.rt.heap a).2.map ofValue).reverse ++ st, c.rt⟩) := by
        intro c1 r1 r2 r3 r5 r4
        rw [exec_skip _ (bindings_noLab n')]
        simp only [exec]
        have := ih (k + 1) c1 r1 r2 (by rw [r4]; exact r3) (by rw [r4]; exact r5) (by rw [r4]; exact hlen) (by rw [r4]; exact hn) (by rw [r4]; exact hf) hl
        rw [r4] at this
        simpa using this
      have e : ¬ UInt64.ofNat (tagAt c.rt.heap.mem a) = t := fun h => ht (key.1 h)
      simp [exec, step1, setReg, h10, holds, e]
      refine H _ ?_ ?_ ?_ ?_ rfl
      · exact h.next (by simp [h.sp]) h.mem (by simp) (by simp)
      · simp [h8]
      · simp [h9]
      · simp [h10]

theorem branch_ok {table : List (UInt64 × Nat × Nat)} {a : UInt64} {o : Nat × List Value} {n l j : Nat} (h : Rel c (.ptr a :: st) p) (ho : hvFields c.rt.heap a.toNat = some o)
    (hf : findBranch o.1 table = some (n, l)) (hl : o.2.length = n) (hj : pos l = some j) :
    Matches i (exec env i pos (asmOp i (.branch table)) none c) (.next ⟨j, (o.2.map ofValue).reverse ++ st, c.rt⟩) := by
  obtain ⟨q1, q2, q3, rfl⟩ := inHeap_iff ho
  have hnf : (objFields c.rt.heap a.toNat).2.length = nfields c.rt.heap.mem a.toNat := by simp [objFields]
  obtain ⟨-, g2, g3⟩ := h.mem
  have g2 : c.mem p = .int a := g2
  have e1 : (0 : Int) ≤ (a.toNat : Int) + 8 ∧ (a.toNat : Int) + 8 + 8 ≤ c.rt.heap.len := by omega
  have e2 : ((a.toNat : Int) + 8).toNat = a.toNat + 8 := by omega
  have e3 : (0 : Int) ≤ (a.toNat : Int) + 16 ∧ (a.toNat : Int) + 16 + 8 ≤ c.rt.heap.len := by omega
  have e4 : ((a.toNat : Int) + 16).toNat = a.toNat + 16 := by omega
  have H := fun c1 => branches_ok (env := env) (i := i) (pos := pos) (st := st) (p := p) (a := a.toNat) (x := a) (n := n) (l := l) (j := j) table 0 c1
  simp [asmOp, exec, step1, addWord, Cpu.read, setReg, h.sp, h.base, g2, e1, e2, e3, e4]
  refine H _ ?_ ?_ ?_ ?_ q3 (hnf.symm.trans hl) hf hj
  · exact h.next (by simp [h.sp]) h.mem (by simp) (by simp)
  · simp
  · simp [ptrsAt]
  · simp [tagAt]

end

end Tic.Jit
