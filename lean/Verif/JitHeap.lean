/-
The operations of the JIT on the heap (`Jit.lean`) and the same operations on values (`JitMean.lean`): the first do what the second do, or hit a limit of the heap.
-/
import Verif.JitMean
import Verif.HeapVmEval

namespace Tic.Jit
open Tic.Core (BOp Op Intrinsic TVal VM VStep vmOp vmIntr Rep RepL HInv IsEmpty hvGc hvObject hvBytes hvBool hvOp setPtrs stackPtrs HVM HStep tagSize hvFields hvStr inHeap inHeap_of_mem hvFields_of hvStr_of strTag_mod strCharAt)
open Tic.Heap (Heap Value Runtime WF allocObject allocBytes objFields objBytes readLE tagAt stringTag)

/-! ### Stacks -/

/-- A return address as a number. -/
def eT : TVal → TVal
  | .obj tag fs => if tag < 2 ^ 64 then .obj tag fs else match fs with
    | [.int r] => .int r
    | _ => .obj tag fs
  | w => w

/-- A value of the machine as a value of the heap, with return addresses as numbers. -/
def er (ops : List JOp) : JVal → Value
  | .int x => .int x
  | .ptr a => .ptr a.toNat
  | .ret j => .int (UInt64.ofNat (skip ops j))

def isVal : JVal → Bool
  | .ret _ => false
  | _ => true

theorem eT_notRet {w : TVal} (h : notRet w = true) : eT w = w := by
  cases w with
  | obj tag fs =>
    have h : tag < 2 ^ 64 := of_decide_eq_true h
    exact if_pos h
  | _ => rfl

theorem map_eT : ∀ {ws : List TVal}, ws.all notRet = true → ws.map eT = ws
  | [], _ => rfl
  | w :: ws, h => by
    simp only [List.all_cons, Bool.and_eq_true] at h
    rw [List.map_cons, eT_notRet h.1, map_eT h.2]

section
variable {ops : List JOp} {h : Heap} {addrs : List Nat} {t f : Nat}

theorem er_int {v : JVal} {x : UInt64} (h : er ops v = .int x) (hv : isVal v = true) : v = .int x := by
  cases v <;> simp_all [er, isVal]
theorem er_ptr {v : JVal} {a : Nat} (h : er ops v = .ptr a) : ∃ p, v = .ptr p ∧ p.toNat = a := by
  cases v <;> simp_all [er]
theorem er_ret {v : JVal} {x : UInt64} (h : er ops v = .int x) (hv : isVal v = false) : ∃ j, v = .ret j ∧ UInt64.ofNat (skip ops j) = x := by
  cases v <;> simp_all [er, isVal]

/-- The stack of the machine and the stack of values. -/
structure JL (ops : List JOp) (h : Heap) (addrs : List Nat) (t f : Nat) (ws : List TVal) (vs : List JVal) : Prop where
  rep : RepL h addrs t f (ws.map eT) (vs.map (er ops))
  ret : ws.map notRet = vs.map isVal

theorem JL.nil : JL ops h addrs t f [] [] := ⟨.nil, rfl⟩

theorem JL.cons {w v ws vs} (h1 : Rep h addrs t f (eT w) (er ops v)) (h2 : notRet w = isVal v) (h3 : JL ops h addrs t f ws vs) :
    JL ops h addrs t f (w :: ws) (v :: vs) := ⟨.cons h1 h3.rep, by simp [h2, h3.ret]⟩

theorem JL.cons_inv {w ws vs} (h1 : JL ops h addrs t f (w :: ws) vs) :
    ∃ v vs', vs = v :: vs' ∧ Rep h addrs t f (eT w) (er ops v) ∧ notRet w = isVal v ∧ JL ops h addrs t f ws vs' := by
  obtain ⟨g1, g2⟩ := h1
  cases vs with
  | nil => simp at g2
  | cons v vs =>
    simp only [List.map_cons, List.cons.injEq] at g2
    obtain ⟨v', vs', e, q1, q2⟩ := g1.cons_inv
    simp only [List.map_cons, List.cons.injEq] at e
    obtain ⟨rfl, rfl⟩ := e
    exact ⟨v, vs, rfl, q1, g2.1, q2, g2.2⟩

theorem JL.nil_inv {vs} (h1 : JL ops h addrs t f [] vs) : vs = [] := by
  have := h1.ret
  cases vs with
  | nil => rfl
  | cons v vs => simp at this

theorem JL.len {ws vs} (h1 : JL ops h addrs t f ws vs) : ws.length = vs.length := by
  have := congrArg List.length h1.ret
  simpa using this

theorem JL.drop {ws vs} (n : Nat) (h1 : JL ops h addrs t f ws vs) : JL ops h addrs t f (ws.drop n) (vs.drop n) :=
  ⟨by have := h1.rep.drop n; rwa [← List.map_drop, ← List.map_drop] at this, by rw [List.map_drop, List.map_drop, h1.ret]⟩

theorem JL.take {ws vs} (n : Nat) (h1 : JL ops h addrs t f ws vs) : JL ops h addrs t f (ws.take n) (vs.take n) :=
  ⟨by have := h1.rep.take n; rwa [← List.map_take, ← List.map_take] at this, by rw [List.map_take, List.map_take, h1.ret]⟩

theorem JL.append {ws vs ws' vs'} (h1 : JL ops h addrs t f ws vs) (h2 : JL ops h addrs t f ws' vs') : JL ops h addrs t f (ws ++ ws') (vs ++ vs') :=
  ⟨by rw [List.map_append, List.map_append]; exact h1.rep.append h2.rep, by rw [List.map_append, List.map_append, h1.ret, h2.ret]⟩

theorem JL.set {ws vs w v} (n : Nat) (h1 : JL ops h addrs t f ws vs) (h2 : Rep h addrs t f (eT w) (er ops v)) (h3 : notRet w = isVal v) :
    JL ops h addrs t f (ws.set n w) (vs.set n v) :=
  ⟨by rw [List.map_set, List.map_set]; exact h1.rep.set n h2, by rw [List.map_set, List.map_set, h1.ret, h3]⟩

theorem JL.get : ∀ {ws vs} {i : Nat} {w}, JL ops h addrs t f ws vs → ws[i]? = some w →
    ∃ v, vs[i]? = some v ∧ Rep h addrs t f (eT w) (er ops v) ∧ notRet w = isVal v
  | [], _, _, _, _, e => by simp at e
  | _ :: _, _, i, w, h1, e => by
    obtain ⟨v, vs, rfl, h2, h3, h4⟩ := h1.cons_inv
    cases i with
    | zero => simp at e; subst e; exact ⟨v, by simp, h2, h3⟩
    | succ i => simpa using h4.get (i := i) (by simpa using e)

theorem tagAt_lt (m : Tic.Heap.Mem) (a : Nat) : tagAt m a < 2 ^ 64 := by
  have := Tic.Heap.readLE_lt m (a + 16) 8
  unfold tagAt
  exact this

theorem Rep.notRet {w : TVal} {v : Value} (h1 : Rep h addrs t f w v) : notRet w = true := by
  cases w with
  | obj tag fs =>
    obtain ⟨a, _, _, _, _, e, _⟩ := h1.obj_inv
    exact decide_eq_true (e ▸ tagAt_lt _ _)
  | _ => rfl

theorem RepL.notRet : ∀ {ws : List TVal} {vs : List Value}, RepL h addrs t f ws vs → ws.all notRet = true
  | [], _, _ => rfl
  | w :: ws, _, h1 => by
    obtain ⟨v, vs, rfl, h2, h3⟩ := h1.cons_inv
    simp [Rep.notRet h2, RepL.notRet h3]

theorem isVal_ofValue (v : Value) : isVal (ofValue v) = true := by cases v <;> rfl

theorem er_ofValue {v : Value} (hv : ∀ a, v = .ptr a → a < 2 ^ 64) : er ops (ofValue v) = v := by
  cases v with
  | int x => rfl
  | ptr a =>
    rw [ofValue, er, UInt64.toNat_ofNat', Nat.mod_eq_of_lt (hv a rfl)]

theorem addr_lt (hw : WF h addrs) {a : Nat} (ha : a ∈ addrs) : a < 2 ^ 64 := by
  have h1 := inHeap_of_mem hw ha
  have h2 := hw.lenlt
  simp only [inHeap, decide_eq_true_eq] at h1
  omega

/-- Fields of objects on the stack. -/
theorem JL.fields (hw : WF h addrs) (ht : t ∈ addrs) (hf : f ∈ addrs) {ws : List TVal} {vs : List Value} (h1 : RepL h addrs t f ws vs) :
    JL ops h addrs t f ws.reverse (vs.map ofValue).reverse := by
  have hm := h1.mem ht hf
  have hn := RepL.notRet h1
  have e1 : (vs.map ofValue).map (er ops) = vs := by
    rw [List.map_map]
    have : ∀ v ∈ vs, (er ops ∘ ofValue) v = id v := fun v hv => er_ofValue fun a e => addr_lt hw (by have := hm v hv; rw [e] at this; exact this)
    rw [List.map_congr_left this, List.map_id]
  refine ⟨?_, ?_⟩
  · rw [List.map_reverse, List.map_reverse, e1, map_eT hn]
    exact h1.reverse
  · rw [List.map_reverse, List.map_reverse, List.map_map]
    congr 1
    have h2 : ws.map notRet = List.replicate ws.length true := List.eq_replicate_iff.2 ⟨by simp, fun b hb => by
      obtain ⟨w, hw, rfl⟩ := List.mem_map.1 hb
      exact List.all_eq_true.1 hn w hw⟩
    have h3 : vs.map (isVal ∘ ofValue) = List.replicate vs.length true := List.eq_replicate_iff.2 ⟨by simp, fun b hb => by
      obtain ⟨w, hw, rfl⟩ := List.mem_map.1 hb
      exact isVal_ofValue w⟩
    rw [h2, h3, h1.len]

/-- The topmost values. -/
theorem jTake_eq : ∀ (n : Nat) (st : List JVal), n ≤ st.length → (∀ v ∈ st.take n, isVal v = true) →
    jTake n st = some ((st.take n).map (er ops)).reverse
  | 0, _, _, _ => by simp [jTake]
  | n + 1, [], h, _ => by simp at h
  | n + 1, v :: st, h, hv => by
    simp only [List.take_succ_cons, List.mem_cons, forall_eq_or_imp] at hv
    rw [jTake, jTake_eq n st (by simpa using h) hv.2]
    have : toValue v = some (er ops v) := by cases v <;> first | rfl | exact absurd hv.1 (by simp [isVal])
    simp [this]

theorem JL.isVal_of {ws vs} (h1 : JL ops h addrs t f ws vs) (h2 : ws.all notRet = true) : ∀ v ∈ vs, isVal v = true := by
  intro v hv
  have : isVal v ∈ vs.map isVal := List.mem_map.2 ⟨v, hv, rfl⟩
  rw [← h1.ret] at this
  obtain ⟨w, hw, e⟩ := List.mem_map.1 this
  rw [← e]
  exact List.all_eq_true.1 h2 w hw

end

/-! ### States -/

/-- The machine on the heap is where the machine on values is, but for operations that do nothing. -/
structure JInv (ops : List JOp) (consts : List (List UInt8)) (s : VM) (S : JVM) (addrs : List Nat) : Prop where
  ip : skip ops S.ip = s.ip
  inv : HInv consts ⟨0, s.stack.map eT⟩ ⟨0, S.stack.map (er ops), S.rt⟩ addrs
  ret : s.stack.map notRet = S.stack.map isVal

section
variable {ops : List JOp} {consts : List (List UInt8)} {addrs : List Nat}

theorem JInv.stack {s : VM} {S : JVM} (hi : JInv ops consts s S addrs) : JL ops S.rt.heap addrs S.rt.true_ S.rt.false_ s.stack S.stack :=
  ⟨hi.inv.stack, hi.ret⟩

theorem JInv.goto {s : VM} {S : JVM} (hi : JInv ops consts s S addrs) {ip i : Nat} {ws vs} (e : skip ops ip = i)
    (h1 : JL ops S.rt.heap addrs S.rt.true_ S.rt.false_ ws vs) : JInv ops consts ⟨i, ws⟩ ⟨ip, vs, S.rt⟩ addrs :=
  ⟨e, hi.inv.goto h1.rep, h1.ret⟩

theorem jPtrs_eq : ∀ st : List JVal, jPtrs st = stackPtrs (st.map (er ops))
  | [] => rfl
  | .int x :: st => jPtrs_eq st
  | .ret x :: st => jPtrs_eq st
  | .ptr a :: st => by rw [jPtrs, jPtrs_eq st]; rfl

theorem jSet_eq : ∀ (st : List JVal) (ps : List Nat), (∀ a, Value.ptr a ∈ setPtrs (st.map (er ops)) ps → a < 2 ^ 64) →
    (jSet st ps).map (er ops) = setPtrs (st.map (er ops)) ps ∧ (jSet st ps).map isVal = st.map isVal
  | [], ps, _ => ⟨rfl, rfl⟩
  | .int x :: st, ps, h => by
    simp only [List.map_cons, er, setPtrs, jSet, List.mem_cons, reduceCtorEq, false_or] at h ⊢
    obtain ⟨h1, h2⟩ := jSet_eq st ps h
    exact ⟨by rw [h1], by rw [h2]⟩
  | .ret x :: st, ps, h => by
    simp only [List.map_cons, er, setPtrs, jSet, List.mem_cons, reduceCtorEq, false_or] at h ⊢
    obtain ⟨h1, h2⟩ := jSet_eq st ps h
    exact ⟨by rw [h1], by rw [h2]⟩
  | .ptr a :: st, [], h => ⟨rfl, rfl⟩
  | .ptr a :: st, p :: ps, h => by
    simp only [List.map_cons, er, setPtrs, jSet, List.mem_cons] at h ⊢
    obtain ⟨h1, h2⟩ := jSet_eq st ps fun a ha => h a (.inr ha)
    refine ⟨?_, by rw [h2]; rfl⟩
    rw [h1, UInt64.toNat_ofNat', Nat.mod_eq_of_lt (h p (.inl rfl))]

/-- Agreement of one operation. -/
def SameJ (ops : List JOp) (consts : List (List UInt8)) (r : VM) (R : JStep) : Prop :=
  R = .limit ∨ ∃ S addrs, R = .next S ∧ JInv ops consts r S addrs

theorem jGc_ok {rt : Runtime} {st : List JVal} {ws : List TVal} {i ip : Nat} (hi : JInv ops consts ⟨i, ws⟩ ⟨ip, st, rt⟩ addrs) :
    SameJ ops consts ⟨i, ws⟩ (jGc ip st rt) := by
  have h1 := Core.hvGc_ok hi.inv
  unfold hvGc at h1
  unfold jGc
  rw [← List.map_reverse, ← jPtrs_eq] at h1
  cases e : rt.maybeGc (jPtrs st.reverse) with
  | none => exact .inl rfl
  | some r =>
    rw [e] at h1
    rcases h1 with h1 | ⟨hs', addrs', e1, h1⟩
    · cases h1
    · simp only [HStep.next.injEq] at e1
      subst e1
      obtain ⟨q1, q2⟩ := jSet_eq (ops := ops) st.reverse r.2 fun a ha => addr_lt h1.wf (h1.stack.mem h1.true_ h1.false_ (.ptr a) (List.mem_reverse.2 ha))
      refine .inr ⟨_, addrs', rfl, hi.ip, ?_, ?_⟩
      · show HInv consts _ ⟨0, ((jSet st.reverse r.2).reverse).map (er ops), r.1⟩ addrs'
        rw [List.map_reverse, q1]
        exact h1
      · show _ = ((jSet st.reverse r.2).reverse).map isVal
        rw [List.map_reverse, q2, ← List.map_reverse, List.reverse_reverse]
        exact hi.ret

theorem er_ptr_of {a : Nat} (h : a < 2 ^ 64) : er ops (.ptr (UInt64.ofNat a)) = .ptr a := by
  rw [er, UInt64.toNat_ofNat', Nat.mod_eq_of_lt h]

/-- After the allocation of an object. -/
theorem JInv.object {rt : Runtime} {st : List JVal} {ws fs : List TVal} {vals : List Value} {i ip tag a : Nat} {h' : Heap} (hi : JInv ops consts ⟨i, ws⟩ ⟨ip, st, rt⟩ addrs)
    (hv : RepL rt.heap addrs rt.true_ rt.false_ fs vals) (htag : tag < 2 ^ 64) (hcl : tag / tagSize ≠ 1) (hA : Tic.Heap.Allocated rt.heap addrs tag vals h' a) :
    JInv ops consts ⟨i, .obj tag fs :: ws⟩ ⟨ip, .ptr (UInt64.ofNat a) :: st, { rt with heap := h' }⟩ (a :: addrs) := by
  have hnr : notRet (.obj tag fs) = true := decide_eq_true htag
  refine ⟨hi.ip, ⟨rfl, hA.wf, List.mem_cons_of_mem _ hi.inv.true_, List.mem_cons_of_mem _ hi.inv.false_, hi.inv.ne,
    ⟨hi.inv.empty.1.alloc hi.inv.wf hA.old hi.inv.true_, hi.inv.empty.2.alloc hi.inv.wf hA.old hi.inv.false_⟩, ?_, ?_⟩, ?_⟩
  · show RepL h' _ _ _ (eT _ :: _) (er ops (.ptr (UInt64.ofNat a)) :: _)
    rw [er_ptr_of (addr_lt hA.wf (by simp)), eT_notRet hnr]
    exact .cons (Core.Allocated.rep hi.inv.wf hA hi.inv.true_ hi.inv.false_ hcl hv) (hi.inv.stack.alloc hi.inv.wf hA.old hi.inv.true_ hi.inv.false_)
  · exact hi.inv.consts.alloc hi.inv.wf hA.old hi.inv.true_ hi.inv.false_
  · show notRet _ :: _ = isVal _ :: _
    rw [hnr]
    exact congrArg _ hi.ret

/-- After the allocation of a string. -/
theorem JInv.bytes {rt : Runtime} {st : List JVal} {ws : List TVal} {i ip a : Nat} {bs : List UInt8} {h' : Heap} (hi : JInv ops consts ⟨i, ws⟩ ⟨ip, st, rt⟩ addrs)
    (hlen : bs.length < 2 ^ 32) (hA : Tic.Heap.AllocatedBytes rt.heap addrs (bs.length ||| stringTag) bs h' a) :
    JInv ops consts ⟨i, .str bs :: ws⟩ ⟨ip, .ptr (UInt64.ofNat a) :: st, { rt with heap := h' }⟩ (a :: addrs) := by
  refine ⟨hi.ip, ⟨rfl, hA.wf, List.mem_cons_of_mem _ hi.inv.true_, List.mem_cons_of_mem _ hi.inv.false_, hi.inv.ne,
      ⟨hi.inv.empty.1.alloc hi.inv.wf hA.old hi.inv.true_, hi.inv.empty.2.alloc hi.inv.wf hA.old hi.inv.false_⟩, ?_, ?_⟩, ?_⟩
  · show RepL h' _ _ _ (eT _ :: _) (er ops (.ptr (UInt64.ofNat a)) :: _)
    rw [er_ptr_of (addr_lt hA.wf (by simp))]
    exact .cons (Core.AllocatedBytes.rep hi.inv.wf hA hlen hi.inv.true_ hi.inv.false_) (hi.inv.stack.alloc hi.inv.wf hA.old hi.inv.true_ hi.inv.false_)
  · exact hi.inv.consts.alloc hi.inv.wf hA.old hi.inv.true_ hi.inv.false_
  · exact congrArg (true :: ·) hi.ret

theorem jObject_ok {rt : Runtime} {st : List JVal} {ws fs : List TVal} {vals : List Value} {i ip tag : Nat} (hi : JInv ops consts ⟨i, ws⟩ ⟨ip, st, rt⟩ addrs)
    (hv : RepL rt.heap addrs rt.true_ rt.false_ fs vals) (htag : tag < 2 ^ 64) (hcl : tag / tagSize ≠ 1) {n : Nat} (hn : vals.length = n) :
    SameJ ops consts ⟨i, .obj tag fs :: ws⟩ (if n ≤ 64 then
      match allocObject rt.heap tag vals with
      | some r => jGc ip (.ptr (UInt64.ofNat r.2) :: st) { rt with heap := r.1 }
      | none => .limit
    else .limit) := by
  subst hn
  split
  · rename_i hn
    cases e : allocObject rt.heap tag vals with
    | none => exact .inl rfl
    | some r =>
      obtain ⟨h', a⟩ := r
      have hA := Tic.Heap.allocObject_some hi.inv.wf htag hn (fun p hp => hv.mem hi.inv.true_ hi.inv.false_ _ hp) e
      exact jGc_ok (addrs := a :: addrs) (hi.object hv htag hcl hA)
  · exact .inl rfl

theorem jBytes_ok {rt : Runtime} {st : List JVal} {ws : List TVal} {i ip : Nat} {bs : List UInt8} (hi : JInv ops consts ⟨i, ws⟩ ⟨ip, st, rt⟩ addrs) :
    SameJ ops consts ⟨i, .str bs :: ws⟩ (jBytes ip st rt bs) := by
  unfold jBytes
  cases e : allocBytes rt.heap (bs.length ||| stringTag) bs with
  | none => exact .inl rfl
  | some r =>
    obtain ⟨h', a⟩ := r
    have hlen := Core.allocBytes_small e
    have htag : bs.length ||| stringTag < 2 ^ 64 := Nat.or_lt_two_pow (by omega) (by unfold stringTag; decide)
    have hA := Tic.Heap.allocBytes_some hi.inv.wf htag e
    exact jGc_ok (addrs := a :: addrs) (hi.bytes hlen hA)

/-- No string is built as an object. -/
def GoodTags (ops : List JOp) : Prop := ∀ tag n, JOp.construct tag n ∈ ops → tag.toNat / tagSize ≠ 1

theorem jArith_rep {h : Heap} {rt : Runtime} (ht : rt.true_ < 2 ^ 64) (hf : rt.false_ < 2 ^ 64) (o : Op) (a b : UInt64) :
    Rep h addrs rt.true_ rt.false_ (eT (vmOp o a b)) (er ops (jArith rt o a b)) ∧ notRet (vmOp o a b) = true ∧ isVal (jArith rt o a b) = true := by
  have e : er ops (jArith rt o a b) = hvOp rt o a b := by
    have hb : ∀ c : Bool, er ops (jBool rt c) = hvBool rt c := fun c => by
      rw [jBool, er_ptr_of (by cases c <;> assumption)]; rfl
    cases o <;> first | rfl | exact hb _
  have hn : notRet (vmOp o a b) = true := by cases o <;> rfl
  refine ⟨?_, hn, by cases o <;> rfl⟩
  rw [e, eT_notRet hn]
  exact Core.hvOp_rep o a b

theorem jIntr_ok {ws ws' : List TVal} {S : JVM} {i ip : Nat} (hi : JInv ops consts ⟨i, ws⟩ S addrs) (hip : S.ip = ip) (o : Intrinsic)
    (e : vmIntr o ws = some ws') : SameJ ops consts ⟨i, ws'⟩ (jIntr ip S.rt o S.stack) := by
  subst hip
  have hst := hi.stack
  have hw := hi.inv.wf
  have hsk := hi.ip
  simp only at hst hw
  cases o with
  | stringLen =>
    match ws, e, hst with
    | .str s :: ws, e, hst =>
      simp only [vmIntr, Option.some.injEq] at e
      subst e
      obtain ⟨v, vs, hvs, hv, hn, hst⟩ := hst.cons_inv
      obtain ⟨a, ea, ha, _, _, hs'⟩ := hv.str_inv
      obtain ⟨p, rfl, rfl⟩ := er_ptr ea
      rw [hvs, jIntr, hvFields_of hw ha]
      have e1 := strTag_mod hs'.small
      simp only []
      rw [show (objFields S.rt.heap p.toNat).1 = tagAt S.rt.heap.mem p.toNat from rfl, hs'.tag, if_pos e1.2, e1.1]
      exact .inr ⟨_, addrs, rfl, hi.goto hsk (.cons (.int _) rfl hst)⟩
  | stringCharAt =>
    match ws, e, hst with
    | .str s :: .int x :: ws, e, hst =>
      simp only [vmIntr, Option.some.injEq] at e
      subst e
      obtain ⟨v, vs, hvs, hv, hn, hst⟩ := hst.cons_inv
      obtain ⟨a, ea, ha, _, _, hs'⟩ := hv.str_inv
      obtain ⟨p, rfl, rfl⟩ := er_ptr ea
      obtain ⟨v, vs, rfl, hv, hn, hst⟩ := hst.cons_inv
      rw [er_int hv.int_inv hn.symm] at hvs
      rw [hvs, jIntr, if_pos (inHeap_of_mem hw ha), hs'.tag, (strTag_mod hs'.small).1]
      have hget : x.toNat < s.length → (objBytes S.rt.heap p.toNat).2[x.toNat]? = s[x.toNat]? := fun hlt => by
        have h0 := congrArg (fun l => l[x.toNat]?) hs'.bytes
        simp only [List.getElem?_take_of_lt hlt] at h0
        exact h0
      split
      · rename_i hlt
        rw [hget hlt, List.getElem?_eq_getElem hlt]
        refine jGc_ok (addrs := addrs) (hi.goto hsk (.cons ?_ rfl hst))
        rw [strCharAt, List.getElem?_eq_getElem hlt]
        exact .int _
      · rename_i hlt
        refine jGc_ok (addrs := addrs) (hi.goto hsk (.cons ?_ rfl hst))
        rw [strCharAt, List.getElem?_eq_none (by omega)]
        exact .int _
  | stringConcat =>
    match ws, e, hst with
    | .str s2 :: .str s1 :: ws, e, hst =>
      simp only [vmIntr, Option.some.injEq] at e
      subst e
      obtain ⟨v, vs, hvs, hv, hn, hst1⟩ := hst.cons_inv
      obtain ⟨a2, e2, ha2, _, _, hs2⟩ := hv.str_inv
      obtain ⟨p2, rfl, rfl⟩ := er_ptr e2
      obtain ⟨v', vs', rfl, hv', hn', hst2⟩ := hst1.cons_inv
      obtain ⟨a1, e1, ha1, _, _, hs1⟩ := hv'.str_inv
      obtain ⟨p1, rfl, rfl⟩ := er_ptr e1
      rw [hvs, jIntr, hvStr_of hw ha2 hs2, hvStr_of hw ha1 hs1]
      exact jBytes_ok (addrs := addrs) (hi.goto hsk hst2)
  | stringSubstring =>
    match ws, e, hst with
    | .str s :: .int len :: .int start :: ws, e, hst =>
      simp only [vmIntr, Option.some.injEq] at e
      subst e
      obtain ⟨v, vs, hvs, hv, hn, hst⟩ := hst.cons_inv
      obtain ⟨a, ea, ha, _, _, hs'⟩ := hv.str_inv
      obtain ⟨p, rfl, rfl⟩ := er_ptr ea
      obtain ⟨v, vs, rfl, hv, hn, hst⟩ := hst.cons_inv
      rw [er_int hv.int_inv hn.symm] at hvs
      obtain ⟨v, vs, rfl, hv, hn, hst⟩ := hst.cons_inv
      rw [er_int hv.int_inv hn.symm] at hvs
      rw [hvs, jIntr, hvStr_of hw ha hs']
      exact jBytes_ok (addrs := addrs) (hi.goto hsk hst)
  | stringFromChar =>
    match ws, e, hst with
    | .int x :: ws, e, hst =>
      simp only [vmIntr, Option.some.injEq] at e
      subst e
      obtain ⟨v, vs, hvs, hv, hn, hst⟩ := hst.cons_inv
      rw [er_int hv.int_inv hn.symm] at hvs
      rw [hvs, jIntr]
      exact jBytes_ok (addrs := addrs) (hi.goto hsk hst)
  | intToString =>
    match ws, e, hst with
    | .int x :: ws, e, hst =>
      simp only [vmIntr, Option.some.injEq] at e
      subst e
      obtain ⟨v, vs, hvs, hv, hn, hst⟩ := hst.cons_inv
      rw [er_int hv.int_inv hn.symm] at hvs
      rw [hvs, jIntr]
      exact jBytes_ok (addrs := addrs) (hi.goto hsk hst)

/-- Agreement of one operation that may also end the run. -/
def SameStepJ (ops : List JOp) (consts : List (List UInt8)) (addrs : List Nat) (S : JVM) (r : VStep) (R : JStep) : Prop :=
  match r with
  | .next s => SameJ ops consts s R
  | .exit st => R = .exit S ∧ JL ops S.rt.heap addrs S.rt.true_ S.rt.false_ st S.stack
  | .trap m => R = .trap m
  | .stuck => True

theorem jvStep_ok {entries : List Nat} (hops : GoodTags ops) {s : VM} {S : JVM} (hi : JInv ops consts s S addrs) (hip : S.ip = s.ip) (hlen : ops.length < 2 ^ 64) :
    SameStepJ ops consts addrs S (jmStep entries consts ops s) (jvStep entries ops S) := by
  obtain ⟨ip, ws⟩ := s
  obtain ⟨ip', vs, rt⟩ := S
  obtain rfl : ip' = ip := hip
  have hst := hi.stack
  have hw := hi.inv.wf
  have hT := hi.inv.true_
  have hF := hi.inv.false_
  simp only at hst hw hT hF
  have next : ∀ {i j : Nat} {ws vs}, skip ops i = j → JL ops rt.heap addrs rt.true_ rt.false_ ws vs → SameJ ops consts ⟨j, ws⟩ (.next ⟨i, vs, rt⟩) :=
    fun e h => .inr ⟨_, addrs, rfl, hi.goto e h⟩
  unfold jmStep jvStep
  cases ho : ops[ip']? with
  | none => trivial
  | some o =>
    simp only []
    cases o with
    | pushInt x => exact next rfl (.cons (.int x) rfl hst)
    | pushBool b =>
      refine next rfl (.cons ?_ rfl hst)
      have hb : (if b = true then rt.true_ else rt.false_) < 2 ^ 64 := by
        cases b
        · exact addr_lt hw hF
        · exact addr_lt hw hT
      rw [jBool, er_ptr_of hb, eT_notRet rfl, Rep]
    | pick d =>
      cases hd : ws[d]? with
      | none => simp only [hd]; trivial
      | some w =>
        obtain ⟨v, hv, hr, hn⟩ := hst.get hd
        simp only [hd, hv]
        exact next rfl (.cons hr hn hst)
    | set d =>
      cases ws with
      | nil => trivial
      | cons w ws =>
        obtain ⟨v, vs, rfl, hv, hn, hst⟩ := hst.cons_inv
        simp only [hst.len]
        split
        · exact next rfl (hst.set d hv hn)
        · trivial
    | popN n =>
      simp only [hst.len]
      split
      · exact next rfl (hst.drop n)
      · trivial
    | swapPop =>
      cases ws with
      | nil => trivial
      | cons w ws =>
        cases ws with
        | nil => trivial
        | cons w2 ws =>
          obtain ⟨v, vs, rfl, hv, hn, hst⟩ := hst.cons_inv
          obtain ⟨v2, vs, rfl, hv2, hn2, hst⟩ := hst.cons_inv
          exact next rfl (.cons hv hn hst)
    | arith o =>
      match ws, hst with
      | .int b :: .int a :: ws, hst =>
        obtain ⟨v, vs, rfl, hv, hn, hst⟩ := hst.cons_inv
        obtain ⟨v2, vs, rfl, hv2, hn2, hst⟩ := hst.cons_inv
        rw [er_int hv.int_inv hn.symm, er_int hv2.int_inv hn2.symm]
        obtain ⟨q1, q2, q3⟩ := jArith_rep (ops := ops) (h := rt.heap) (addrs := addrs) (addr_lt hw hT) (addr_lt hw hF) o a b
        exact next rfl (.cons q1 (q2.trans q3.symm) hst)
      | [], _ => trivial
      | [.int _], _ => trivial
      | .int _ :: .bool _ :: _, _ => trivial
      | .int _ :: .str _ :: _, _ => trivial
      | .int _ :: .obj _ _ :: _, _ => trivial
      | .bool _ :: _, _ => trivial
      | .str _ :: _, _ => trivial
      | .obj _ _ :: _, _ => trivial
    | jump l =>
      cases hl : labelPos l ops with
      | none => simp only [hl]; trivial
      | some i => simp only [hl]; exact next rfl hst
    | jumpIfFalse l =>
      match ws, hst with
      | .bool b :: ws, hst =>
        obtain ⟨v, vs, rfl, hv, hn, hst1⟩ := hst.cons_inv
        obtain ⟨p, rfl, hp⟩ := er_ptr hv.bool_inv
        have hne := hi.inv.ne
        simp only at hne
        have hpt : p = UInt64.ofNat rt.true_ ↔ b = true := by
          rw [← UInt64.toNat_inj, UInt64.toNat_ofNat', Nat.mod_eq_of_lt (addr_lt hw hT), hp]
          cases b
          · simp [Ne.symm hne]
          · simp
        simp only []
        cases b with
        | false =>
          rw [if_neg Bool.false_ne_true, if_neg (by simpa using hpt)]
          cases hl : labelPos l ops with
          | none => trivial
          | some i => exact next rfl hst1
        | true =>
          rw [if_pos rfl, if_pos (by simpa using hpt)]
          exact next rfl hst1
      | [], _ => trivial
      | .int _ :: _, _ => trivial
      | .str _ :: _, _ => trivial
      | .obj _ _ :: _, _ => trivial
    | ret params captures =>
      cases ws with
      | nil => trivial
      | cons w ws =>
        obtain ⟨v, vs, rfl, hv, hn, hst⟩ := hst.cons_inv
        have hd := hst.drop captures
        simp only []
        generalize ws.drop captures = ws1 at hd ⊢
        generalize vs.drop captures = vs1 at hd ⊢
        match ws1, hd with
        | .obj tag [.int r] :: _ :: ws, hd =>
          obtain ⟨v1, vs1, rfl, hv1, hn1, hd⟩ := hd.cons_inv
          obtain ⟨v2, vs2, rfl, hv2, hn2, hd2⟩ := hd.cons_inv
          simp only []
          split
          · rename_i hc
            obtain ⟨rfl, hc⟩ := hc
            rw [show eT (.obj retTag [.int r]) = .int r from rfl] at hv1
            rw [show notRet (.obj retTag [.int r]) = false from rfl] at hn1
            obtain ⟨j, rfl, hj⟩ := er_ret hv1.int_inv hn1.symm
            rw [hd2.len] at hc
            simp only []
            rw [if_pos hc]
            refine next ?_ (.cons hv hn (hd2.drop params))
            rw [← hj, UInt64.toNat_ofNat', Nat.mod_eq_of_lt (Nat.lt_of_le_of_lt (skip_le ops j) hlen)]
          · trivial
        | [], _ => trivial
        | [.obj tag [.int r]], _ => trivial
        | .obj _ [] :: _, _ => trivial
        | .obj _ (.bool _ :: _) :: _, _ => trivial
        | .obj _ (.str _ :: _) :: _, _ => trivial
        | .obj _ (.obj _ _ :: _) :: _, _ => trivial
        | .obj _ (.int _ :: _ :: _) :: _, _ => trivial
        | .int _ :: _, _ => trivial
        | .bool _ :: _, _ => trivial
        | .str _ :: _, _ => trivial
    | call =>
      match ws, hst with
      | .obj tag fs :: ws, hst =>
        simp only []
        cases he : entries[tag % tagSize]? with
        | none => trivial
        | some i =>
          simp only []
          split
          · rename_i htag
            obtain ⟨v, vs, rfl, hv, hn, hst'⟩ := hst.cons_inv
            rw [show eT (.obj tag fs) = .obj tag fs from if_pos htag] at hv
            obtain ⟨a, ea, ha, _, _, ht, _, _⟩ := hv.obj_inv
            obtain ⟨p, rfl, rfl⟩ := er_ptr ea
            simp only [hvFields_of hw ha]
            rw [show (objFields rt.heap p.toNat).1 = tag from ht, he]
            refine next rfl (.cons ?_ rfl hst)
            show Rep _ _ _ _ (.int _) (.int _)
            exact .int _
          · trivial
      | [], _ => trivial
      | .int _ :: _, _ => trivial
      | .str _ :: _, _ => trivial
      | .bool _ :: _, _ => trivial
    | enter k u =>
      match ws, hst with
      | r :: .obj tag fs :: ws, hst =>
        simp only []
        split
        · rename_i hc
          obtain ⟨htag, hk⟩ := hc
          obtain ⟨v, vs, rfl, hv, hn, hst'⟩ := hst.cons_inv
          obtain ⟨v2, vs, rfl, hv2, hn2, hst''⟩ := hst'.cons_inv
          rw [show eT (.obj tag fs) = .obj tag fs from if_pos htag] at hv2
          obtain ⟨a, ea, ha, _, _, ht, _, hfs⟩ := hv2.obj_inv
          obtain ⟨p, rfl, rfl⟩ := er_ptr ea
          cases k with
          | zero =>
            rw [List.length_eq_zero_iff] at hk
            subst hk
            exact next rfl hst
          | succ k =>
            simp only [hvFields_of hw ha, ← hfs.len, hk, if_true]
            exact next rfl ((JL.fields hw hT hF hfs).append hst)
        · trivial
      | [], _ => trivial
      | [_], _ => trivial
      | _ :: .int _ :: _, _ => trivial
      | _ :: .bool _ :: _, _ => trivial
      | _ :: .str _ :: _, _ => trivial
    | construct tag n =>
      simp only []
      split
      · rename_i hc
        obtain ⟨hn, hall⟩ := hc
        have hlt := hst.take n
        rw [jTake_eq (ops := ops) n vs (by rw [← hst.len]; exact hn) (hlt.isVal_of hall)]
        have hfs := hlt.rep.reverse
        rw [map_eT hall] at hfs
        exact jObject_ok (hi.goto (ip := ip' + 1) rfl (hst.drop n)) hfs (UInt64.toNat_lt tag) (hops tag n (List.mem_iff_getElem?.2 ⟨_, ho⟩))
          (by have := hst.len; simp; omega)
      · trivial
    | branch table =>
      match ws, hst with
      | .obj tag fs :: ws, hst =>
        simp only []
        cases hf : findBranch tag table with
        | none => trivial
        | some r =>
          obtain ⟨n, l⟩ := r
          simp only []
          split
          · rename_i hc
            obtain ⟨htag, hn⟩ := hc
            cases hl : labelPos l ops with
            | none => trivial
            | some i =>
              obtain ⟨v, vs, rfl, hv, hnr, hst'⟩ := hst.cons_inv
              rw [show eT (.obj tag fs) = .obj tag fs from if_pos htag] at hv
              obtain ⟨a, ea, ha, _, _, ht, _, hfs⟩ := hv.obj_inv
              obtain ⟨p, rfl, rfl⟩ := er_ptr ea
              simp only [hvFields_of hw ha]
              rw [show (objFields rt.heap p.toNat).1 = tag from ht, hf]
              simp only [← hfs.len, hn, if_true, hl]
              exact next rfl ((JL.fields hw hT hF hfs).append hst')
          · trivial
      | [], _ => trivial
      | .int _ :: _, _ => trivial
      | .str _ :: _, _ => trivial
      | .bool _ :: _, _ => trivial
    | const i =>
      cases hc : consts[i]? with
      | none => simp only [hc]; trivial
      | some c =>
        obtain ⟨v, hv, hr⟩ := hi.inv.consts.get (i := i) (w := .str c) (by rw [List.getElem?_map, hc]; rfl)
        rw [List.getElem?_map] at hv
        simp only at hv
        cases hd : rt.consts[i]? with
        | none => rw [hd] at hv; simp at hv
        | some a =>
          rw [hd] at hv
          simp only [Option.map_some, Option.some.injEq] at hv
          subst hv
          simp only [hc, hd]
          refine next rfl (.cons ?_ rfl hst)
          obtain ⟨a', e, ha, _⟩ := hr.str_inv
          cases e
          rw [er_ptr_of (addr_lt hw ha)]
          exact hr
    | trap m => rfl
    | intr o =>
      simp only []
      cases hi' : vmIntr o ws with
      | none => trivial
      | some ws' =>
        exact jIntr_ok (S := ⟨ip' + 1, vs, rt⟩) (hi.goto (ip := ip' + 1) rfl hst) rfl o hi'
    | label l => trivial
    | exit => exact ⟨rfl, hst⟩

/-! ### Runs -/

theorem silent_step {entries : List Nat} {S : JVM} {o : JOp} (ho : ops[S.ip]? = some o) (hs : o.silent = true) :
    jvStep entries ops S = .next ⟨S.ip + 1, S.stack, S.rt⟩ := by
  rw [jvStep, ho]
  cases o with
  | label l => rfl
  | enter k u =>
    cases k with
    | zero => rfl
    | succ k => cases hs
  | _ => cases hs

theorem jv_skip {entries : List Nat} : ∀ (d : Nat) {S : JVM}, lead (ops.drop S.ip) = d → S.ip < ops.length →
    skip ops (S.ip + d) = S.ip + d ∧ ∀ m, jvRun entries ops (d + m) S = jvRun entries ops m ⟨S.ip + d, S.stack, S.rt⟩
  | 0, S, h, hl => by
    refine ⟨?_, fun m => by rw [Nat.zero_add]; rfl⟩
    rw [skip, Nat.add_zero, h]
    omega
  | d + 1, S, h, hl => by
    have ho := List.getElem?_eq_getElem hl
    rw [List.drop_eq_getElem_cons hl, lead] at h
    split at h
    · rename_i hs
      have hd : lead (ops.drop (S.ip + 1)) = d := by omega
      have hst := silent_step (entries := entries) ho hs
      by_cases hl' : S.ip + 1 < ops.length
      · obtain ⟨h1, h2⟩ := jv_skip (entries := entries) d (S := ⟨S.ip + 1, S.stack, S.rt⟩) hd hl'
        simp only [show S.ip + 1 + d = S.ip + (d + 1) by omega] at h1 h2
        refine ⟨h1, fun m => ?_⟩
        rw [← h2 m, Nat.add_right_comm, jvRun, hst]
      · rw [List.drop_eq_nil_of_le (by omega), lead] at hd
        subst hd
        refine ⟨?_, fun m => ?_⟩
        · rw [skip, List.drop_eq_nil_of_le (by omega), lead]; omega
        · rw [Nat.add_right_comm, jvRun, hst, Nat.zero_add]
    · cases h

/-- The machine on the heap reaches an operation that does something. -/
theorem jv_catch {entries : List Nat} {s : VM} {S : JVM} (hi : JInv ops consts s S addrs) (hs : s.ip < ops.length) :
    ∃ d, JInv ops consts s ⟨s.ip, S.stack, S.rt⟩ addrs ∧ ∀ m, jvRun entries ops (d + m) S = jvRun entries ops m ⟨s.ip, S.stack, S.rt⟩ := by
  have h := hi.ip
  rw [skip] at h
  have hl : S.ip < ops.length := by omega
  obtain ⟨h1, h2⟩ := jv_skip (ops := ops) (entries := entries) _ rfl hl
  have e : S.ip + lead (ops.drop S.ip) = s.ip := by omega
  rw [e] at h1 h2
  exact ⟨_, ⟨h1, hi.inv, hi.ret⟩, h2⟩

theorem jmStep_lt {entries : List Nat} {s : VM} (h : jmStep entries consts ops s ≠ .stuck) : s.ip < ops.length := by
  refine Decidable.byContradiction fun hc => h ?_
  rw [jmStep, List.getElem?_eq_none (by omega)]

/-- After some steps of the machine on values. -/
theorem jv_steps {bops : List BOp} {a : Asm} {fns : List (List BOp)} {D : Nat} (hops : GoodTags a.ops) (hlen : a.ops.length < 2 ^ 64) :
    ∀ (k : Nat) {s t : VM} {S : JVM} {addrs : List Nat}, Core.Bc.Steps (jlp bops a fns D) k s t → JInv a.ops a.link.consts s S addrs →
    ∃ n, k ≤ n ∧ ((∀ m, jvRun a.entries a.ops (n + m) S = .limit) ∨ ∃ T addrs', JInv a.ops a.link.consts t T addrs' ∧
      ∀ m, jvRun a.entries a.ops (n + m) S = jvRun a.entries a.ops m T)
  | 0, s, t, S, addrs, h, hi => by
    cases h
    exact ⟨0, Nat.le_refl _, .inr ⟨S, addrs, hi, fun m => by rw [Nat.zero_add]⟩⟩
  | k + 1, s, t, S, addrs, ⟨u, h1, h2⟩, hi => by
    have h1 : jmStep a.entries a.link.consts a.ops s = .next u := h1
    obtain ⟨d, hi', hd⟩ := jv_catch (entries := a.entries) hi (jmStep_lt (by rw [h1]; nofun))
    have hst := jvStep_ok (entries := a.entries) hops hi' rfl hlen
    rw [h1] at hst
    rcases hst with hst | ⟨U, addrs1, hst, hU⟩
    · refine ⟨d + (k + 1), by omega, .inl fun m => ?_⟩
      rw [Nat.add_assoc, hd, Nat.add_right_comm, jvRun, hst]
    · obtain ⟨n, hn, hrun⟩ := jv_steps hops hlen k h2 hU
      refine ⟨d + (n + 1), by omega, ?_⟩
      have e : ∀ m, jvRun a.entries a.ops (d + (n + 1) + m) S = jvRun a.entries a.ops (n + m) U := fun m => by
        rw [Nat.add_assoc, hd, Nat.add_right_comm, jvRun, hst]
      rcases hrun with hrun | ⟨T, addrs', hT, hrun⟩
      · exact .inl fun m => by rw [e, hrun]
      · exact .inr ⟨T, addrs', hT, fun m => by rw [e, hrun]⟩

/-- The run ends. -/
theorem jv_exit {entries : List Nat} (hops : GoodTags ops) (hlen : ops.length < 2 ^ 64) {s : VM} {S : JVM} (hi : JInv ops consts s S addrs)
    {st : List TVal} (h : jmStep entries consts ops s = .exit st) :
    ∃ n T, (∀ m, jvRun entries ops (n + m) S = .res (.ok T)) ∧ HInv consts ⟨0, s.stack.map eT⟩ ⟨0, T.stack.map (er ops), T.rt⟩ addrs ∧
      JL ops T.rt.heap addrs T.rt.true_ T.rt.false_ st T.stack := by
  obtain ⟨d, hi', hd⟩ := jv_catch (entries := entries) hi (jmStep_lt (by rw [h]; nofun))
  have hst := jvStep_ok (entries := entries) hops hi' rfl hlen
  rw [h] at hst
  refine ⟨d + 1, _, fun m => ?_, hi'.inv, hst.2⟩
  rw [Nat.add_assoc, hd, Nat.add_comm, jvRun, hst.1]

theorem jv_trap {entries : List Nat} (hops : GoodTags ops) (hlen : ops.length < 2 ^ 64) {s : VM} {S : JVM} (hi : JInv ops consts s S addrs)
    {msg : String} (h : jmStep entries consts ops s = .trap msg) : ∃ n, ∀ m, jvRun entries ops (n + m) S = .res (.trap msg) := by
  obtain ⟨d, hi', hd⟩ := jv_catch (entries := entries) hi (jmStep_lt (by rw [h]; nofun))
  have hst := jvStep_ok (entries := entries) hops hi' rfl hlen
  rw [h] at hst
  refine ⟨d + 1, fun m => ?_⟩
  rw [Nat.add_assoc, hd, Nat.add_comm, jvRun, show jvStep entries ops _ = _ from hst]

end
end Tic.Jit
