import Verif.HeapVmRep
import Verif.PropBytecode
/-
The heap machine does what the machine on trees does.
-/
namespace Tic.Core
open Tic.Heap

/-- The heap machine's state stands for a state of the machine on trees. -/
structure HInv (consts : List (List UInt8)) (s : VM) (hs : HVM) (addrs : List Nat) : Prop where
  ip : hs.ip = s.ip
  wf : WF hs.rt.heap addrs
  true_ : hs.rt.true_ ∈ addrs
  false_ : hs.rt.false_ ∈ addrs
  ne : hs.rt.true_ ≠ hs.rt.false_
  empty : IsEmpty hs.rt.heap hs.rt.true_ ∧ IsEmpty hs.rt.heap hs.rt.false_
  stack : RepL hs.rt.heap addrs hs.rt.true_ hs.rt.false_ s.stack hs.stack
  consts : RepL hs.rt.heap addrs hs.rt.true_ hs.rt.false_ (consts.map .str) (hs.rt.consts.map .ptr)

/-- The code allocates objects with tags of constructors or functions only. -/
def GoodOps (ops : List LOp) : Prop := ∀ tag n, LOp.construct tag n ∈ ops → tag < 2 ^ 64 ∧ tag / tagSize ≠ 1

/-! ### Collections -/

theorem setPtrs_map (φ : Nat → Nat) : ∀ st : List Value, setPtrs st ((stackPtrs st).map φ) = st.map (Value.move φ)
  | [] => rfl
  | .int x :: st => by
    have := setPtrs_map φ st
    simp only [stackPtrs, List.filterMap_cons, setPtrs, List.map_cons, Value.move] at this ⊢
    rw [this]
  | .ptr a :: st => by
    have := setPtrs_map φ st
    simp only [stackPtrs, List.filterMap_cons, setPtrs, List.map_cons, Value.move] at this ⊢
    rw [this]

theorem mem_stackPtrs {st : List Value} {a : Nat} : a ∈ stackPtrs st ↔ Value.ptr a ∈ st := by
  simp only [stackPtrs, List.mem_filterMap]
  constructor
  · rintro ⟨v, h1, h2⟩
    cases v with
    | int x => simp at h2
    | ptr b => simp only [Option.some.injEq] at h2; exact h2 ▸ h1
  · intro h; exact ⟨_, h, rfl⟩

/-- What a collection leaves. -/
theorem gc_some {rt rt' : Runtime} {addrs ps ps' : List Nat} (hw : WF rt.heap addrs)
    (hr : ∀ p ∈ ps ++ rt.consts ++ [rt.true_] ++ [rt.false_], p ∈ addrs) (e : rt.gc ps = some (rt', ps')) :
    ∃ rs φ addrs', Moves rt.heap rs rt'.heap addrs' φ ∧ (∀ p ∈ ps ++ rt.consts ++ [rt.true_] ++ [rt.false_], p ∈ rs) ∧
      WF rt'.heap addrs' ∧ ps' = ps.map φ ∧ rt'.consts = rt.consts.map φ ∧ rt'.true_ = φ rt.true_ ∧ rt'.false_ = φ rt.false_ := by
  simp only [Runtime.gc, Option.map_eq_some_iff] at e
  obtain ⟨⟨h', roots⟩, e1, e2⟩ := e
  simp only [Prod.mk.injEq] at e2
  obtain ⟨e2, e3⟩ := e2
  obtain ⟨φ, hC⟩ := collectInner_some hw hr e1
  have hroots := hC.roots
  refine ⟨_, φ, (reachable rt.heap addrs (ps ++ rt.consts ++ [rt.true_] ++ [rt.false_])).map φ, ?_, fun p hp => (hC.reach p).2 (.base hp), ?_, ?_, ?_, ?_, ?_⟩
  · rw [← e2]; exact Moves.of_collected hC
  · rw [← e2]; exact hC.wf
  · rw [← e3, hroots]
    simp [List.map_append]
  · rw [← e2, hroots]
    simp [List.map_append]
  · rw [← e2, hroots]
    simp [List.map_append, List.getD]
  · rw [← e2, hroots]
    simp [List.map_append, List.getD]

theorem ptr_in {addrs : List Nat} {vs : List Value} (h : ∀ v ∈ vs, v.In addrs) {a : Nat} (ha : Value.ptr a ∈ vs) : a ∈ addrs :=
  h _ ha

theorem mem_map_ptr {l : List Nat} {p : Nat} (h : p ∈ l) : Value.ptr p ∈ l.map Value.ptr := List.mem_map.2 ⟨p, h, rfl⟩

theorem map_ptr_move (l : List Nat) (φ : Nat → Nat) : (l.map Value.ptr).map (Value.move φ) = (l.map φ).map Value.ptr := by
  simp [List.map_map, Function.comp_def, Value.move]

/-- The state as the constants and roots see it: everything but the program counter. -/
theorem hvGc_ok {consts : List (List UInt8)} {rt : Runtime} {addrs : List Nat} {st : List Value} {ws : List TVal} {ip : Nat}
    (hi : HInv consts ⟨ip, ws⟩ ⟨ip, st, rt⟩ addrs) :
    hvGc ip st rt = .limit ∨ ∃ hs' addrs', hvGc ip st rt = .next hs' ∧ HInv consts ⟨ip, ws⟩ hs' addrs' := by
  unfold hvGc
  cases e : rt.maybeGc (stackPtrs st.reverse) with
  | none => exact .inl rfl
  | some r =>
    obtain ⟨rt', ps'⟩ := r
    refine .inr ⟨⟨ip, (setPtrs st.reverse ps').reverse, rt'⟩, ?_⟩
    simp only [Runtime.maybeGc] at e
    split at e
    · have hst := hi.stack.mem hi.true_ hi.false_
      have hcs := hi.consts.mem hi.true_ hi.false_
      have hroots : ∀ p ∈ stackPtrs st.reverse ++ rt.consts ++ [rt.true_] ++ [rt.false_], p ∈ addrs := by
        intro p hp
        simp only [List.mem_append, List.mem_cons, List.not_mem_nil, or_false] at hp
        rcases hp with ((hp | hp) | hp) | hp
        · rw [mem_stackPtrs, List.mem_reverse] at hp
          exact hst _ hp
        · exact hcs _ (mem_map_ptr hp)
        · exact hp ▸ hi.true_
        · exact hp ▸ hi.false_
      obtain ⟨rs, φ, addrs', hm, hrs, hw', e1, e2, e3, e4⟩ := gc_some hi.wf hroots e
      have ht : rt.true_ ∈ rs := hrs _ (by simp)
      have hf : rt.false_ ∈ rs := hrs _ (by simp)
      refine ⟨addrs', rfl, rfl, hw', by rw [e3]; exact hm.mem _ ht, by rw [e4]; exact hm.mem _ hf, ?_, ?_, ?_, ?_⟩
      · show rt'.true_ ≠ rt'.false_
        rw [e3, e4]
        exact fun h => hi.ne (hm.inj _ ht _ hf h)
      · show IsEmpty rt'.heap rt'.true_ ∧ IsEmpty rt'.heap rt'.false_
        rw [e3, e4]
        exact ⟨hm.isEmpty ht hi.empty.1, hm.isEmpty hf hi.empty.2⟩
      · show RepL rt'.heap addrs' rt'.true_ rt'.false_ ws (setPtrs st.reverse ps').reverse
        rw [e1, setPtrs_map, ← List.map_reverse, List.reverse_reverse, e3, e4]
        refine hm.repL ht hf ws st (fun v hv => ?_) hi.stack
        cases v with
        | int x => trivial
        | ptr a => exact hrs a (by simp [mem_stackPtrs, hv])
      · show RepL rt'.heap addrs' rt'.true_ rt'.false_ _ (rt'.consts.map .ptr)
        rw [e2, e3, e4, ← map_ptr_move]
        refine hm.repL ht hf _ _ (fun v hv => ?_) hi.consts
        obtain ⟨a, ha, rfl⟩ := List.mem_map.1 hv
        exact hrs a (by simp [ha])
    · simp only [Option.some.injEq, Prod.mk.injEq] at e
      obtain ⟨rfl, rfl⟩ := e
      refine ⟨addrs, rfl, rfl, hi.wf, hi.true_, hi.false_, hi.ne, hi.empty, ?_, hi.consts⟩
      have : setPtrs st.reverse (stackPtrs st.reverse) = st.reverse := by
        have := setPtrs_map id st.reverse
        rwa [List.map_id, show (Value.move id) = (id : Value → Value) from funext move_id, List.map_id] at this
      show RepL _ _ _ _ ws (setPtrs st.reverse (stackPtrs st.reverse)).reverse
      rw [this, List.reverse_reverse]
      exact hi.stack

/-! ### Allocations -/

theorem hvObject_ok {consts : List (List UInt8)} {rt : Runtime} {addrs : List Nat} {st vals : List Value} {ws fs : List TVal}
    {ip tag : Nat} (hi : HInv consts ⟨ip, ws⟩ ⟨ip, st, rt⟩ addrs)
    (hv : RepL rt.heap addrs rt.true_ rt.false_ fs vals) (htag : tag < 2 ^ 64) (hcl : tag / tagSize ≠ 1) :
    hvObject ip st rt tag vals = .limit ∨
      ∃ hs' addrs', hvObject ip st rt tag vals = .next hs' ∧ HInv consts ⟨ip, .obj tag fs :: ws⟩ hs' addrs' := by
  unfold hvObject
  split
  · rename_i hn
    cases e : allocObject rt.heap tag vals with
    | none => exact .inl rfl
    | some r =>
      obtain ⟨h', a⟩ := r
      have hA := allocObject_some hi.wf htag hn (fun p hp => hv.mem hi.true_ hi.false_ _ hp) e
      refine hvGc_ok (addrs := a :: addrs) ⟨rfl, hA.wf, by simp [hi.true_], by simp [hi.false_], hi.ne,
        ⟨hi.empty.1.alloc hi.wf hA.old hi.true_, hi.empty.2.alloc hi.wf hA.old hi.false_⟩, ?_, ?_⟩
      · exact .cons (Allocated.rep hi.wf hA hi.true_ hi.false_ hcl hv) (hi.stack.alloc hi.wf hA.old hi.true_ hi.false_)
      · exact hi.consts.alloc hi.wf hA.old hi.true_ hi.false_
  · exact .inl rfl

theorem hvBytes_ok {consts : List (List UInt8)} {rt : Runtime} {addrs : List Nat} {st : List Value} {ws : List TVal}
    {ip : Nat} {bs : List UInt8} (hi : HInv consts ⟨ip, ws⟩ ⟨ip, st, rt⟩ addrs) :
    hvBytes ip st rt bs = .limit ∨
      ∃ hs' addrs', hvBytes ip st rt bs = .next hs' ∧ HInv consts ⟨ip, .str bs :: ws⟩ hs' addrs' := by
  unfold hvBytes
  cases e : allocBytes rt.heap (bs.length ||| stringTag) bs with
  | none => exact .inl rfl
  | some r =>
    obtain ⟨h', a⟩ := r
    have hlen : bs.length < 2 ^ 32 := by
      cases hr : rawAlloc rt.heap (bs.length ||| stringTag) bs.length with
      | none => simp [allocBytes, hr] at e
      | some p =>
        have := (rawAlloc_some (h' := p.1) (a := p.2) hr).1
        have := roundUp_ge bs.length
        omega
    have htag : bs.length ||| stringTag < 2 ^ 64 := Nat.or_lt_two_pow (by omega) (by unfold stringTag; decide)
    have hA := allocBytes_some hi.wf htag e
    refine hvGc_ok (addrs := a :: addrs) ⟨rfl, hA.wf, by simp [hi.true_], by simp [hi.false_], hi.ne,
        ⟨hi.empty.1.alloc hi.wf hA.old hi.true_, hi.empty.2.alloc hi.wf hA.old hi.false_⟩, ?_, ?_⟩
    · exact .cons (AllocatedBytes.rep hi.wf hA hlen hi.true_ hi.false_) (hi.stack.alloc hi.wf hA.old hi.true_ hi.false_)
    · exact hi.consts.alloc hi.wf hA.old hi.true_ hi.false_

/-! ### One step -/

/-- Agreement of one step. -/
def SameStep (consts : List (List UInt8)) (r : VStep) (hr : HStep) : Prop :=
  hr = .limit ∨ match r with
  | .next s => ∃ hs addrs, hr = .next hs ∧ HInv consts s hs addrs
  | .exit st => ∃ hs addrs, hr = .exit hs ∧ ∃ ip, HInv consts ⟨ip, st⟩ hs addrs
  | .trap m => hr = .trap m
  | .stuck => True

section
variable {h : Heap} {addrs : List Nat} {t f : Nat}

theorem Rep.int_inv {x : UInt64} {v : Value} (h1 : Rep h addrs t f (.int x) v) : v = .int x := by rwa [Rep] at h1
theorem Rep.bool_inv {b : Bool} {v : Value} (h1 : Rep h addrs t f (.bool b) v) : v = .ptr (if b then t else f) := by
  rwa [Rep] at h1
theorem Rep.str_inv {s : List UInt8} {v : Value} (h1 : Rep h addrs t f (.str s) v) :
    ∃ a, v = .ptr a ∧ a ∈ addrs ∧ a ≠ t ∧ a ≠ f ∧ IsStr h a s := by rwa [Rep] at h1
theorem Rep.obj_inv {tag : Nat} {fs : List TVal} {v : Value} (h1 : Rep h addrs t f (.obj tag fs) v) :
    ∃ a, v = .ptr a ∧ a ∈ addrs ∧ a ≠ t ∧ a ≠ f ∧ tagAt h.mem a = tag ∧ tag / tagSize ≠ 1 ∧
      RepL h addrs t f fs (objFields h a).2 := by rwa [Rep] at h1
theorem Rep.int (x : UInt64) : Rep h addrs t f (.int x) (.int x) := by rw [Rep]
end

theorem HInv.goto {consts : List (List UInt8)} {s : VM} {hs : HVM} {addrs : List Nat} (hi : HInv consts s hs addrs) {ip : Nat}
    {ws : List TVal} {vs : List Value} (h1 : RepL hs.rt.heap addrs hs.rt.true_ hs.rt.false_ ws vs) :
    HInv consts ⟨ip, ws⟩ ⟨ip, vs, hs.rt⟩ addrs :=
  ⟨rfl, hi.wf, hi.true_, hi.false_, hi.ne, hi.empty, h1, hi.consts⟩

theorem HInv.next {consts : List (List UInt8)} {s : VM} {hs : HVM} {addrs : List Nat} (hi : HInv consts s hs addrs) {ip ip' : Nat}
    {ws : List TVal} {vs : List Value} (e : ip' = ip) (h1 : RepL hs.rt.heap addrs hs.rt.true_ hs.rt.false_ ws vs) :
    SameStep consts (.next ⟨ip, ws⟩) (.next ⟨ip', vs, hs.rt⟩) :=
  .inr ⟨_, addrs, rfl, e ▸ hi.goto h1⟩

theorem hvOp_rep {h : Heap} {addrs : List Nat} {rt : Runtime} (o : Op) (a b : UInt64) :
    Rep h addrs rt.true_ rt.false_ (vmOp o a b) (hvOp rt o a b) := by
  cases o <;> simp only [vmOp, hvOp, hvBool] <;> rw [Rep]

theorem hvIntr_ok {consts : List (List UInt8)} {ws : List TVal} {hs : HVM} {addrs : List Nat} {ip : Nat} {ws' : List TVal}
    (hi : HInv consts ⟨ip, ws⟩ hs addrs) (i : Intrinsic) (e : vmIntr i ws = some ws') :
    SameStep consts (.next ⟨ip, ws'⟩) (hvIntr ip hs.rt i hs.stack) := by
  have hst := hi.stack
  cases i with
  | stringLen =>
    match ws, e, hst with
    | .str s :: ws, e, hst =>
      simp only [vmIntr, Option.some.injEq] at e
      subst e
      obtain ⟨v, vs, hvs, hv, hst⟩ := hst.cons_inv
      obtain ⟨a, rfl, ha, _, _, hs'⟩ := hv.str_inv
      rw [hvs, hvIntr, hvFields_of hi.wf ha]
      refine hi.next rfl (.cons ?_ hst)
      rw [show (objFields hs.rt.heap a).1 = tagAt hs.rt.heap.mem a from rfl, hs'.tag, (strTag_mod hs'.small).1]
      exact .int _
  | stringCharAt =>
    match ws, e, hst with
    | .str s :: .int x :: ws, e, hst =>
      simp only [vmIntr, Option.some.injEq] at e
      subst e
      obtain ⟨v, vs, hvs, hv, hst⟩ := hst.cons_inv
      obtain ⟨a, rfl, ha, _, _, hs'⟩ := hv.str_inv
      obtain ⟨v, vs, rfl, hv, hst⟩ := hst.cons_inv
      rw [hv.int_inv] at hvs
      rw [hvs, hvIntr, if_pos (inHeap_of_mem hi.wf ha), hs'.tag, (strTag_mod hs'.small).1]
      have hget : x.toNat < s.length → (objBytes hs.rt.heap a).2[x.toNat]? = s[x.toNat]? := fun hlt => by
        have h0 := congrArg (fun l => l[x.toNat]?) hs'.bytes
        simp only [List.getElem?_take_of_lt hlt] at h0
        exact h0
      split
      · rename_i hlt
        rw [hget hlt, List.getElem?_eq_getElem hlt]
        refine hi.next rfl (.cons ?_ hst)
        rw [strCharAt, List.getElem?_eq_getElem hlt]
        exact .int _
      · rename_i hlt
        refine hi.next rfl (.cons ?_ hst)
        rw [strCharAt, List.getElem?_eq_none (by omega)]
        exact .int _
  | stringConcat =>
    match ws, e, hst with
    | .str s2 :: .str s1 :: ws, e, hst =>
      simp only [vmIntr, Option.some.injEq] at e
      subst e
      obtain ⟨v, vs, hvs, hv, hst1⟩ := hst.cons_inv
      obtain ⟨a2, rfl, ha2, _, _, hs2⟩ := hv.str_inv
      obtain ⟨v', vs', rfl, hv', hst2⟩ := hst1.cons_inv
      obtain ⟨a1, rfl, ha1, _, _, hs1⟩ := hv'.str_inv
      rw [hvs, hvIntr, hvStr_of hi.wf ha2 hs2, hvStr_of hi.wf ha1 hs1]
      exact hvBytes_ok (hi.goto hst2)
  | stringSubstring =>
    match ws, e, hst with
    | .str s :: .int len :: .int start :: ws, e, hst =>
      simp only [vmIntr, Option.some.injEq] at e
      subst e
      obtain ⟨v, vs, hvs, hv, hst⟩ := hst.cons_inv
      obtain ⟨a, rfl, ha, _, _, hs'⟩ := hv.str_inv
      obtain ⟨v, vs, rfl, hv, hst⟩ := hst.cons_inv
      rw [hv.int_inv] at hvs
      obtain ⟨v, vs, rfl, hv, hst⟩ := hst.cons_inv
      rw [hv.int_inv] at hvs
      rw [hvs, hvIntr, hvStr_of hi.wf ha hs']
      exact hvBytes_ok (hi.goto hst)
  | stringFromChar =>
    match ws, e, hst with
    | .int x :: ws, e, hst =>
      simp only [vmIntr, Option.some.injEq] at e
      subst e
      obtain ⟨v, vs, hvs, hv, hst⟩ := hst.cons_inv
      rw [hv.int_inv] at hvs
      rw [hvs, hvIntr]
      exact hvBytes_ok (hi.goto hst)
  | intToString =>
    match ws, e, hst with
    | .int x :: ws, e, hst =>
      simp only [vmIntr, Option.some.injEq] at e
      subst e
      obtain ⟨v, vs, hvs, hv, hst⟩ := hst.cons_inv
      rw [hv.int_inv] at hvs
      rw [hvs, hvIntr]
      exact hvBytes_ok (hi.goto hst)

/-- One round of the loop: the heap machine does what the machine on trees does, or hits a limit of
the heap. -/
theorem hvStep_ok {ops : List LOp} {consts : List (List UInt8)} (hops : GoodOps ops) {s : VM} {hs : HVM} {addrs : List Nat}
    (hi : HInv consts s hs addrs) : SameStep consts (vmStep ops consts s) (hvStep ops hs) := by
  obtain ⟨ip, ws⟩ := s
  obtain ⟨hip, vs, rt⟩ := hs
  obtain rfl : hip = ip := hi.ip
  have hst := hi.stack
  simp only at hst
  unfold vmStep hvStep
  cases ho : ops[hip]? with
  | none => exact .inr trivial
  | some o =>
    simp only []
    cases o with
    | pushInt x => exact hi.next rfl (.cons (.int x) hst)
    | pushBool b => exact hi.next rfl (.cons (by rw [Rep, hvBool]) hst)
    | pick d =>
      cases hd : ws[d]? with
      | none => simp only [hd]; exact .inr trivial
      | some w =>
        obtain ⟨v, hv, hr⟩ := hst.get hd
        simp only [hd, hv]
        exact hi.next rfl (.cons hr hst)
    | set d =>
      cases ws with
      | nil => exact .inr trivial
      | cons w ws =>
        obtain ⟨v, vs, rfl, hv, hst⟩ := hst.cons_inv
        simp only [hst.len]
        split
        · exact hi.next rfl (hst.set d hv)
        · exact .inr trivial
    | popN n =>
      simp only [hst.len]
      split
      · exact hi.next rfl (hst.drop n)
      · exact .inr trivial
    | swapPop =>
      cases ws with
      | nil => exact .inr trivial
      | cons w ws =>
        cases ws with
        | nil => exact .inr trivial
        | cons w2 ws =>
          obtain ⟨v, vs, rfl, hv, hst⟩ := hst.cons_inv
          obtain ⟨v2, vs, rfl, hv2, hst⟩ := hst.cons_inv
          exact hi.next rfl (.cons hv hst)
    | arith o =>
      match ws, hst with
      | .int b :: .int a :: ws, hst =>
        obtain ⟨v, vs, rfl, hv, hst⟩ := hst.cons_inv
        obtain ⟨v2, vs, rfl, hv2, hst⟩ := hst.cons_inv
        rw [hv.int_inv, hv2.int_inv]
        exact hi.next rfl (.cons (hvOp_rep o a b) hst)
      | [], _ => exact .inr trivial
      | [.int _], _ => exact .inr trivial
      | .int _ :: .bool _ :: _, _ => exact .inr trivial
      | .int _ :: .str _ :: _, _ => exact .inr trivial
      | .int _ :: .obj _ _ :: _, _ => exact .inr trivial
      | .bool _ :: _, _ => exact .inr trivial
      | .str _ :: _, _ => exact .inr trivial
      | .obj _ _ :: _, _ => exact .inr trivial
    | jump a => exact hi.next rfl hst
    | jumpIfFalse a =>
      match ws, hst with
      | .bool b :: ws, hst =>
        obtain ⟨v, vs, rfl, hv, hst1⟩ := hst.cons_inv
        rw [hv.bool_inv]
        cases b with
        | false => simp only [Bool.false_eq_true, if_false, if_true]; exact hi.next rfl hst1
        | true =>
          simp only [if_true]
          rw [if_neg hi.ne]
          exact hi.next rfl hst1
      | [], _ => exact .inr trivial
      | .int _ :: _, _ => exact .inr trivial
      | .str _ :: _, _ => exact .inr trivial
      | .obj _ _ :: _, _ => exact .inr trivial
    | ret params captures =>
      cases ws with
      | nil => exact .inr trivial
      | cons w ws =>
        obtain ⟨v, vs, rfl, hv, hst⟩ := hst.cons_inv
        have hd := hst.drop captures
        simp only []
        generalize ws.drop captures = ws1 at hd ⊢
        generalize vs.drop captures = vs1 at hd ⊢
        match ws1, hd with
        | .int r :: _ :: ws, hd =>
          obtain ⟨v1, vs1, rfl, hv1, hd⟩ := hd.cons_inv
          obtain ⟨v2, vs2, rfl, hv2, hd⟩ := hd.cons_inv
          rw [hv1.int_inv]
          simp only [hd.len]
          split
          · exact hi.next rfl (.cons hv (hd.drop params))
          · exact .inr trivial
        | [], _ => exact .inr trivial
        | [.int _], _ => exact .inr trivial
        | .bool _ :: _, _ => exact .inr trivial
        | .str _ :: _, _ => exact .inr trivial
        | .obj _ _ :: _, _ => exact .inr trivial
    | call =>
      match ws, hst with
      | .obj tag fs :: ws, hst =>
        obtain ⟨v, vs, rfl, hv, hst'⟩ := hst.cons_inv
        obtain ⟨a, rfl, ha, _, _, htag, _, _⟩ := hv.obj_inv
        simp only [hvFields_of hi.wf ha]
        exact hi.next (by rw [← htag]; rfl) (.cons (.int _) hst)
      | [], _ => exact .inr trivial
      | .int _ :: _, _ => exact .inr trivial
      | .str _ :: _, _ => exact .inr trivial
      | .bool _ :: _, _ => exact .inr trivial
    | unpackUpvalues =>
      match ws, hst with
      | r :: .obj tag fs :: ws, hst =>
        obtain ⟨v, vs, rfl, hv, hst'⟩ := hst.cons_inv
        obtain ⟨v2, vs, rfl, hv2, hst''⟩ := hst'.cons_inv
        obtain ⟨a, rfl, ha, _, _, htag, _, hfs⟩ := hv2.obj_inv
        simp only [hvFields_of hi.wf ha]
        exact hi.next rfl (hfs.reverse.append hst)
      | [], _ => exact .inr trivial
      | [_], _ => exact .inr trivial
      | _ :: .int _ :: _, _ => exact .inr trivial
      | _ :: .bool _ :: _, _ => exact .inr trivial
      | _ :: .str _ :: _, _ => exact .inr trivial
    | construct tag n =>
      simp only [hst.len]
      split
      · obtain ⟨g1, g2⟩ := hops tag n (List.mem_iff_getElem?.2 ⟨_, ho⟩)
        exact hvObject_ok (hi.goto (hst.drop n)) (hst.take n).reverse g1 g2
      · exact .inr trivial
    | branch table =>
      match ws, hst with
      | .obj tag fs :: ws, hst =>
        obtain ⟨v, vs, rfl, hv, hst'⟩ := hst.cons_inv
        obtain ⟨a, rfl, ha, _, _, htag, _, hfs⟩ := hv.obj_inv
        simp only [hvFields_of hi.wf ha]
        rw [show (objFields rt.heap a).1 = tag from htag]
        cases findTag tag table with
        | none => exact .inr trivial
        | some d => exact hi.next rfl (hfs.reverse.append hst')
      | [], _ => exact .inr trivial
      | .int _ :: _, _ => exact .inr trivial
      | .str _ :: _, _ => exact .inr trivial
      | .bool _ :: _, _ => exact .inr trivial
    | const i =>
      cases hc : consts[i]? with
      | none => simp only [hc]; exact .inr trivial
      | some c =>
        obtain ⟨v, hv, hr⟩ := hi.consts.get (i := i) (w := .str c) (by rw [List.getElem?_map, hc]; rfl)
        rw [List.getElem?_map] at hv
        simp only at hv
        cases hd : rt.consts[i]? with
        | none => rw [hd] at hv; simp at hv
        | some a =>
          rw [hd] at hv
          simp only [Option.map_some, Option.some.injEq] at hv
          subst hv
          simp only [hc, hd]
          exact hi.next rfl (.cons hr hst)
    | trap m => exact .inr rfl
    | intr i =>
      simp only []
      cases hi' : vmIntr i ws with
      | none => simp only [hi']; exact .inr trivial
      | some ws' => simp only [hi']; exact hvIntr_ok (hi.goto (ip := hip + 1) hst) i hi'
    | exit => exact .inr ⟨_, addrs, rfl, _, hi⟩

end Tic.Core
