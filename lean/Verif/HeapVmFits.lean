import Verif.HeapVmEval
import Verif.PropTail
/-
When the heap machine stays within the limits of the heap.
-/
namespace Tic.Core
open Tic.Heap Tic.Core.Bc

mutual
/-- Bytes of heap a value takes when nothing is shared: 24 for the header of a string or object, the
padded bytes of a string, 8 for each field, and what the fields take. -/
def treeBytes : TVal → Nat
  | .int _ => 0
  | .bool _ => 0
  | .str s => 24 + (s.length + 7) / 8 * 8
  | .obj _ fs => 24 + 8 * fs.length + treeBytesL fs
/-- ... of several values. -/
def treeBytesL : List TVal → Nat
  | [] => 0
  | w :: ws => treeBytes w + treeBytesL ws
end

/-! ### Live bytes -/

theorem reach_first {m : Mem} {a b : Nat} (h : Reach m (· = a) b) : b = a ∨ ∃ c, pointsTo m a c ∧ Reach m (· = c) b := by
  induction h with
  | base h => exact .inl h
  | step _ hp ih =>
    rcases ih with rfl | ⟨c, h1, h2⟩
    · exact .inr ⟨_, hp, .base rfl⟩
    · exact .inr ⟨c, h1, .step h2 hp⟩

theorem reach_root {m : Mem} {S : Nat → Prop} {b : Nat} (h : Reach m S b) : ∃ r, S r ∧ Reach m (· = r) b := by
  induction h with
  | base h => exact ⟨_, h, .base rfl⟩
  | step _ hp ih =>
    obtain ⟨r, h1, h2⟩ := ih
    exact ⟨r, h1, .step h2 hp⟩

theorem no_pointers {m : Mem} {a b : Nat} (h0 : ptrsAt m a = 0) (h : Reach m (· = a) b) : b = a := by
  rcases reach_first h with h | ⟨c, ⟨i, h1, _⟩, _⟩
  · exact h
  · rw [h0] at h1; simp at h1

theorem pointsTo_field {h : Heap} {addrs : List Nat} (hw : WF h addrs) {a c : Nat} (ha : a ∈ addrs) (hp : pointsTo h.mem a c) :
    Value.ptr c ∈ (objFields h a).2 := by
  obtain ⟨i, h1, h2⟩ := hp
  simp only [objFields, List.mem_map, List.mem_range]
  exact ⟨i, (hw.ok.bits a ha i h1).1, by rw [if_pos h1, h2]⟩

theorem IsStr.size {h : Heap} {addrs : List Nat} (hw : WF h addrs) {a : Nat} {s : List UInt8} (ha : a ∈ addrs)
    (hs : IsStr h a s) : sizeAt h.mem a = 24 + roundUp s.length := by
  have h1 := hs.len
  have h2 := hw.tiled.size a ha
  simp only [objBytes, List.length_map, List.length_range] at h1
  omega

theorem IsEmpty.size {h : Heap} {addrs : List Nat} (hw : WF h addrs) {a : Nat} (ha : a ∈ addrs)
    (hs : IsEmpty h a) : sizeAt h.mem a = 24 := by
  have h1 := congrArg List.length hs.2
  have h2 := hw.tiled.size a ha
  simp only [objBytes, List.length_map, List.length_range, List.length_nil] at h1
  omega

section
variable {h : Heap} {addrs : List Nat} {t f : Nat}

mutual
theorem cover (hw : WF h addrs) (ht : IsEmpty h t) (hf : IsEmpty h f) : ∀ (w : TVal) (a : Nat), Rep h addrs t f w (.ptr a) →
    ∃ L : List Nat, (∀ b, Reach h.mem (· = a) b → b ∈ L ∨ b = t ∨ b = f) ∧ (L.map (sizeAt h.mem)).sum ≤ treeBytes w
  | .int x, a, h1 => by cases h1.int_inv
  | .bool b, a, h1 => by
    have e := h1.bool_inv
    simp only [Value.ptr.injEq] at e
    refine ⟨[], fun b' hb => .inr ?_, by simp⟩
    cases b with
    | true =>
      simp only [if_true] at e
      subst e
      exact .inl (no_pointers ht.1 hb)
    | false =>
      simp only [Bool.false_eq_true, if_false] at e
      subst e
      exact .inr (no_pointers hf.1 hb)
  | .str s, a, h1 => by
    obtain ⟨a', e, ha, _, _, hs⟩ := h1.str_inv
    simp only [Value.ptr.injEq] at e
    subst e
    refine ⟨[a], fun b hb => .inl (by simp [no_pointers hs.ptrs hb]), ?_⟩
    simp [hs.size hw ha, treeBytes, roundUp]
  | .obj tag fs, a, h1 => by
    obtain ⟨a', e, ha, _, _, _, _, hfs⟩ := h1.obj_inv
    simp only [Value.ptr.injEq] at e
    subst e
    obtain ⟨L, h2, h3⟩ := coverL hw ht hf fs _ hfs
    refine ⟨a :: L, fun b hb => ?_, ?_⟩
    · rcases reach_first hb with rfl | ⟨c, hc, hb⟩
      · exact .inl (by simp)
      · rcases h2 c (pointsTo_field hw ha hc) b hb with h | h
        · exact .inl (by simp [h])
        · exact .inr h
    · have hlen := hfs.len
      have hsz := hw.tiled.size a ha
      simp only [objFields, List.length_map, List.length_range, nfields] at hlen
      simp only [List.map_cons, List.sum_cons, treeBytes]
      omega
theorem coverL (hw : WF h addrs) (ht : IsEmpty h t) (hf : IsEmpty h f) : ∀ (ws : List TVal) (vs : List Value), RepL h addrs t f ws vs →
    ∃ L : List Nat, (∀ a, .ptr a ∈ vs → ∀ b, Reach h.mem (· = a) b → b ∈ L ∨ b = t ∨ b = f) ∧
      (L.map (sizeAt h.mem)).sum ≤ treeBytesL ws
  | [], vs, h1 => by
    obtain rfl := h1.nil_inv
    exact ⟨[], fun a ha => by simp at ha, by simp⟩
  | w :: ws, vs, h1 => by
    obtain ⟨v, vs, rfl, h2, h3⟩ := h1.cons_inv
    obtain ⟨L, g1, g2⟩ := coverL hw ht hf ws vs h3
    cases v with
    | int x =>
      refine ⟨L, fun a ha b hb => g1 a (by simpa using ha) b hb, ?_⟩
      rw [treeBytesL]; omega
    | ptr a =>
      obtain ⟨L', g3, g4⟩ := cover hw ht hf w a h2
      refine ⟨L' ++ L, fun a' ha b hb => ?_, ?_⟩
      · simp only [List.mem_cons, Value.ptr.injEq] at ha
        rcases ha with rfl | ha
        · rcases g3 b hb with h | h
          · exact .inl (by simp [h])
          · exact .inr h
        · rcases g1 a' ha b hb with h | h
          · exact .inl (by simp [h])
          · exact .inr h
      · rw [List.map_append, List.sum_append, treeBytesL]; omega
end
end

/-- What is live is at most what the trees take, and the two booleans. -/
theorem live_le {consts : List (List UInt8)} {rt : Runtime} {addrs : List Nat} {st : List Value} {ws : List TVal} {ip : Nat}
    (hi : HInv consts ⟨ip, ws⟩ ⟨ip, st, rt⟩ addrs) :
    liveBytes rt.heap addrs (stackPtrs st.reverse ++ rt.consts ++ [rt.true_] ++ [rt.false_]) ≤
      treeBytesL ws + treeBytesL (consts.map .str) + 48 := by
  obtain ⟨L1, h1, h2⟩ := coverL hi.wf hi.empty.1 hi.empty.2 _ _ hi.stack
  obtain ⟨L2, h3, h4⟩ := coverL hi.wf hi.empty.1 hi.empty.2 _ _ hi.consts
  have hsub : (reachable rt.heap addrs (stackPtrs st.reverse ++ rt.consts ++ [rt.true_] ++ [rt.false_])).Sublist addrs :=
    List.filter_sublist
  have hle := sum_le_of_subset (f := sizeAt rt.heap.mem) (hi.wf.nodup.sublist hsub) (l' := L1 ++ L2 ++ [rt.true_, rt.false_]) (by
    intro b hb
    classical
    simp only [reachable, List.mem_filter, decide_eq_true_eq] at hb
    obtain ⟨r, hr, hb⟩ := reach_root hb.2
    have fin : b ∈ L1 ∨ b ∈ L2 ∨ b = rt.true_ ∨ b = rt.false_ → b ∈ L1 ++ L2 ++ [rt.true_, rt.false_] := by
      simp only [List.mem_append, List.mem_cons, List.not_mem_nil, or_false]
      rintro (h | h | h | h)
      · exact .inl (.inl h)
      · exact .inl (.inr h)
      · exact .inr (.inl h)
      · exact .inr (.inr h)
    apply fin
    simp only [List.mem_append, List.mem_cons, List.not_mem_nil, or_false] at hr
    rcases hr with ((hr | hr) | hr) | hr
    · rw [mem_stackPtrs, List.mem_reverse] at hr
      rcases h1 r hr b hb with h | h
      · exact .inl h
      · exact .inr (.inr h)
    · rcases h3 r (mem_map_ptr hr) b hb with h | h
      · exact .inr (.inl h)
      · exact .inr (.inr h)
    · subst hr
      exact .inr (.inr (.inl (no_pointers hi.empty.1.1 hb)))
    · subst hr
      exact .inr (.inr (.inr (no_pointers hi.empty.2.1 hb))))
  unfold liveBytes
  rw [List.map_append, List.sum_append, List.map_append, List.sum_append] at hle
  have e1 := hi.empty.1.size hi.wf hi.true_
  have e2 := hi.empty.2.size hi.wf hi.false_
  simp only at e1 e2 h2 h4
  simp only [List.map_cons, List.map_nil, List.sum_cons, List.sum_nil, e1, e2] at hle
  omega

/-! ### Steps that fit -/

/-- The state of the heap between operations, as far as its limits are concerned. -/
structure Room (rt : Runtime) : Prop where
  nodup : (rt.consts ++ [rt.true_] ++ [rt.false_]).Nodup
  cap : 256 ≤ rt.heap.len
  free : 128 ≤ rt.heap.bump
  table : rt.heap.len / 24 ≤ rt.heap.tableLen ∨
    rt.heap.len < 4 * ((rt.consts ++ [rt.true_] ++ [rt.false_]).map (sizeAt rt.heap.mem)).sum

theorem HInv.roots {consts : List (List UInt8)} {s : VM} {hs : HVM} {addrs : List Nat} (hi : HInv consts s hs addrs) :
    ∀ p ∈ stackPtrs hs.stack.reverse ++ hs.rt.consts ++ [hs.rt.true_] ++ [hs.rt.false_], p ∈ addrs := by
  have hst := hi.stack.mem hi.true_ hi.false_
  have hcs := hi.consts.mem hi.true_ hi.false_
  intro p hp
  simp only [List.mem_append, List.mem_cons, List.not_mem_nil, or_false] at hp
  rcases hp with ((hp | hp) | hp) | hp
  · rw [mem_stackPtrs, List.mem_reverse] at hp
    exact hst _ hp
  · exact hcs _ (mem_map_ptr hp)
  · exact hp ▸ hi.true_
  · exact hp ▸ hi.false_

theorem hvGc_fits {consts : List (List UInt8)} {rt : Runtime} {addrs : List Nat} {st : List Value} {ws : List TVal} {ip : Nat}
    (hi : HInv consts ⟨ip, ws⟩ ⟨ip, st, rt⟩ addrs)
    (hnd : (rt.consts ++ [rt.true_] ++ [rt.false_]).Nodup) (hcap : 256 ≤ rt.heap.len)
    (htab : rt.heap.len / 24 ≤ rt.heap.tableLen ∨
      rt.heap.len < 4 * ((rt.consts ++ [rt.true_] ++ [rt.false_]).map (sizeAt rt.heap.mem)).sum)
    (hb : treeBytesL ws + treeBytesL (consts.map .str) + 48 < 2 ^ 32) : ∃ hs', hvGc ip st rt = .next hs' ∧ Room hs'.rt := by
  obtain ⟨h1, h2⟩ := maybeGc_ok hi.wf hi.roots hnd hcap htab
  obtain ⟨rt', ps, e⟩ := h1 (Nat.lt_of_le_of_lt (live_le hi) hb)
  obtain ⟨addrs', hr⟩ := h2 _ _ e
  refine ⟨_, by rw [hvGc, show rt.maybeGc (stackPtrs st.reverse) = some (rt', ps) from e], ?_⟩
  exact ⟨hr.nodup, hr.cap, hr.free, hr.table⟩

/-- After an allocation. -/
theorem Room.alloc {consts : List (List UInt8)} {s : VM} {hs : HVM} {addrs : List Nat} (hi : HInv consts s hs addrs) (hr : Room hs.rt)
    {h' : Heap} (hold : ∀ x, hs.rt.heap.bump ≤ x → h'.mem x = hs.rt.heap.mem x)
    (hlen : h'.len = hs.rt.heap.len) (htl : h'.tableLen = hs.rt.heap.tableLen) :
    h'.len / 24 ≤ h'.tableLen ∨
      h'.len < 4 * ((hs.rt.consts ++ [hs.rt.true_] ++ [hs.rt.false_]).map (sizeAt h'.mem)).sum := by
  rw [hlen, htl]
  rcases hr.table with h | h
  · exact .inl h
  · right
    rw [sizes_old hi.wf hold (fun x hx => hi.roots x (by
      simp only [List.mem_append] at hx ⊢
      rcases hx with (h | h) | h
      · exact .inl (.inl (.inr h))
      · exact .inl (.inr h)
      · exact .inr h))]
    exact h

theorem hvObject_fits {consts : List (List UInt8)} {rt : Runtime} {addrs : List Nat} {st vals : List Value} {ws fs : List TVal}
    {ip tag : Nat} (hi : HInv consts ⟨ip, ws⟩ ⟨ip, st, rt⟩ addrs) (hr : Room rt)
    (hv : RepL rt.heap addrs rt.true_ rt.false_ fs vals) (htag : tag < 2 ^ 64) (hcl : tag / tagSize ≠ 1) (hn : fs.length ≤ 13)
    (hb : treeBytesL (.obj tag fs :: ws) + treeBytesL (consts.map .str) + 48 < 2 ^ 32) :
    ∃ hs', hvObject ip st rt tag vals = .next hs' ∧ Room hs'.rt := by
  have hl := hv.len
  have hfree := hr.free
  unfold hvObject
  rw [if_pos (by omega)]
  obtain ⟨h', a, e, hA⟩ := allocObject_spec hi.wf htag (by omega) (fun p hp => hv.mem hi.true_ hi.false_ _ hp)
    (vals := vals) (by simp only; omega)
  simp only at e
  rw [e]
  have hi' : HInv consts ⟨ip, .obj tag fs :: ws⟩ ⟨ip, .ptr a :: st, { rt with heap := h' }⟩ (a :: addrs) :=
    ⟨rfl, hA.wf, by simp [hi.true_], by simp [hi.false_], hi.ne,
      ⟨hi.empty.1.alloc hi.wf hA.old hi.true_, hi.empty.2.alloc hi.wf hA.old hi.false_⟩,
      .cons (Allocated.rep hi.wf hA hi.true_ hi.false_ hcl hv) (hi.stack.alloc hi.wf hA.old hi.true_ hi.false_),
      hi.consts.alloc hi.wf hA.old hi.true_ hi.false_⟩
  refine hvGc_fits hi' hr.nodup ?_ ?_ hb
  · show 256 ≤ h'.len
    rw [hA.len]; exact hr.cap
  · exact Room.alloc hi hr hA.old hA.len hA.tableLen

theorem hvBytes_fits {consts : List (List UInt8)} {rt : Runtime} {addrs : List Nat} {st : List Value} {ws : List TVal}
    {ip : Nat} {bs : List UInt8} (hi : HInv consts ⟨ip, ws⟩ ⟨ip, st, rt⟩ addrs) (hr : Room rt) (hn : bs.length ≤ 104)
    (hb : treeBytesL (.str bs :: ws) + treeBytesL (consts.map .str) + 48 < 2 ^ 32) :
    ∃ hs', hvBytes ip st rt bs = .next hs' ∧ Room hs'.rt := by
  have hfree := hr.free
  have hru2 : roundUp bs.length ≤ 104 := by unfold roundUp; omega
  unfold hvBytes
  obtain ⟨h', a, e, hA⟩ := allocBytes_spec hi.wf (or_string_tag (show bs.length < 2 ^ 32 by omega)) (bs := bs) (by omega) (by
    simp only; omega)
  simp only at e
  rw [e]
  have hi' : HInv consts ⟨ip, .str bs :: ws⟩ ⟨ip, .ptr a :: st, { rt with heap := h' }⟩ (a :: addrs) :=
    ⟨rfl, hA.wf, by simp [hi.true_], by simp [hi.false_], hi.ne,
      ⟨hi.empty.1.alloc hi.wf hA.old hi.true_, hi.empty.2.alloc hi.wf hA.old hi.false_⟩,
      .cons (AllocatedBytes.rep hi.wf hA (by omega) hi.true_ hi.false_) (hi.stack.alloc hi.wf hA.old hi.true_ hi.false_),
      hi.consts.alloc hi.wf hA.old hi.true_ hi.false_⟩
  refine hvGc_fits hi' hr.nodup ?_ ?_ hb
  · show 256 ≤ h'.len
    rw [hA.len]; exact hr.cap
  · exact Room.alloc hi hr hA.old hA.len hA.tableLen

/-- Operations that do not allocate leave the heap alone and do not hit its limits. -/
theorem hvStep_rt {ops : List LOp} {hs : HVM} (h1 : ∀ tag n, ops[hs.ip]? ≠ some (.construct tag n)) (h2 : ∀ i, ops[hs.ip]? ≠ some (.intr i)) :
    hvStep ops hs ≠ .limit ∧ ∀ hs', hvStep ops hs = .next hs' → hs'.rt = hs.rt := by
  unfold hvStep
  cases ho : ops[hs.ip]? with
  | none => simp
  | some o =>
    rw [ho] at h1 h2
    cases o with
    | construct tag n => exact absurd rfl (h1 tag n)
    | intr i => exact absurd rfl (h2 i)
    | _ =>
      simp only []
      repeat' split
      all_goals first
        | contradiction
        | (rename_i heq _; cases heq; done)
        | (rename_i heq; cases heq; done)
        | exact ⟨by simp, by simp⟩
        | exact ⟨by simp, fun hs' e => by cases e; rfl⟩

/-- The strings intrinsics make. -/
def SmallStrings (ops : List LOp) (s : VM) : Prop :=
  ∀ i bs st, ops[s.ip]? = some (.intr i) → vmIntr i s.stack = some (.str bs :: st) → bs.length ≤ 104

theorem hvIntr_fits {consts : List (List UInt8)} {ws : List TVal} {hs : HVM} {addrs : List Nat} {ip : Nat} {ws' : List TVal}
    (hi : HInv consts ⟨ip, ws⟩ hs addrs) (hr : Room hs.rt) (i : Intrinsic) (e : vmIntr i ws = some ws')
    (hn : ∀ bs st, ws' = .str bs :: st → bs.length ≤ 104)
    (hb : treeBytesL ws' + treeBytesL (consts.map .str) + 48 < 2 ^ 32) :
    ∃ hs', hvIntr ip hs.rt i hs.stack = .next hs' ∧ Room hs'.rt := by
  have hst := hi.stack
  cases i with
  | stringLen =>
    match ws, e, hst with
    | .str s :: ws, e, hst =>
      obtain ⟨v, vs, hvs, hv, hst⟩ := hst.cons_inv
      obtain ⟨a, rfl, ha, _, _, hs'⟩ := hv.str_inv
      rw [hvs, hvIntr, hvFields_of hi.wf ha]
      exact ⟨_, rfl, hr⟩
  | stringCharAt =>
    match ws, e, hst with
    | .str s :: .int x :: ws, e, hst =>
      obtain ⟨v, vs, hvs, hv, hst⟩ := hst.cons_inv
      obtain ⟨a, rfl, ha, _, _, hs'⟩ := hv.str_inv
      obtain ⟨v, vs, rfl, hv, hst⟩ := hst.cons_inv
      rw [hv.int_inv] at hvs
      rw [hvs, hvIntr, if_pos (inHeap_of_mem hi.wf ha), hs'.tag, (strTag_mod hs'.small).1]
      have hget : x.toNat < s.length → (objBytes hs.rt.heap a).2[x.toNat]? = s[x.toNat]? := fun hlt => by
        have h0 := congrArg (fun l => l[x.toNat]?) hs'.bytes
        simp only [List.getElem?_take_of_lt hlt] at h0
        exact h0
      split
      · rename_i hlt
        rw [hget hlt, List.getElem?_eq_getElem hlt]
        exact ⟨_, rfl, hr⟩
      · exact ⟨_, rfl, hr⟩
  | stringConcat =>
    match ws, e, hst with
    | .str s2 :: .str s1 :: ws, e, hst =>
      simp only [vmIntr, Option.some.injEq] at e
      subst e
      obtain ⟨v, vs, hvs, hv, hst1⟩ := hst.cons_inv
      obtain ⟨a2, rfl, ha2, _, _, hs2⟩ := hv.str_inv
      obtain ⟨v', vs', rfl, hv', hst2⟩ := hst1.cons_inv
      obtain ⟨a1, rfl, ha1, _, _, hs1⟩ := hv'.str_inv
      rw [hvs, hvIntr, hvStr_of hi.wf ha2 hs2, hvStr_of hi.wf ha1 hs1]
      exact hvBytes_fits (hi.goto hst2) hr (hn _ _ rfl) hb
  | stringSubstring =>
    match ws, e, hst with
    | .str s :: .int len :: .int start :: ws, e, hst =>
      simp only [vmIntr, Option.some.injEq] at e
      subst e
      obtain ⟨v, vs, hvs, hv, hst⟩ := hst.cons_inv
      obtain ⟨a, rfl, ha, _, _, hs'⟩ := hv.str_inv
      obtain ⟨v, vs, rfl, hv, hst⟩ := hst.cons_inv
      rw [hv.int_inv] at hvs
      obtain ⟨v, vs, rfl, hv, hst⟩ := hst.cons_inv
      rw [hv.int_inv] at hvs
      rw [hvs, hvIntr, hvStr_of hi.wf ha hs']
      exact hvBytes_fits (hi.goto hst) hr (hn _ _ rfl) hb
  | stringFromChar =>
    match ws, e, hst with
    | .int x :: ws, e, hst =>
      simp only [vmIntr, Option.some.injEq] at e
      subst e
      obtain ⟨v, vs, hvs, hv, hst⟩ := hst.cons_inv
      rw [hv.int_inv] at hvs
      rw [hvs, hvIntr]
      exact hvBytes_fits (hi.goto hst) hr (hn _ _ rfl) hb
  | intToString =>
    match ws, e, hst with
    | .int x :: ws, e, hst =>
      simp only [vmIntr, Option.some.injEq] at e
      subst e
      obtain ⟨v, vs, hvs, hv, hst⟩ := hst.cons_inv
      rw [hv.int_inv] at hvs
      rw [hvs, hvIntr]
      exact hvBytes_fits (hi.goto hst) hr (hn _ _ rfl) hb

/-- One round that fits. -/
theorem hvStep_fits {ops : List LOp} {consts : List (List UInt8)} (hops : GoodOps ops) (hf : ∀ tag n, LOp.construct tag n ∈ ops → n ≤ 13)
    {s : VM} {hs : HVM} {addrs : List Nat} (hi : HInv consts s hs addrs) (hr : Room hs.rt) (hs1 : SmallStrings ops s)
    (hns : vmStep ops consts s ≠ .stuck)
    (hb : ∀ s', vmStep ops consts s = .next s' → treeBytesL s'.stack + treeBytesL (consts.map .str) + 48 < 2 ^ 32) :
    hvStep ops hs ≠ .limit ∧ ∀ hs', hvStep ops hs = .next hs' → Room hs'.rt := by
  have done : (∃ hs', hvStep ops hs = .next hs' ∧ Room hs'.rt) → hvStep ops hs ≠ .limit ∧ ∀ hs', hvStep ops hs = .next hs' → Room hs'.rt := by
    rintro ⟨hs', e, h⟩
    rw [e]
    exact ⟨by simp, fun _ e => by cases e; exact h⟩
  obtain ⟨ip, ws⟩ := s
  obtain ⟨hip, vs, rt⟩ := hs
  obtain rfl : hip = ip := hi.ip
  have hst := hi.stack
  simp only at hst
  by_cases hc : ∃ tag n, ops[hip]? = some (.construct tag n)
  · obtain ⟨tag, n, ho⟩ := hc
    obtain ⟨g1, g2⟩ := hops tag n (List.mem_iff_getElem?.2 ⟨_, ho⟩)
    have g3 := hf tag n (List.mem_iff_getElem?.2 ⟨_, ho⟩)
    apply done
    unfold hvStep
    unfold vmStep at hns hb
    simp only [ho] at hns hb ⊢
    rw [← hst.len]
    split at hns
    · rename_i hle
      rw [if_pos hle]
      simp only [if_pos hle] at hb
      exact hvObject_fits (hi.goto (hst.drop n)) hr (hst.take n).reverse g1 g2 (by simp; omega) (hb _ rfl)
    · exact absurd rfl hns
  · by_cases hc2 : ∃ i, ops[hip]? = some (.intr i)
    · obtain ⟨i, ho⟩ := hc2
      apply done
      unfold hvStep
      unfold vmStep at hns hb
      simp only [ho] at hns hb ⊢
      cases e : vmIntr i ws with
      | none => rw [e] at hns; exact absurd rfl hns
      | some ws' =>
        rw [e] at hb
        exact hvIntr_fits (hi.goto (ip := hip + 1) hst) hr i e (fun bs st h => hs1 i bs st ho (h ▸ e)) (hb _ rfl)
    · obtain ⟨h1, h2⟩ := hvStep_rt (ops := ops) (hs := ⟨hip, vs, rt⟩) (fun tag n h => hc ⟨tag, n, h⟩) (fun i h => hc2 ⟨i, h⟩)
      refine ⟨h1, fun hs' e => ?_⟩
      rw [h2 hs' e]
      exact hr

theorem hvRun_fits {ops : List LOp} {consts : List (List UInt8)} (hops : GoodOps ops) (hf : ∀ tag n, LOp.construct tag n ∈ ops → n ≤ 13) :
    ∀ (n : Nat) {s : VM} {hs : HVM} {addrs : List Nat}, HInv consts s hs addrs → Room hs.rt → vmRun ops consts n s ≠ .panic →
    (∀ k s', k ≤ n → vmAfter ops consts k s = some s' → SmallStrings ops s' ∧
      treeBytesL s'.stack + treeBytesL (consts.map .str) + 48 < 2 ^ 32) →
    hvRun ops n hs ≠ .limit
  | 0, s, hs, addrs, hi, hr, _, _ => by simp [hvRun]
  | n + 1, s, hs, addrs, hi, hr, hp, hk => by
    rw [vmRun] at hp
    have hst : vmStep ops consts s ≠ .stuck := fun h => by rw [h] at hp; exact hp rfl
    have hstep := hvStep_ok hops hi
    obtain ⟨g1, g2⟩ := hvStep_fits hops hf hi hr (hk 0 s (by omega) rfl).1 hst (fun s' e =>
      (hk 1 s' (by omega) (by rw [vmAfter, e]; rfl)).2)
    rw [hvRun]
    cases hv : vmStep ops consts s with
    | next s1 =>
      rw [hv] at hstep hp
      rcases hstep with h1 | ⟨hs1, addrs1, h1, hi1⟩
      · exact absurd h1 g1
      · rw [h1]
        refine hvRun_fits hops hf n hi1 (g2 _ h1) hp (fun k s' hkn e => hk (k + 1) s' (by omega) ?_)
        rw [vmAfter, hv]; exact e
    | exit st =>
      rw [hv] at hstep
      rcases hstep with h1 | ⟨hs1, addrs1, h1, _⟩
      · exact absurd h1 g1
      · rw [h1]; simp
    | trap m =>
      rw [hv] at hstep
      rcases hstep with h1 | h1
      · exact absurd h1 g1
      · rw [h1]; simp
    | stuck => exact absurd hv hst

/-- The program stays within the limits of the heap for `n` rounds: constants are below 4 GiB together;
objects have at most 13 fields (constructors and captured variables); computed strings have at most 104
bytes; and what is on the stack takes, without sharing, less than 4 GiB, with the constants. -/
structure Fits (n : Nat) (ops : List LOp) (consts : List (List UInt8)) : Prop where
  small : (consts.map fun s => s.length + 32).sum + 512 < 2 ^ 32
  fields : ∀ tag k, LOp.construct tag k ∈ ops → k ≤ 13
  run : ∀ k s, k ≤ n → vmAfter ops consts k ⟨0, []⟩ = some s →
    SmallStrings ops s ∧ treeBytesL s.stack + treeBytesL (consts.map .str) + 48 < 2 ^ 32

/-- The interpreter on the heap gives exactly what the interpreter on trees gives. -/
theorem heapEval_fits {p : Program} {es : List Expr} (hs : SmallCode p es) (n : Nat) (hp : bytecodeEval n p es ≠ .panic)
    (hf : ∀ ops lops st, compileProgram p es = some ops → link ops = some (lops, st) → Fits n lops st.consts) :
    heapEval n p es = .res (bytecodeEval n p es) := by
  rcases heapEval_ok hs n hp with h | h
  · exfalso
    unfold heapEval at h
    unfold bytecodeEval at hp
    cases hc : compileProgram p es with
    | none => rw [hc] at h; cases h
    | some ops =>
      simp only [hc] at hp h
      cases hl : link ops with
      | none => rw [hl] at h; cases h
      | some r =>
        obtain ⟨lops, st⟩ := r
        simp only [hl] at hp h
        obtain ⟨hs1, hs2⟩ := hs ops hc
        have hops := goodOps_link hl hs1 (hs2 lops st hl)
        have hfit := hf ops lops st hc hl
        obtain ⟨rt, addrs0, e, hri⟩ := start_ok st.consts hfit.small
        simp only [e] at h
        obtain ⟨addrs, hi⟩ := start_hinv e
        have hp' : vmRun lops st.consts n ⟨0, []⟩ ≠ .panic := fun e => hp (by rw [e]; rfl)
        have := hvRun_fits hops hfit.fields n hi ⟨hri.nodup, hri.cap, hri.free, hri.table⟩ hp' hfit.run
        cases hv : hvRun lops n ⟨0, [], rt⟩ with
        | limit => exact this hv
        | res r => rw [hv] at h; cases h
  · exact h

end Tic.Core
