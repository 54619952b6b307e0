import Verif.PropHeap
/-
C04: the interpreter's allocation policy never runs out of space for small
objects and the collector never leaves its forwarding table.
-/
namespace Tic.Heap

/-! ### Specification: runs -/

/-- The states of the interpreter's heap in a program run with string constants
`consts`: `stack` are the pointers the program holds.  Objects have at most 128
bytes: at most 13 fields, or at most 104 bytes of string data. -/
inductive Run (consts : List (List UInt8)) : Runtime → List Nat → Prop
  | start {rt} : Runtime.start consts = some rt → Run consts rt []
  | const {rt stack p} : Run consts rt stack → p ∈ rt.consts ++ [rt.true_, rt.false_] → Run consts rt (p :: stack)
  | drop {rt stack stack'} : Run consts rt stack → (∀ p ∈ stack', p ∈ stack) → Run consts rt stack'
  | read {rt stack a i p} : Run consts rt stack → a ∈ stack → readField rt.heap a i = some (.ptr p) →
      Run consts rt (p :: stack)
  | object {rt stack tag vals h' a stack' rt' stack''} : Run consts rt stack → tag < 2 ^ 64 → vals.length ≤ 13 →
      (∀ p, Value.ptr p ∈ vals → p ∈ stack) → allocObject rt.heap tag vals = some (h', a) →
      (∀ p ∈ stack', p ∈ stack) →
      Runtime.maybeGc { rt with heap := h' } (a :: stack') = some (rt', stack'') → Run consts rt' stack''
  | bytes {rt stack tag bs h' a stack' rt' stack''} : Run consts rt stack → tag < 2 ^ 64 → bs.length ≤ 104 →
      allocBytes rt.heap tag bs = some (h', a) →
      (∀ p ∈ stack', p ∈ stack) →
      Runtime.maybeGc { rt with heap := h' } (a :: stack') = some (rt', stack'') → Run consts rt' stack''

/-! ### Lemmas -/

theorem sum_le_of_subset {f : Nat → Nat} {l : List Nat} (hn : l.Nodup) : ∀ {l' : List Nat}, (∀ x ∈ l, x ∈ l') →
    (l.map f).sum ≤ (l'.map f).sum := by
  induction l with
  | nil => intro l' _; simp
  | cons x xs ih =>
    intro l' hs
    simp only [List.nodup_cons] at hn
    have hx : x ∈ l' := hs x (by simp)
    have hp := List.perm_cons_erase hx
    have e : (l'.map f).sum = f x + ((l'.erase x).map f).sum := by
      have := (hp.map f).sum_nat
      simpa using this
    have := ih hn.2 (l' := l'.erase x) (fun y hy => by
      have hyx : y ≠ x := fun h => hn.1 (h ▸ hy)
      exact (List.mem_erase_of_ne hyx).2 (hs y (by simp [hy])))
    simp only [List.map_cons, List.sum_cons]
    omega

theorem liveBytes_le_allocated {h : Heap} {addrs roots : List Nat} (hw : WF h addrs) :
    liveBytes h addrs roots ≤ h.allocated := by
  have h1 := hw.tiled.sum
  have hsub : (reachable h addrs roots).Sublist addrs := List.filter_sublist
  have h2 : ((reachable h addrs roots).map (sizeAt h.mem)).sum ≤ (addrs.map (sizeAt h.mem)).sum :=
    sum_le_of_subset (hw.nodup.sublist hsub) hsub.subset
  unfold liveBytes Heap.allocated
  omega

theorem allocated_mod {h : Heap} {addrs roots : List Nat} (hw : WF h addrs) : liveBytes h addrs roots % 8 = 0 := by
  unfold liveBytes
  have hsub : (reachable h addrs roots).Sublist addrs := List.filter_sublist
  have : ∀ l : List Nat, (∀ x ∈ l, x ∈ addrs) → (l.map (sizeAt h.mem)).sum % 8 = 0 := by
    intro l
    induction l with
    | nil => simp
    | cons x xs ih =>
      intro hl
      have h1 := (hw.tiled.size x (hl x (by simp))).2.1
      have h2 := ih (fun y hy => hl y (by simp [hy]))
      simp only [List.map_cons, List.sum_cons]
      omega
  exact this _ hsub.subset

theorem reach_mono {m : Mem} {P Q : Nat → Prop} (h : ∀ a, P a → Q a) {a : Nat} (hr : Reach m P a) : Reach m Q a := by
  induction hr with
  | base hp => exact .base (h _ hp)
  | step _ hp ih => exact .step ih hp

/-- Nodup objects among the roots are live. -/
theorem live_ge {h : Heap} {addrs roots l : List Nat} (hn : l.Nodup) (hl : ∀ x ∈ l, x ∈ roots)
    (hr : ∀ r ∈ roots, r ∈ addrs) : (l.map (sizeAt h.mem)).sum ≤ liveBytes h addrs roots := by
  unfold liveBytes
  apply sum_le_of_subset hn
  intro x hx
  classical
  unfold reachable
  simp only [List.mem_filter, decide_eq_true_eq]
  exact ⟨hr x (hl x hx), .base (hl x hx)⟩

/-- State of linking: all objects are constants. -/
structure LinkInv (h : Heap) (consts : List Nat) (addrs : List Nat) : Prop where
  wf : WF h addrs
  all : ∀ a, a ∈ addrs ↔ a ∈ consts
  nodup : consts.Nodup
  cap : 256 ≤ h.len
  free : 225 ≤ h.bump
  table : h.len / 24 ≤ h.tableLen ∨ h.len < 4 * (h.allocated + 48)

theorem Tiled.allocated {h : Heap} {addrs : List Nat} (hw : WF h addrs) : h.allocated = (addrs.map (sizeAt h.mem)).sum := by
  have := hw.tiled.sum
  unfold Heap.allocated; omega

theorem freeSpace_eq {h : Heap} {addrs : List Nat} (hw : WF h addrs) : h.freeSpace = h.bump := by
  have := hw.tiled.le_len
  unfold Heap.freeSpace Heap.capacity Heap.allocated; omega

theorem or_string_tag {n : Nat} (h : n < 2 ^ 32) : n ||| stringTag < 2 ^ 64 :=
  Nat.or_lt_two_pow (by omega) (by unfold stringTag; decide)

/-- `heap` has room for everything of size up to `n` -/
theorem linkConst_ok {h : Heap} {consts addrs : List Nat} {s : List UInt8} (hi : LinkInv h consts addrs)
    (hsz : h.allocated + s.length + 512 < 2 ^ 32) :
    ∃ h' consts' addrs', linkConst h consts s = some (h', consts') ∧ LinkInv h' consts' addrs' ∧
      h'.allocated ≤ h.allocated + s.length + 31 := by
  have hru := roundUp_ge s.length
  -- room for the constant
  have key : ∃ h1 consts1 addrs1, (if h.freeSpace < s.length + 256 then collectAndGrow h consts ((s.length + 256) % 2 ^ 32) else some (h, consts)) = some (h1, consts1) ∧
      WF h1 addrs1 ∧ (∀ a, a ∈ addrs1 ↔ a ∈ consts1) ∧ consts1.Nodup ∧ 256 ≤ h1.len ∧ s.length + 256 ≤ h1.bump ∧
      (h1.len / 24 ≤ h1.tableLen ∨ h1.len < 4 * (h1.allocated + s.length + 72)) ∧ h1.allocated ≤ h.allocated := by
    by_cases hf : h.freeSpace < s.length + 256
    · rw [if_pos hf]
      have hmod : (s.length + 256) % 2 ^ 32 = s.length + 256 := Nat.mod_eq_of_lt (by omega)
      rw [hmod]
      rw [freeSpace_eq hi.wf] at hf
      have hlive : liveBytes h addrs consts = h.allocated := by
        have h1 := liveBytes_le_allocated (roots := consts) hi.wf
        have h2 := live_ge (h := h) (addrs := addrs) (roots := consts) (l := addrs) hi.wf.nodup
          (fun x hx => (hi.all x).1 hx) (fun r hr => (hi.all r).2 hr)
        rw [Tiled.allocated hi.wf] at *
        omega
      have hle := hi.wf.tiled.le_len
      have hgrow : minCap h.len (liveBytes h addrs consts) (s.length + 256) > h.len := by
        rw [hlive]; unfold minCap Heap.allocated; omega
      obtain ⟨h1, consts1, φ, e1, hC⟩ := collectInner_spec hi.wf (fun r hr => (hi.all r).2 hr)
        (ensureFree := s.length + 256) (by rw [hlive]; omega) (.inl hgrow)
      have halloc := hC.alloc
      have hlen := hC.len
      have htab := hC.table
      have hmod8 := allocated_mod (roots := consts) hi.wf
      change h1.bump + liveBytes h addrs consts = h1.len at halloc
      change h1.len = (minCap h.len (liveBytes h addrs consts) (s.length + 256) + 7) / 8 * 8 at hlen
      change h1.tableLen = if minCap h.len (liveBytes h addrs consts) (s.length + 256) > h.len
        then minCap h.len (liveBytes h addrs consts) (s.length + 256) / 24 else h.tableLen at htab
      rw [if_pos hgrow] at htab
      rw [hlive] at *
      have hal1 : h1.allocated = h.allocated := by unfold Heap.allocated at *; omega
      have hcap := hi.cap
      refine ⟨h1, consts1, _, e1, hC.wf, ?_, ?_, ?_, ?_, ?_, by omega⟩
      · intro a
        rw [hC.roots]
        simp only [List.mem_map]
        constructor
        · rintro ⟨x, hx, rfl⟩
          refine ⟨x, ?_, rfl⟩
          have : x ∈ addrs := hC.sub.subset hx
          exact (hi.all x).1 this
        · rintro ⟨x, hx, rfl⟩
          exact ⟨x, (hC.reach x).2 (.base hx), rfl⟩
      · rw [hC.roots]
        have : ∀ l : List Nat, l.Nodup → (∀ x ∈ l, x ∈ reachable h addrs consts) → (l.map φ).Nodup := by
          intro l
          induction l with
          | nil => simp
          | cons x xs ih =>
            intro hn hl
            simp only [List.nodup_cons, List.map_cons] at hn ⊢
            refine ⟨?_, ih hn.2 (fun y hy => hl y (by simp [hy]))⟩
            intro hm
            obtain ⟨y, hy, he⟩ := List.mem_map.1 hm
            have := hC.inj y (hl y (by simp [hy])) x (hl x (by simp)) he
            exact hn.1 (this ▸ hy)
        exact this _ hi.nodup (fun x hx => (hC.reach x).2 (.base hx))
      · unfold minCap at hlen; omega
      · unfold minCap at hlen; omega
      · rw [hal1, htab, hlen]
        unfold minCap at *
        rcases Nat.lt_or_ge (s.length + 256 + h.allocated) (h.allocated * 4) with hc | hc
        · left
          rw [show max (max (h.allocated * 4) h.len) (s.length + 256 + h.allocated) = h.allocated * 4 by omega]
          omega
        · right
          rw [show max (max (h.allocated * 4) h.len) (s.length + 256 + h.allocated) = s.length + 256 + h.allocated by omega]
          omega
    · rw [if_neg hf]
      rw [freeSpace_eq hi.wf] at hf
      refine ⟨h, consts, addrs, rfl, hi.wf, hi.all, hi.nodup, hi.cap, by omega, ?_, by omega⟩
      rcases hi.table with h1 | h1
      · exact .inl h1
      · right; omega
  obtain ⟨h1, consts1, addrs1, e1, hw1, hall1, hnd1, hcap1, hfree1, htab1, hal1⟩ := key
  obtain ⟨h2, a, e2, hA⟩ := allocBytes_spec (tag := s.length ||| stringTag) (bs := s) hw1
    (or_string_tag (by omega)) (by omega) (by omega)
  have hbump := hA.bump
  have haddr := hA.addr
  have hlen := hA.len
  have hle1 := hw1.tiled.le_len
  have hal2 : h2.allocated = h1.allocated + (24 + roundUp s.length) := by
    unfold Heap.allocated; omega
  have hna : a ∉ addrs1 := fun h => by
    have := hw1.tiled.ge a h
    omega
  refine ⟨h2, consts1 ++ [a], a :: addrs1, ?_, ⟨hA.wf, ?_, ?_, by omega, by omega, ?_⟩, by omega⟩
  · simp only [linkConst, e1, Option.bind_some, e2, Option.map_some]
  · intro x
    simp only [List.mem_cons, List.mem_append, List.not_mem_nil, or_false, hall1 x]
    exact Or.comm
  · rw [List.nodup_append]
    refine ⟨hnd1, by simp, ?_⟩
    intro x hx y hy
    simp only [List.mem_cons, List.not_mem_nil, or_false] at hy
    subst hy
    intro he
    exact hna ((hall1 y).2 (he ▸ hx))
  · rw [hlen, hA.tableLen, hal2]
    rcases htab1 with h | h
    · exact .inl h
    · right; omega

theorem linkConsts_ok : ∀ (ss : List (List UInt8)) (h : Heap) (consts addrs : List Nat), LinkInv h consts addrs →
    h.allocated + (ss.map fun s => s.length + 32).sum + 512 < 2 ^ 32 →
    ∃ h' consts' addrs', linkConsts h consts ss = some (h', consts') ∧ LinkInv h' consts' addrs' ∧
      h'.allocated + 512 < 2 ^ 32 := by
  intro ss
  induction ss with
  | nil => intro h consts addrs hi hs; exact ⟨h, consts, addrs, rfl, hi, by simpa using hs⟩
  | cons s ss ih =>
    intro h consts addrs hi hs
    simp only [List.map_cons, List.sum_cons] at hs
    obtain ⟨h1, c1, a1, e1, hi1, hal⟩ := linkConst_ok (s := s) hi (by omega)
    obtain ⟨h2, c2, a2, e2, hi2, hal2⟩ := ih h1 c1 a1 hi1 (by omega)
    exact ⟨h2, c2, a2, by simp [linkConsts, e1, e2], hi2, hal2⟩

theorem LinkInv.new : LinkInv Heap.new [] [] :=
  ⟨WF.new, by simp, by simp, by decide, by decide, .inl (by decide)⟩

/-- Invariant of a running interpreter. -/
structure RunInv (rt : Runtime) (stack addrs : List Nat) : Prop where
  wf : WF rt.heap addrs
  roots : ∀ p ∈ stack ++ rt.consts ++ [rt.true_] ++ [rt.false_], p ∈ addrs
  nodup : (rt.consts ++ [rt.true_] ++ [rt.false_]).Nodup
  cap : 256 ≤ rt.heap.len
  free : 128 ≤ rt.heap.bump
  table : rt.heap.len / 24 ≤ rt.heap.tableLen ∨
    rt.heap.len < 4 * ((rt.consts ++ [rt.true_] ++ [rt.false_]).map (sizeAt rt.heap.mem)).sum

theorem sizes_old {h h' : Heap} {addrs l : List Nat} (hw : WF h addrs) (hold : ∀ x, h.bump ≤ x → h'.mem x = h.mem x)
    (hl : ∀ x ∈ l, x ∈ addrs) : l.map (sizeAt h'.mem) = l.map (sizeAt h.mem) := by
  apply List.map_congr_left
  intro x hx
  have := hw.tiled.ge x (hl x hx)
  exact readLE_congr (fun y h1 h2 => hold y (by omega))

theorem start_ok (ss : List (List UInt8)) (hs : (ss.map fun s => s.length + 32).sum + 512 < 2 ^ 32) :
    ∃ rt addrs, Runtime.start ss = some rt ∧ RunInv rt [] addrs := by
  obtain ⟨h, cs, addrs, e, hi, hal⟩ := linkConsts_ok ss Heap.new [] [] LinkInv.new (by
    have : Heap.new.allocated = 0 := rfl
    omega)
  have hfree := hi.free
  have hle := hi.wf.tiled.le_len
  obtain ⟨h1, f, e1, hA1⟩ := allocObject_spec (tag := 0) (vals := []) hi.wf (by decide) (by simp) (by simp)
    (by simp; omega)
  have ha1 := hA1.addr
  have hb1 := hA1.bump
  simp only [List.length_nil] at ha1
  obtain ⟨h2, t, e2, hA2⟩ := allocObject_spec (tag := 1) (vals := []) hA1.wf (by decide) (by simp) (by simp)
    (by simp; omega)
  have ha2 := hA2.addr
  have hb2 := hA2.bump
  have hl1 := hA1.len
  have hl2 := hA2.len
  have hcap := hi.cap
  simp only [List.length_nil] at ha2
  have hge : ∀ x ∈ cs, h.bump ≤ x := fun x hx => hi.wf.tiled.ge x ((hi.all x).2 hx)
  refine ⟨{ heap := h2, consts := cs, true_ := t, false_ := f }, t :: f :: addrs, ?_, ?_⟩
  · simp only [Runtime.start, e, Option.bind_some, e1, e2, Option.map_some]
  · refine ⟨hA2.wf, ?_, ?_, by show 256 ≤ h2.len; omega, by show 128 ≤ h2.bump; omega, ?_⟩
    · intro p hp
      simp only [List.nil_append, List.mem_append, List.mem_cons, List.not_mem_nil, or_false] at hp ⊢
      rcases hp with (hp | hp) | hp
      · exact .inr (.inr ((hi.all p).2 hp))
      · exact .inl hp
      · exact .inr (.inl hp)
    · show (cs ++ [t] ++ [f]).Nodup
      rw [List.append_assoc, List.nodup_append]
      refine ⟨hi.nodup, ?_, ?_⟩
      · simp only [List.cons_append, List.nil_append, List.nodup_cons, List.mem_cons, List.not_mem_nil, or_false,
          not_false_eq_true, List.nodup_nil, and_self, and_true]
        omega
      · intro x hx y hy
        have := hge x hx
        simp only [List.cons_append, List.nil_append, List.mem_cons, List.not_mem_nil, or_false] at hy
        omega
    · show h2.len / 24 ≤ h2.tableLen ∨ h2.len < 4 * ((cs ++ [t] ++ [f]).map (sizeAt h2.mem)).sum
      rcases hi.table with htb | htb
      · left; rw [hl2, hl1, hA2.tableLen, hA1.tableLen]; exact htb
      · right
        simp only [List.map_append, List.map_cons, List.map_nil, List.sum_append, List.sum_cons, List.sum_nil]
        have s1 : cs.map (sizeAt h2.mem) = cs.map (sizeAt h.mem) := by
          apply List.map_congr_left
          intro x hx
          have := hge x hx
          exact readLE_congr (fun y h1 h2 => by rw [hA2.old y (by omega), hA1.old y (by omega)])
        have s2 : sizeAt h2.mem t = 24 := by have := hA2.size; simpa using this
        have s3 : sizeAt h2.mem f = 24 := by
          have h0 : sizeAt h2.mem f = sizeAt h1.mem f := readLE_congr (fun y h1 h2 => hA2.old y (by omega))
          rw [h0]; have := hA1.size; simpa using this
        have s4 : (cs.map (sizeAt h.mem)).sum ≥ h.allocated := by
          rw [Tiled.allocated hi.wf]
          exact sum_le_of_subset hi.wf.nodup (fun x hx => (hi.all x).1 hx)
        rw [s1, s2, s3]
        omega

/-- Invariant right after an allocation, before `maybe_gc`. -/
theorem maybeGc_ok {rt : Runtime} {stack addrs : List Nat}
    (hw : WF rt.heap addrs)
    (hroots : ∀ p ∈ stack ++ rt.consts ++ [rt.true_] ++ [rt.false_], p ∈ addrs)
    (hnd : (rt.consts ++ [rt.true_] ++ [rt.false_]).Nodup)
    (hcap : 256 ≤ rt.heap.len)
    (htab : rt.heap.len / 24 ≤ rt.heap.tableLen ∨
      rt.heap.len < 4 * ((rt.consts ++ [rt.true_] ++ [rt.false_]).map (sizeAt rt.heap.mem)).sum) :
    (liveBytes rt.heap addrs (stack ++ rt.consts ++ [rt.true_] ++ [rt.false_]) < 2 ^ 32 →
      ∃ rt' stack', rt.maybeGc stack = some (rt', stack')) ∧
    (∀ rt' stack', rt.maybeGc stack = some (rt', stack') → ∃ addrs', RunInv rt' stack' addrs') := by
  have hle := hw.tiled.le_len
  by_cases hgc : rt.heap.allocated > rt.heap.capacity / 2
  · simp only [Runtime.maybeGc, if_pos hgc, Runtime.gc]
    have hsub : ∀ x ∈ rt.consts ++ [rt.true_] ++ [rt.false_], x ∈ stack ++ rt.consts ++ [rt.true_] ++ [rt.false_] := by
      intro x hx
      simp only [List.mem_append] at hx ⊢
      rcases hx with (h | h) | h
      · exact .inl (.inl (.inr h))
      · exact .inl (.inr h)
      · exact .inr h
    have hlive := live_ge (h := rt.heap) hnd hsub hroots
    generalize hall : stack ++ rt.consts ++ [rt.true_] ++ [rt.false_] = roots at *
    have hmc : (minCap rt.heap.len (liveBytes rt.heap addrs roots) 0 > rt.heap.len ∨
        ∀ a ∈ reachable rt.heap addrs roots, a / 24 < rt.heap.tableLen) := by
      rcases htab with h | h
      · right
        intro a ha
        have hsub : (reachable rt.heap addrs roots).Sublist addrs := List.filter_sublist
        have := hw.tiled.size a (hsub.subset ha)
        omega
      · left
        unfold minCap; omega
    constructor
    · intro h32
      obtain ⟨h', roots', φ, e, hC⟩ := collectInner_spec hw hroots (ensureFree := 0) (by omega) hmc
      exact ⟨_, _, by rw [show collect rt.heap roots = some (h', roots') from e]; rfl⟩
    · intro rt' stack' e
      cases hc : collect rt.heap roots with
      | none => rw [hc] at e; cases e
      | some hr =>
        obtain ⟨h', roots'⟩ := hr
        rw [hc] at e
        simp only [Option.map_some, Option.some.injEq, Prod.mk.injEq] at e
        obtain ⟨e1, e2⟩ := e
        obtain ⟨φ, hC⟩ := collectInner_some (ensureFree := 0) hw hroots hc
        have hcs : (roots'.drop stack.length).take rt.consts.length = rt.consts.map φ := by
          rw [hC.roots, ← hall]; simp
        have ht : (roots'.drop stack.length).getD rt.consts.length 0 = φ rt.true_ := by
          rw [hC.roots, ← hall]; simp [List.getD]
        have hf : (roots'.drop stack.length).getD (rt.consts.length + 1) 0 = φ rt.false_ := by
          rw [hC.roots, ← hall]; simp [List.getD]
        have hst : roots'.take stack.length = stack.map φ := by
          rw [hC.roots, ← hall]; simp
        rw [hcs, ht, hf] at e1
        rw [hst] at e2
        subst e1 e2
        have hall' : stack.map φ ++ rt.consts.map φ ++ [φ rt.true_] ++ [φ rt.false_] = roots.map φ := by
          rw [← hall]; simp
        have hcons' : rt.consts.map φ ++ [φ rt.true_] ++ [φ rt.false_] = (rt.consts ++ [rt.true_] ++ [rt.false_]).map φ := by simp
        have halloc := hC.alloc
        have hlen := hC.len
        have htab' := hC.table
        have hmod8 := allocated_mod (roots := roots) hw
        have hrin : ∀ x ∈ roots, x ∈ reachable rt.heap addrs roots := fun x hx => (hC.reach x).2 (.base hx)
        change h'.bump + liveBytes rt.heap addrs roots = h'.len at halloc
        change h'.len = (minCap rt.heap.len (liveBytes rt.heap addrs roots) 0 + 7) / 8 * 8 at hlen
        change h'.tableLen = if minCap rt.heap.len (liveBytes rt.heap addrs roots) 0 > rt.heap.len
          then minCap rt.heap.len (liveBytes rt.heap addrs roots) 0 / 24 else rt.heap.tableLen at htab'
        have hl8 := hw.len8
        refine ⟨_, hC.wf, ?_, ?_, ?_, ?_, ?_⟩
        · show ∀ p ∈ stack.map φ ++ rt.consts.map φ ++ [φ rt.true_] ++ [φ rt.false_], _
          rw [hall']
          intro p hp
          obtain ⟨x, hx, rfl⟩ := List.mem_map.1 hp
          exact List.mem_map.2 ⟨x, hrin x hx, rfl⟩
        · show (rt.consts.map φ ++ [φ rt.true_] ++ [φ rt.false_]).Nodup
          rw [hcons']
          have : ∀ l : List Nat, l.Nodup → (∀ x ∈ l, x ∈ reachable rt.heap addrs roots) → (l.map φ).Nodup := by
            intro l
            induction l with
            | nil => simp
            | cons x xs ih =>
              intro hn hl
              simp only [List.nodup_cons, List.map_cons] at hn ⊢
              refine ⟨?_, ih hn.2 (fun y hy => hl y (by simp [hy]))⟩
              intro hm
              obtain ⟨y, hy, he⟩ := List.mem_map.1 hm
              have := hC.inj y (hl y (by simp [hy])) x (hl x (by simp)) he
              exact hn.1 (this ▸ hy)
          exact this _ hnd (fun x hx => hrin x (hsub x hx))
        · show 256 ≤ h'.len
          unfold minCap at hlen; omega
        · show 128 ≤ h'.bump
          unfold minCap at hlen; omega
        · left
          show h'.len / 24 ≤ h'.tableLen
          rw [htab', hlen]
          by_cases hg : minCap rt.heap.len (liveBytes rt.heap addrs roots) 0 > rt.heap.len
          · rw [if_pos hg]
            unfold minCap at *
            omega
          · rw [if_neg hg]
            rcases htab with h | h
            · unfold minCap at *
              omega
            · exfalso
              unfold minCap at hg
              omega
  · simp only [Runtime.maybeGc, if_neg hgc]
    refine ⟨fun _ => ⟨_, _, rfl⟩, ?_⟩
    intro rt' stack' e
    simp only [Option.some.injEq, Prod.mk.injEq] at e
    obtain ⟨rfl, rfl⟩ := e
    refine ⟨addrs, hw, hroots, hnd, hcap, ?_, htab⟩
    unfold Heap.allocated Heap.capacity at hgc
    omega

/-- After an allocation that fits, everything `maybe_gc` needs. -/
theorem RunInv.after {rt : Runtime} {stack stack' addrs : List Nat} {h' : Heap} {a : Nat} (hi : RunInv rt stack addrs)
    (hw : WF h' (a :: addrs)) (hold : ∀ x, rt.heap.bump ≤ x → h'.mem x = rt.heap.mem x)
    (hlen : h'.len = rt.heap.len) (htl : h'.tableLen = rt.heap.tableLen) (hs : ∀ p ∈ stack', p ∈ stack) :
    (h'.allocated < 2 ^ 32 → ∃ rt' st', Runtime.maybeGc { rt with heap := h' } (a :: stack') = some (rt', st')) ∧
    (∀ rt' st', Runtime.maybeGc { rt with heap := h' } (a :: stack') = some (rt', st') → ∃ addrs', RunInv rt' st' addrs') := by
  refine (fun h => ⟨fun h32 => h.1 (Nat.lt_of_le_of_lt (liveBytes_le_allocated hw) h32), h.2⟩)
    (maybeGc_ok (rt := { rt with heap := h' }) (stack := a :: stack') hw ?_ ?_ ?_ ?_)
  · intro p hp
    have hold' := hi.roots p
    simp only [List.cons_append, List.mem_cons, List.mem_append, List.not_mem_nil, or_false] at hp hold' ⊢
    rcases hp with h | ((h | h) | h) | h
    · exact .inl h
    · exact .inr (hold' (.inl (.inl (.inl (hs p h)))))
    · exact .inr (hold' (.inl (.inl (.inr h))))
    · exact .inr (hold' (.inl (.inr h)))
    · exact .inr (hold' (.inr h))
  · exact hi.nodup
  · show 256 ≤ h'.len; rw [hlen]; exact hi.cap
  · show h'.len / 24 ≤ h'.tableLen ∨ h'.len < 4 * ((rt.consts ++ [rt.true_] ++ [rt.false_]).map (sizeAt h'.mem)).sum
    rw [hlen, htl]
    rcases hi.table with h | h
    · exact .inl h
    · right
      rw [sizes_old hi.wf hold (fun x hx => hi.roots x (by
        simp only [List.mem_append] at hx ⊢
        rcases hx with (h | h) | h
        · exact .inl (.inl (.inr h))
        · exact .inl (.inr h)
        · exact .inr h))]
      exact h

theorem Run.inv {consts : List (List UInt8)} (hs : (consts.map fun s => s.length + 32).sum + 512 < 2 ^ 32)
    {rt : Runtime} {stack : List Nat} (hr : Run consts rt stack) : ∃ addrs, RunInv rt stack addrs := by
  induction hr with
  | start e =>
    obtain ⟨rt', addrs, e', hi⟩ := start_ok consts hs
    rw [e] at e'
    simp only [Option.some.injEq] at e'
    subst e'
    exact ⟨addrs, hi⟩
  | @const rt stack p _ hp ih =>
    obtain ⟨addrs, hi⟩ := ih
    refine ⟨addrs, hi.wf, ?_, hi.nodup, hi.cap, hi.free, hi.table⟩
    intro q hq
    have h1 := hi.roots q
    have h2 := hi.roots p
    simp only [List.cons_append, List.mem_cons, List.mem_append, List.not_mem_nil, or_false] at hq hp h1 h2
    rcases hq with rfl | h
    · rcases hp with h | h | h
      · exact h2 (.inl (.inl (.inr h)))
      · exact h2 (.inl (.inr h))
      · exact h2 (.inr h)
    · exact h1 h
  | drop _ hsub ih =>
    obtain ⟨addrs, hi⟩ := ih
    refine ⟨addrs, hi.wf, ?_, hi.nodup, hi.cap, hi.free, hi.table⟩
    intro q hq
    have h1 := hi.roots q
    simp only [List.mem_append] at hq h1
    rcases hq with ((h | h) | h) | h
    · exact h1 (.inl (.inl (.inl (hsub q h))))
    · exact h1 (.inl (.inl (.inr h)))
    · exact h1 (.inl (.inr h))
    · exact h1 (.inr h)
  | @read rt stack a i p _ ha e ih =>
    obtain ⟨addrs, hi⟩ := ih
    refine ⟨addrs, hi.wf, ?_, hi.nodup, hi.cap, hi.free, hi.table⟩
    intro q hq
    have h1 := hi.roots q
    have h2 := hi.roots a
    simp only [List.cons_append, List.mem_cons, List.mem_append] at hq h1 h2
    rcases hq with rfl | h
    · rw [readField_eq] at e
      split at e
      · split at e
        · rename_i hb
          simp only [Option.some.injEq, Value.ptr.injEq] at e
          have := (hi.wf.ok.bits a (h2 (.inl (.inl (.inl ha)))) i hb).2.2
          rwa [e] at this
        · simp at e
      · cases e
    · exact h1 h
  | @object rt stack tag vals h' a stack' rt' stack'' _ htag hn hv e hsub egc ih =>
    obtain ⟨addrs, hi⟩ := ih
    have hA := allocObject_some hi.wf htag (by omega) (fun p hp => hi.roots p (by simp [hv p hp])) e
    exact (hi.after hA.wf hA.old hA.len hA.tableLen hsub).2 _ _ egc
  | @bytes rt stack tag bs h' a stack' rt' stack'' _ htag hn e hsub egc ih =>
    obtain ⟨addrs, hi⟩ := ih
    have hA := allocBytes_some hi.wf htag e
    exact (hi.after hA.wf hA.old hA.len hA.tableLen hsub).2 _ _ egc

/-! ### C04 -/

/-- **C04, start.** Linking any list of string constants (below 4 GiB in total)
and allocating the booleans always succeeds. -/
theorem start_never_fails (consts : List (List UInt8))
    (hs : (consts.map fun s => s.length + 32).sum + 512 < 2 ^ 32) :
    ∃ rt, Runtime.start consts = some rt := by
  obtain ⟨rt, _, e, _⟩ := start_ok consts hs
  exact ⟨rt, e⟩

/-- **C04, objects.** At every point of every run, allocating an object of at
most 13 fields succeeds, and so does the collection that may follow it (whatever
part `stack'` of the stack survives), as long as less than 4 GiB are allocated:
neither the allocator runs out of space nor does the collector index outside
its forwarding table. -/
theorem object_alloc_never_fails {consts : List (List UInt8)}
    (hs : (consts.map fun s => s.length + 32).sum + 512 < 2 ^ 32)
    {rt : Runtime} {stack : List Nat} (hr : Run consts rt stack)
    {tag : Nat} {vals : List Value} (htag : tag < 2 ^ 64) (hn : vals.length ≤ 13)
    (hv : ∀ p, Value.ptr p ∈ vals → p ∈ stack) :
    ∃ h' a, allocObject rt.heap tag vals = some (h', a) ∧
      ∀ stack', (∀ p ∈ stack', p ∈ stack) → h'.allocated < 2 ^ 32 →
        ∃ rt' stack'', Runtime.maybeGc { rt with heap := h' } (a :: stack') = some (rt', stack'') := by
  obtain ⟨addrs, hi⟩ := hr.inv hs
  have := hi.free
  obtain ⟨h', a, e, hA⟩ := allocObject_spec hi.wf htag (by omega) (fun p hp => hi.roots p (by simp [hv p hp]))
    (vals := vals) (by omega)
  exact ⟨h', a, e, fun stack' hsub h32 => (hi.after hA.wf hA.old hA.len hA.tableLen hsub).1 h32⟩

/-- **C04, strings.** The same for strings of at most 104 bytes. -/
theorem bytes_alloc_never_fails {consts : List (List UInt8)}
    (hs : (consts.map fun s => s.length + 32).sum + 512 < 2 ^ 32)
    {rt : Runtime} {stack : List Nat} (hr : Run consts rt stack)
    {tag : Nat} {bs : List UInt8} (htag : tag < 2 ^ 64) (hn : bs.length ≤ 104) :
    ∃ h' a, allocBytes rt.heap tag bs = some (h', a) ∧
      ∀ stack', (∀ p ∈ stack', p ∈ stack) → h'.allocated < 2 ^ 32 →
        ∃ rt' stack'', Runtime.maybeGc { rt with heap := h' } (a :: stack') = some (rt', stack'') := by
  obtain ⟨addrs, hi⟩ := hr.inv hs
  have := hi.free
  have hru := roundUp_ge bs.length
  have hru2 : roundUp bs.length ≤ 104 := by unfold roundUp; omega
  obtain ⟨h', a, e, hA⟩ := allocBytes_spec hi.wf htag (bs := bs) (by omega) (by omega)
  exact ⟨h', a, e, fun stack' hsub h32 => (hi.after hA.wf hA.old hA.len hA.tableLen hsub).1 h32⟩

/-! ### Non-vacuity and the limits of the guarantee -/

/-- The bound of 128 bytes is essential: after allocating a fresh heap, an object
of 30 fields does not fit (the program aborts although memory is available). -/
theorem large_object_fails :
    ∃ rt, Runtime.start [] = some rt ∧ Run [] rt [] ∧
      allocObject rt.heap 0 (List.replicate 30 (.int 0)) = none := by
  obtain ⟨rt, e⟩ := start_never_fails [] (by decide)
  refine ⟨rt, e, .start e, ?_⟩
  have hb : rt.heap.bump = 208 := by
    have : (Runtime.start []).map (fun rt => rt.heap.bump) = some 208 := by decide
    rw [e] at this
    simpa using this
  simp only [allocObject, List.length_replicate]
  rw [if_neg (by decide)]
  have : rawAlloc rt.heap 0 (30 * 8) = none := by
    simp only [rawAlloc, hb]
    rw [if_neg (by decide), if_pos (by decide)]
  rw [this]; rfl

/-- A concrete run: one constant, a pair of a pointer and an integer, read back
after further allocations (which trigger collections). -/
def demoLoop : Nat → Runtime → List Nat → Option (Runtime × List Nat)
  | 0, rt, st => some (rt, st)
  | n + 1, rt, st =>
    (allocObject rt.heap 9 [.int 1, .int 2]).bind fun (h, a) =>
      (Runtime.maybeGc { rt with heap := h } (a :: st)).bind fun (rt, st) => demoLoop n rt (st.drop 1)

/-- The forwarding table of the heap alone (without the interpreter's policy) can
be too short: growing by an amount that is not a multiple of 8 and collecting a
24-byte object again goes out of range.  The interpreter never does this
(`object_alloc_never_fails`), because its first collection after linking always
grows the heap again. -/
theorem heap_api_table_too_short :
    ((allocBytes Heap.new 0 []).bind fun (h, a) =>
      (collectAndGrow h [a] 257).bind fun (h, roots) =>
        some (h.tableLen, roots, (collect h roots).isNone)) = some (11, [264], true) := by
  decide +kernel


example : (Runtime.start [[104, 105]]).isSome = true := by decide +kernel

/-- Non-vacuity: the hypotheses of the C04 theorems hold for a program with a
constant and a long run with collections. -/
example : ((Runtime.start [[104, 105]]).bind fun rt =>
    (allocObject rt.heap 7 [.ptr (rt.consts.getD 0 0), .int 5]).bind fun (h, a) =>
      (demoLoop 8 { rt with heap := h } [a]).map fun (rt, st) =>
        (describe rt.heap (.ptr (st.getD 0 0)), (follow rt.heap (.ptr (st.getD 0 0)) [1]),
          (follow rt.heap (.ptr (st.getD 0 0)) [0]).map (describe rt.heap))) =
    some (.obj 7 [true, false] [], some (.int 5),
      some (.obj (2 ^ 48 + 2) [false] [104, 105, 0, 0, 0, 0, 0, 0])) := by decide +kernel

end Tic.Heap
