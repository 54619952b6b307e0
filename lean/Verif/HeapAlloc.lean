import Verif.HeapCompact
/-
Helper lemmas about allocation.
-/
namespace Tic.Heap

/-- The stored word of a value. -/
def Value.word : Value → Nat
  | .int x => x.toNat
  | .ptr p => p
/-- Is the value a pointer? -/
def Value.isPtr : Value → Bool
  | .int _ => false
  | .ptr _ => true

theorem or_two_pow_lt {n i : Nat} (h : n < 2 ^ 64) (hi : i < 64) : n ||| 2 ^ i < 2 ^ 64 :=
  Nat.or_lt_two_pow h (Nat.pow_lt_pow_right (by omega) hi)

theorem put_spec {m : Mem} {a idx : Nat} {v : Value} (hi : idx < nfields m a) (h64 : idx < 64)
    (hv : v.word < 2 ^ 64) :
    ∃ m', put m a idx v = some m' ∧
      (∀ x, (x < a + 8 ∨ a + 16 ≤ x) → (x < a + 24 + 8 * idx ∨ a + 24 + 8 * (idx + 1) ≤ x) → m' x = m x) ∧
      (∀ j, (ptrsAt m' a).testBit j = ((ptrsAt m a).testBit j || (decide (j = idx) && v.isPtr))) ∧
      fieldAt m' a idx = v.word := by
  cases v with
  | int x =>
    refine ⟨_, by simp only [put]; rw [if_pos hi], ?_, ?_, ?_⟩
    · intro y _ h2; rw [writeLE_out (by omega)]
    · intro j
      have : ptrsAt (writeLE m (a + 24 + 8 * idx) 8 x.toNat) a = ptrsAt m a := by
        unfold ptrsAt; exact readLE_writeLE_disj (by omega)
      simp [this, Value.isPtr]
    · exact readLE_writeLE_same hv
  | ptr p =>
    refine ⟨_, by simp only [put]; rw [if_pos ⟨hi, h64⟩], ?_, ?_, ?_⟩
    · intro y h1 h2; rw [writeLE_out (by omega), writeLE_out (by omega)]
    · intro j
      have e : ptrsAt (writeLE m (a + 24 + 8 * idx) 8 p) a = ptrsAt m a := by
        unfold ptrsAt; exact readLE_writeLE_disj (by omega)
      rw [e]
      have e2 : ptrsAt (writeLE (writeLE m (a + 24 + 8 * idx) 8 p) (a + 8) 8 (ptrsAt m a ||| 2 ^ idx)) a = ptrsAt m a ||| 2 ^ idx :=
        readLE_writeLE_same (or_two_pow_lt (ptrs_lt m a) h64)
      rw [e2, Nat.testBit_or, Nat.testBit_two_pow]
      simp [Value.isPtr, eq_comm]
    · have : fieldAt (writeLE (writeLE m (a + 24 + 8 * idx) 8 p) (a + 8) 8 (ptrsAt (writeLE m (a + 24 + 8 * idx) 8 p) a ||| 2 ^ idx)) a idx
          = fieldAt (writeLE m (a + 24 + 8 * idx) 8 p) a idx := by
        unfold fieldAt; exact readLE_writeLE_disj (by omega)
      rw [this]
      exact readLE_writeLE_same hv

theorem putAll_spec {a : Nat} : ∀ (vals : List Value) (idx : Nat) (m : Mem),
    idx + vals.length ≤ nfields m a → idx + vals.length ≤ 64 → (∀ v ∈ vals, v.word < 2 ^ 64) →
    ∃ m', putAll m a idx vals = some m' ∧
      (∀ x, (x < a + 8 ∨ a + 16 ≤ x) → (x < a + 24 + 8 * idx ∨ a + 24 + 8 * (idx + vals.length) ≤ x) → m' x = m x) ∧
      (∀ j, (ptrsAt m' a).testBit j =
        ((ptrsAt m a).testBit j || (decide (idx ≤ j) && (vals.getD (j - idx) (.int 0)).isPtr))) ∧
      (∀ k, k < vals.length → fieldAt m' a (idx + k) = (vals.getD k (.int 0)).word) := by
  intro vals
  induction vals with
  | nil =>
    intro idx m _ _ _
    refine ⟨m, rfl, fun _ _ _ => rfl, fun j => by simp [Value.isPtr], by simp⟩
  | cons v vs ih =>
    intro idx m hn h64 hv
    simp only [List.length_cons] at hn h64
    obtain ⟨m1, e1, ho1, hb1, hf1⟩ := ih (idx + 1) m (by omega) (by omega) (fun w hw => hv w (by simp [hw]))
    have hsz : sizeAt m1 a = sizeAt m a := readLE_congr (fun x h1 h2 => ho1 x (by omega) (by omega))
    obtain ⟨m2, e2, ho2, hb2, hf2⟩ := put_spec (m := m1) (a := a) (idx := idx) (v := v)
      (by unfold nfields at *; omega) (by omega) (hv v (by simp))
    refine ⟨m2, by simp [putAll, e1, e2], ?_, ?_, ?_⟩
    · intro x h1 h2
      simp only [List.length_cons] at h2
      rw [ho2 x h1 (by omega), ho1 x h1 (by omega)]
    · intro j
      rw [hb2 j, hb1 j]
      by_cases hj : j = idx
      · subst hj
        simp [show ¬ (j + 1 ≤ j) by omega]
      · by_cases hlt : idx + 1 ≤ j
        · obtain ⟨k, rfl⟩ : ∃ k, j = idx + 1 + k := ⟨j - (idx + 1), by omega⟩
          simp [hj, show idx ≤ idx + 1 + k by omega, show idx + 1 + k - idx = k + 1 by omega]
        · simp [hj, hlt, show ¬ (idx ≤ j) by omega]
    · intro k hk
      cases k with
      | zero => simpa using hf2
      | succ k =>
        simp only [List.length_cons] at hk
        have : fieldAt m2 a (idx + (k + 1)) = fieldAt m1 a (idx + (k + 1)) := by
          unfold fieldAt
          exact readLE_congr (fun x h1 h2 => ho2 x (by omega) (by omega))
        rw [this]
        have := hf1 k (by omega)
        rw [show idx + 1 + k = idx + (k + 1) by omega] at this
        simpa using this

theorem roundUp_words (n : Nat) : roundUp (n * 8) = n * 8 := by unfold roundUp; omega

/-- The raw allocation. -/
theorem rawAlloc_spec {h : Heap} {tag bytes : Nat} (htag : tag < 2 ^ 64)
    (hb : 24 + roundUp bytes < 2 ^ 32) (hfit : 24 + roundUp bytes ≤ h.bump) :
    ∃ m', rawAlloc h tag bytes = some ({ h with mem := m', bump := h.bump - (24 + roundUp bytes) }, h.bump - (24 + roundUp bytes)) ∧
      (∀ x, h.bump ≤ x → m' x = h.mem x) ∧
      sizeAt m' (h.bump - (24 + roundUp bytes)) = 24 + roundUp bytes ∧
      markAt m' (h.bump - (24 + roundUp bytes)) = 0 ∧
      ptrsAt m' (h.bump - (24 + roundUp bytes)) = 0 ∧
      tagAt m' (h.bump - (24 + roundUp bytes)) = tag := by
  have hru : bytes + 7 < 2 ^ 32 := by unfold roundUp at *; omega
  refine ⟨_, by simp only [rawAlloc]; rw [if_neg (by omega), if_neg (by omega)], ?_, ?_, ?_, ?_, ?_⟩
  · intro x hx
    rw [writeLE_out (by omega), writeLE_out (by omega), writeLE_out (by omega), writeLE_out (by omega)]
  · unfold sizeAt
    rw [readLE_writeLE_disj (by omega), readLE_writeLE_disj (by omega), readLE_writeLE_disj (by omega),
      readLE_writeLE_same hb]
  · unfold markAt
    rw [readLE_writeLE_disj (by omega), readLE_writeLE_disj (by omega), readLE_writeLE_same (by decide)]
  · unfold ptrsAt
    rw [readLE_writeLE_disj (by omega), readLE_writeLE_same (by decide)]
  · unfold tagAt
    rw [readLE_writeLE_same htag]

/-- Old objects are untouched when the memory above the old bump pointer is. -/
theorem ObjsOk.extend {m m' : Mem} {len bump a : Nat} {addrs : List Nat} (ht : Tiled m len bump addrs)
    (hok : ObjsOk m addrs) (hm : ∀ x, bump ≤ x → m' x = m x)
    (hmark : markAt m' a = 0)
    (hbits : ∀ i, (ptrsAt m' a).testBit i = true → i < nfields m' a ∧ a < fieldAt m' a i ∧ fieldAt m' a i ∈ addrs)
    (hsmall : ptrsAt m' a ≠ 0 → nfields m' a ≤ 64) :
    ObjsOk m' (a :: addrs) := by
  have hrd : ∀ b ∈ addrs, ∀ o n, readLE m' (b + o) n = readLE m (b + o) n := by
    intro b hb o n
    have := ht.ge b hb
    exact readLE_congr (fun x h1 h2 => hm x (by omega))
  have hsz : ∀ b ∈ addrs, sizeAt m' b = sizeAt m b := fun b hb => hrd b hb 0 4
  have hpt : ∀ b ∈ addrs, ptrsAt m' b = ptrsAt m b := fun b hb => hrd b hb 8 8
  have hnf : ∀ b ∈ addrs, nfields m' b = nfields m b := fun b hb => by unfold nfields; rw [hsz b hb]
  have hfl : ∀ b ∈ addrs, ∀ i, fieldAt m' b i = fieldAt m b i := fun b hb i => by
    have := hrd b hb (24 + 8 * i) 8
    simpa [fieldAt, Nat.add_assoc] using this
  refine ⟨?_, ?_, ?_⟩
  · intro b hb
    rcases List.mem_cons.1 hb with rfl | hb
    · exact hmark
    · exact (hrd b hb 4 4).trans (hok.mark b hb)
  · intro b hb i hbit
    rcases List.mem_cons.1 hb with rfl | hb
    · have := hbits i hbit
      exact ⟨this.1, this.2.1, List.mem_cons_of_mem _ this.2.2⟩
    · rw [hpt b hb] at hbit
      have := hok.bits b hb i hbit
      rw [hnf b hb, hfl b hb i]
      exact ⟨this.1, this.2.1, List.mem_cons_of_mem _ this.2.2⟩
  · intro b hb hp
    rcases List.mem_cons.1 hb with rfl | hb
    · exact hsmall hp
    · rw [hpt b hb] at hp
      rw [hnf b hb]
      exact hok.small b hb hp

theorem Tiled.extend {m m' : Mem} {len bump a : Nat} {addrs : List Nat} (ht : Tiled m len bump addrs)
    (hm : ∀ x, bump ≤ x → m' x = m x) (hs : sizeAt m' a + a = bump) (h24 : 24 ≤ sizeAt m' a)
    (h8 : sizeAt m' a % 8 = 0) : Tiled m' len a (a :: addrs) := by
  have := ht.le_len
  refine ⟨rfl, h24, h8, by omega, ?_⟩
  rw [show a + sizeAt m' a = bump by omega]
  apply ht.congr
  intro x hx
  have := ht.ge x hx
  exact readLE_congr (fun y h1 h2 => hm y (by omega))

/-- Result of a successful allocation of an object with fields. -/
structure Allocated (h : Heap) (addrs : List Nat) (tag : Nat) (vals : List Value) (h' : Heap) (a : Nat) : Prop where
  addr : a + (24 + 8 * vals.length) = h.bump
  bump : h'.bump = a
  len : h'.len = h.len
  tableLen : h'.tableLen = h.tableLen
  wf : WF h' (a :: addrs)
  old : ∀ x, h.bump ≤ x → h'.mem x = h.mem x
  tag : tagAt h'.mem a = tag
  size : sizeAt h'.mem a = 24 + 8 * vals.length
  bits : ∀ j, (ptrsAt h'.mem a).testBit j = (vals.getD j (.int 0)).isPtr
  field : ∀ k, k < vals.length → fieldAt h'.mem a k = (vals.getD k (.int 0)).word

theorem Value.word_lt {h : Heap} {addrs : List Nat} (hw : WF h addrs) {v : Value}
    (hv : ∀ p, v = .ptr p → p ∈ addrs) : v.word < 2 ^ 64 := by
  cases v with
  | int x => exact x.toNat_lt
  | ptr p =>
    have := hw.tiled.size p (hv p rfl)
    have := hw.lenlt
    show p < 2 ^ 64
    omega

theorem allocObject_spec {h : Heap} {addrs : List Nat} {tag : Nat} {vals : List Value} (hw : WF h addrs)
    (htag : tag < 2 ^ 64) (hn : vals.length ≤ 64) (hv : ∀ p, .ptr p ∈ vals → p ∈ addrs)
    (hfit : 24 + 8 * vals.length ≤ h.bump) :
    ∃ h' a, allocObject h tag vals = some (h', a) ∧ Allocated h addrs tag vals h' a := by
  have hru := roundUp_words vals.length
  obtain ⟨m1, e1, hm1, hsz1, hmk1, hpt1, htg1⟩ := rawAlloc_spec (h := h) (bytes := vals.length * 8) htag
    (by rw [hru]; omega) (by rw [hru]; omega)
  rw [hru, show 24 + vals.length * 8 = 24 + 8 * vals.length by omega] at *
  generalize ha : h.bump - (24 + 8 * vals.length) = a at *
  have hword : ∀ v ∈ vals, v.word < 2 ^ 64 := fun v hvm =>
    Value.word_lt hw (fun p hp => hv p (hp ▸ hvm))
  have hnf1 : nfields m1 a = vals.length := by unfold nfields; rw [hsz1]; omega
  obtain ⟨m2, e2, ho2, hb2, hf2⟩ := putAll_spec (a := a) vals 0 m1 (by omega) (by omega) hword
  have hsz2 : sizeAt m2 a = 24 + 8 * vals.length := by
    rw [← hsz1]; exact readLE_congr (fun x h1 h2 => ho2 x (by omega) (by omega))
  have hmk2 : markAt m2 a = 0 := by
    rw [← hmk1]; exact readLE_congr (fun x h1 h2 => ho2 x (by omega) (by omega))
  have htg2 : tagAt m2 a = tag := by
    rw [← htg1]; exact readLE_congr (fun x h1 h2 => ho2 x (by omega) (by omega))
  have hold : ∀ x, h.bump ≤ x → m2 x = h.mem x := by
    intro x hx
    rw [ho2 x (by omega) (by omega)]
    exact hm1 x hx
  have hbits : ∀ j, (ptrsAt m2 a).testBit j = (vals.getD j (.int 0)).isPtr := by
    intro j; rw [hb2 j, hpt1]; simp
  have hfield : ∀ k, k < vals.length → fieldAt m2 a k = (vals.getD k (.int 0)).word := by
    intro k hk; simpa using hf2 k hk
  have hnf2 : nfields m2 a = vals.length := by unfold nfields; rw [hsz2]; omega
  refine ⟨{ h with mem := m2, bump := a }, a, ?_, ?_⟩
  · simp only [allocObject]
    rw [if_neg (by omega), e1]
    simp [e2]
  · refine ⟨by omega, rfl, rfl, rfl, ⟨hw.len8, hw.lenlt, ?_, ?_, hw.tab⟩, hold, htg2, hsz2, hbits, hfield⟩
    · exact hw.tiled.extend hold (by show sizeAt m2 a + a = _; omega) (by show 24 ≤ sizeAt m2 a; omega)
        (by show sizeAt m2 a % 8 = 0; omega)
    · refine hw.ok.extend hw.tiled hold hmk2 ?_ (fun _ => by show nfields m2 a ≤ 64; omega)
      intro i hb
      replace hb : (ptrsAt m2 a).testBit i = true := hb
      rw [hbits i] at hb
      have hi : i < vals.length := by
        apply Classical.byContradiction
        intro hn
        have : vals.getD i (.int 0) = .int 0 := by simp [List.getD, List.getElem?_eq_none (by omega : vals.length ≤ i)]
        rw [this] at hb; cases hb
      have hget : vals.getD i (.int 0) = vals[i] := by simp [List.getD, hi]
      show i < nfields m2 a ∧ a < fieldAt m2 a i ∧ fieldAt m2 a i ∈ addrs
      rw [hnf2, hfield i hi, hget]
      rw [hget] at hb
      cases hvi : vals[i] with
      | int x => rw [hvi] at hb; cases hb
      | ptr p =>
        have hp : p ∈ addrs := hv p (hvi ▸ List.getElem_mem hi)
        refine ⟨hi, ?_, hp⟩
        show a < p
        have := hw.tiled.ge p hp
        omega

/-- Result of a successful allocation of a byte object. -/
structure AllocatedBytes (h : Heap) (addrs : List Nat) (tag : Nat) (bs : List UInt8) (h' : Heap) (a : Nat) : Prop where
  addr : a + (24 + roundUp bs.length) = h.bump
  bump : h'.bump = a
  len : h'.len = h.len
  tableLen : h'.tableLen = h.tableLen
  wf : WF h' (a :: addrs)
  old : ∀ x, h.bump ≤ x → h'.mem x = h.mem x
  tag : tagAt h'.mem a = tag
  size : sizeAt h'.mem a = 24 + roundUp bs.length
  ptrs : ptrsAt h'.mem a = 0
  bytes : ∀ k, k < bs.length → h'.mem (a + 24 + k) = bs.getD k 0

theorem roundUp_ge (n : Nat) : n ≤ roundUp n ∧ roundUp n < n + 8 ∧ roundUp n % 8 = 0 := by unfold roundUp; omega

theorem allocBytes_spec {h : Heap} {addrs : List Nat} {tag : Nat} {bs : List UInt8} (hw : WF h addrs)
    (htag : tag < 2 ^ 64) (hn : 24 + roundUp bs.length < 2 ^ 32)
    (hfit : 24 + roundUp bs.length ≤ h.bump) :
    ∃ h' a, allocBytes h tag bs = some (h', a) ∧ AllocatedBytes h addrs tag bs h' a := by
  obtain ⟨m1, e1, hm1, hsz1, hmk1, hpt1, htg1⟩ := rawAlloc_spec (h := h) (bytes := bs.length) htag hn hfit
  have hru := roundUp_ge bs.length
  generalize ha : h.bump - (24 + roundUp bs.length) = a at *
  let m2 := writeBytes m1 (a + 24) bs
  have ho2 : ∀ x, x < a + 24 ∨ a + 24 + bs.length ≤ x → m2 x = m1 x := by
    intro x hx
    show writeBytes m1 (a + 24) bs x = m1 x
    simp only [writeBytes]; rw [if_neg (by omega)]
  have hhead : ∀ o n, o + n ≤ 24 → readLE m2 (a + o) n = readLE m1 (a + o) n := fun o n h =>
    readLE_congr (fun x h1 h2 => ho2 x (by omega))
  have hsz2 : sizeAt m2 a = 24 + roundUp bs.length := by rw [← hsz1]; exact hhead 0 4 (by omega)
  have hmk2 : markAt m2 a = 0 := by rw [← hmk1]; exact hhead 4 4 (by omega)
  have hpt2 : ptrsAt m2 a = 0 := by rw [← hpt1]; exact hhead 8 8 (by omega)
  have htg2 : tagAt m2 a = tag := by rw [← htg1]; exact hhead 16 8 (by omega)
  have hold : ∀ x, h.bump ≤ x → m2 x = h.mem x := by
    intro x hx
    rw [ho2 x (by omega)]
    exact hm1 x hx
  refine ⟨{ h with mem := m2, bump := a }, a, ?_, ?_⟩
  · simp only [allocBytes, e1, Option.map_some]; rfl
  · refine ⟨by omega, rfl, rfl, rfl, ⟨hw.len8, hw.lenlt, ?_, ?_, hw.tab⟩, hold, htg2, hsz2, hpt2, ?_⟩
    · exact hw.tiled.extend hold (by show sizeAt m2 a + a = _; omega) (by show 24 ≤ sizeAt m2 a; omega)
        (by show sizeAt m2 a % 8 = 0; omega)
    · refine hw.ok.extend hw.tiled hold hmk2 ?_ (fun hp => absurd hpt2 hp)
      intro i hb
      rw [show ptrsAt _ a = 0 from hpt2] at hb
      simp at hb
    · intro k hk
      show writeBytes m1 (a + 24) bs (a + 24 + k) = _
      simp only [writeBytes]
      rw [if_pos (by omega), show a + 24 + k - (a + 24) = k by omega]

theorem WF.new : WF Heap.new [] :=
  ⟨rfl, by decide, rfl, ⟨by simp, by simp, by simp⟩, fun _ => by show 2 ^ 64 - 1 < 2 ^ 64; decide⟩

/-! ### The converse: a successful operation met its preconditions -/

theorem rawAlloc_some {h h' : Heap} {tag bytes a : Nat} (e : rawAlloc h tag bytes = some (h', a)) :
    24 + roundUp bytes < 2 ^ 32 ∧ 24 + roundUp bytes ≤ h.bump := by
  simp only [rawAlloc] at e
  split at e
  · cases e
  · split at e
    · cases e
    · omega

theorem allocObject_some {h h' : Heap} {addrs : List Nat} {tag a : Nat} {vals : List Value} (hw : WF h addrs)
    (htag : tag < 2 ^ 64) (hn : vals.length ≤ 64) (hv : ∀ p, .ptr p ∈ vals → p ∈ addrs)
    (e : allocObject h tag vals = some (h', a)) : Allocated h addrs tag vals h' a := by
  have hfit : 24 + 8 * vals.length ≤ h.bump := by
    simp only [allocObject] at e
    split at e
    · cases e
    · cases hr : rawAlloc h tag (vals.length * 8) with
      | none => simp [hr] at e
      | some p =>
        have := (rawAlloc_some (h' := p.1) (a := p.2) hr).2
        rw [roundUp_words] at this
        omega
  obtain ⟨h2, a2, e2, hA⟩ := allocObject_spec hw htag hn hv hfit
  rw [e] at e2
  simp only [Option.some.injEq, Prod.mk.injEq] at e2
  rw [e2.1, e2.2]; exact hA

theorem allocBytes_some {h h' : Heap} {addrs : List Nat} {tag a : Nat} {bs : List UInt8} (hw : WF h addrs)
    (htag : tag < 2 ^ 64) (e : allocBytes h tag bs = some (h', a)) : AllocatedBytes h addrs tag bs h' a := by
  cases hr : rawAlloc h tag bs.length with
  | none => simp [allocBytes, hr] at e
  | some p =>
    have h1 := rawAlloc_some (h' := p.1) (a := p.2) hr
    obtain ⟨h2, a2, e2, hA⟩ := allocBytes_spec hw htag h1.1 h1.2
    rw [e] at e2
    simp only [Option.some.injEq, Prod.mk.injEq] at e2
    rw [e2.1, e2.2]; exact hA

theorem moveOne_none {len tl : Nat} {st : MoveState} {a : Nat} (h : tl ≤ a / 24) : moveOne len tl st a = none := by
  simp only [moveOne]
  split
  · rw [if_neg (by omega)]
  · rfl

theorem moveAll_none {len tl : Nat} {l : List Nat} {st : MoveState} (h : ∃ a ∈ l, tl ≤ a / 24) : moveAll len tl st l = none := by
  induction l generalizing st with
  | nil => simp at h
  | cons x xs ih =>
    simp only [moveAll]
    by_cases hx : tl ≤ x / 24
    · rw [moveOne_none hx]; rfl
    · obtain ⟨a, ha, hl⟩ := h
      rcases List.mem_cons.1 ha with rfl | ha
      · exact absurd hl hx
      · cases hm : moveOne len tl st x with
        | none => rfl
        | some st' => exact ih ⟨a, ha, hl⟩

/-- A collection that does not panic had a large enough table and no overflow. -/
theorem collectInner_some {h h' : Heap} {addrs roots roots' : List Nat} {ensureFree : Nat}
    (hw : WF h addrs) (hr : ∀ r ∈ roots, r ∈ addrs)
    (e : collectInner h roots ensureFree = some (h', roots')) :
    ∃ φ, Collected h addrs roots ensureFree h' roots' (reachable h addrs roots) φ := by
  have main : ensureFree + liveBytes h addrs roots < 2 ^ 32 ∧
      (minCap h.len (liveBytes h addrs roots) ensureFree > h.len ∨
        ∀ a ∈ reachable h addrs roots, a / 24 < h.tableLen) := by
    obtain ⟨hlen8, hlenlt, htiled, hok, htab⟩ := hw
    have hfits := htiled.fits
    have hsize := htiled.size
    have hsz : ∀ x ∈ addrs, 24 ≤ sizeAt h.mem x ∧ x + sizeAt h.mem x ≤ h.len := fun x hx => ⟨(hsize x hx).1, (hsize x hx).2.2⟩
    have hM0 : Marked addrs h.mem (fun _ => False) h.mem :=
      ⟨AgreeOff.refl _ _, fun _ _ hf => hf.elim, fun a ha _ => hok.mark a ha⟩
    obtain ⟨m1, e1, hM1⟩ := markRoots_marked hfits hsz hM0 roots hr
    have hM1' : Marked addrs h.mem (· ∈ roots) m1 := hM1.congr (by simp)
    obtain ⟨m2, rs, e2, hM2, hsub, hmem⟩ := sweep_spec hfits hsz hok addrs h.bump m1 (· ∈ roots) (h.len + 1)
      htiled (fun _ hx => hx) (fun _ ha _ => ha) (fun a ha _ => htiled.ge a ha) hr hM1'
      (by have := htiled.length_lt; omega)
    have hnd := hfits.nodup (fun x hx => (hsize x hx).1)
    have hrs : rs = reachable h addrs roots := by
      classical
      unfold reachable
      exact eq_filter_of_sublist hsub hnd (fun x hx => by rw [hmem x hx]; simp)
    have hsame := hM2.agree.same hfits (fun x hx => (hsize x hx).1)
    have hsum : (rs.map (sizeAt m2)).sum = liveBytes h addrs roots := by
      unfold liveBytes
      rw [← hrs]
      congr 1
      exact List.map_congr_left (fun a ha => hsame.size a (hsub.subset ha))
    rw [← hrs]
    generalize hR : liveBytes h addrs roots = R at *
    simp only [collectInner, e1, Option.bind_some, e2] at e
    rw [hsum] at e
    split at e
    · cases e
    · rename_i hov
      refine ⟨by omega, ?_⟩
      apply Classical.byContradiction
      intro hn
      have hn1 : ¬ minCap h.len R ensureFree > h.len := fun hh => hn (.inl hh)
      have hn1' : ¬ max (max (R * 4) h.len) (ensureFree + R) > h.len := hn1
      have hn2 : ∃ a ∈ rs, h.tableLen ≤ a / 24 := by
        apply Classical.byContradiction
        intro hh
        refine hn (.inr fun a ha => ?_)
        apply Classical.byContradiction
        intro hlt
        exact hh ⟨a, ha, by omega⟩
      simp only [if_neg hn1'] at e
      rw [moveAll_none (by obtain ⟨a, ha, hl⟩ := hn2; exact ⟨a, by simpa using ha, hl⟩)] at e
      cases e
  obtain ⟨h2, roots2, φ, e2, hC⟩ := collectInner_spec hw hr main.1 main.2
  rw [e] at e2
  simp only [Option.some.injEq, Prod.mk.injEq] at e2
  rw [e2.1, e2.2]; exact ⟨φ, hC⟩

end Tic.Heap
