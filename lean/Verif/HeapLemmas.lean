import Verif.Heap
/-
Helper lemmas about the heap model: byte-level reads and writes, object tiling,
marking and sweeping.
-/
namespace Tic.Heap

/-! ### Little-endian access -/

theorem readLE_congr {m m' : Mem} {a n : Nat} (h : ∀ x, a ≤ x → x < a + n → m x = m' x) :
    readLE m a n = readLE m' a n := by
  induction n generalizing a with
  | zero => rfl
  | succ n ih =>
    simp only [readLE]
    rw [h a (by omega) (by omega), ih (fun x h1 h2 => h x (by omega) (by omega))]

theorem readLE_lt (m : Mem) (a n : Nat) : readLE m a n < 256 ^ n := by
  induction n generalizing a with
  | zero => simp [readLE]
  | succ n ih =>
    have h1 := ih (a + 1)
    have h2 := (m a).toNat_lt
    simp only [readLE, Nat.pow_succ]
    omega

theorem readLE_writeLE_aux (m : Mem) (a n v k : Nat) :
    readLE (writeLE m a (k + n) v) (a + k) n = v / 256 ^ k % 256 ^ n := by
  induction n generalizing k with
  | zero => simp [readLE, Nat.mod_one]
  | succ n ih =>
    simp only [readLE]
    have h1 : writeLE m a (k + (n + 1)) v (a + k) = UInt8.ofNat (v / 256 ^ k) := by
      simp [writeLE]
    rw [h1]
    have h2 := ih (k + 1)
    rw [show k + 1 + n = k + (n + 1) by omega, show a + (k + 1) = a + k + 1 by omega] at h2
    rw [h2]
    have h3 : (UInt8.ofNat (v / 256 ^ k)).toNat = v / 256 ^ k % 256 := by simp
    rw [h3, Nat.pow_succ 256 k, ← Nat.div_div_eq_div_mul]
    generalize v / 256 ^ k = w
    rw [Nat.pow_succ, Nat.mul_comm (256 ^ n) 256, Nat.mod_mul]

theorem readLE_writeLE_same {m : Mem} {a n v : Nat} (h : v < 256 ^ n) :
    readLE (writeLE m a n v) a n = v := by
  have := readLE_writeLE_aux m a n v 0
  simp only [Nat.zero_add, Nat.add_zero, Nat.pow_zero, Nat.div_one] at this
  rw [this, Nat.mod_eq_of_lt h]

theorem readLE_writeLE_disj {m : Mem} {a n v b k : Nat} (h : b + k ≤ a ∨ a + n ≤ b) :
    readLE (writeLE m a n v) b k = readLE m b k := by
  apply readLE_congr
  intro x h1 h2
  simp only [writeLE]
  rw [if_neg (by omega)]

theorem writeLE_out {m : Mem} {a n v x : Nat} (h : x < a ∨ a + n ≤ x) : writeLE m a n v x = m x := by
  simp only [writeLE]; rw [if_neg (by omega)]

theorem readLE_shift {m m' : Mem} {a b n : Nat} (h : ∀ i, i < n → m (a + i) = m' (b + i)) :
    readLE m a n = readLE m' b n := by
  induction n generalizing a b with
  | zero => rfl
  | succ n ih =>
    simp only [readLE]
    rw [show m a = m' b from h 0 (by omega)]
    rw [ih (a := a + 1) (b := b + 1) (fun i hi => by
      have := h (i + 1) (by omega)
      rw [show a + 1 + i = a + (i + 1) by omega, show b + 1 + i = b + (i + 1) by omega]; exact this)]

theorem readLE_zero_bytes {m : Mem} {a n : Nat} (h : readLE m a n = 0) :
    ∀ x, a ≤ x → x < a + n → m x = 0 := by
  induction n generalizing a with
  | zero => intro x h1 h2; omega
  | succ n ih =>
    simp only [readLE] at h
    intro x h1 h2
    by_cases hx : x = a
    · subst hx
      have : (m x).toNat = 0 := by omega
      exact UInt8.toNat.inj this
    · exact ih (a := a + 1) (by omega) x (by omega) (by omega)

theorem size_lt (m : Mem) (a : Nat) : sizeAt m a < 2 ^ 32 := readLE_lt m a 4
theorem ptrs_lt (m : Mem) (a : Nat) : ptrsAt m a < 2 ^ 64 := readLE_lt m (a + 8) 8

theorem testBit_lt_64 {m : Mem} {a i : Nat} (h : (ptrsAt m a).testBit i = true) : i < 64 := by
  apply Classical.byContradiction
  intro hn
  have : (ptrsAt m a).testBit i = false := by
    apply Nat.testBit_lt_two_pow
    exact Nat.lt_of_lt_of_le (ptrs_lt m a) (Nat.pow_le_pow_right (by omega) (by omega))
  rw [this] at h; cases h

/-! ### Tiling -/

/-- The objects of a heap: consecutive objects from `a` to exactly `len`. -/
def Tiled (m : Mem) (len : Nat) : Nat → List Nat → Prop
  | a, [] => a = len
  | a, x :: xs => x = a ∧ 24 ≤ sizeAt m a ∧ sizeAt m a % 8 = 0 ∧ a + sizeAt m a ≤ len ∧
      Tiled m len (a + sizeAt m a) xs

/-- Objects in ascending order that do not overlap and end before `len`. -/
def Fits (m : Mem) (len : Nat) : List Nat → Prop
  | [] => True
  | a :: l => (∀ b ∈ l, a + sizeAt m a ≤ b) ∧ a + sizeAt m a ≤ len ∧ Fits m len l

theorem Tiled.ge {m : Mem} {len a : Nat} {l : List Nat} (h : Tiled m len a l) : ∀ x ∈ l, a ≤ x := by
  induction l generalizing a with
  | nil => simp
  | cons y ys ih =>
    obtain ⟨rfl, h1, -, h2, h3⟩ := h
    intro x hx
    rcases List.mem_cons.1 hx with rfl | hx
    · omega
    · have := ih h3 x hx; omega

theorem Tiled.le_len {m : Mem} {len a : Nat} {l : List Nat} (h : Tiled m len a l) : a ≤ len := by
  cases l with
  | nil => exact Nat.le_of_eq h
  | cons y ys => obtain ⟨rfl, h1, -, h2, h3⟩ := h; omega

theorem Tiled.fits {m : Mem} {len a : Nat} {l : List Nat} (h : Tiled m len a l) : Fits m len l := by
  induction l generalizing a with
  | nil => trivial
  | cons y ys ih =>
    obtain ⟨rfl, h1, -, h2, h3⟩ := h
    exact ⟨fun b hb => h3.ge b hb, h2, ih h3⟩

theorem Tiled.size {m : Mem} {len a : Nat} {l : List Nat} (h : Tiled m len a l) :
    ∀ x ∈ l, 24 ≤ sizeAt m x ∧ sizeAt m x % 8 = 0 ∧ x + sizeAt m x ≤ len := by
  induction l generalizing a with
  | nil => simp
  | cons y ys ih =>
    obtain ⟨rfl, h1, h0, h2, h3⟩ := h
    intro x hx
    rcases List.mem_cons.1 hx with rfl | hx
    · exact ⟨h1, h0, h2⟩
    · exact ih h3 x hx

theorem Tiled.sum {m : Mem} {len a : Nat} {l : List Nat} (h : Tiled m len a l) :
    a + (l.map (sizeAt m)).sum = len := by
  induction l generalizing a with
  | nil => simp only [Tiled] at h; simp [h]
  | cons y ys ih =>
    obtain ⟨rfl, h1, -, h2, h3⟩ := h
    have := ih h3
    simp; omega

theorem Tiled.congr {m m' : Mem} {len a : Nat} {l : List Nat} (h : Tiled m len a l)
    (hs : ∀ x ∈ l, sizeAt m' x = sizeAt m x) : Tiled m' len a l := by
  induction l generalizing a with
  | nil => exact h
  | cons y ys ih =>
    obtain ⟨rfl, h1, h0, h2, h3⟩ := h
    have e := hs y (by simp)
    refine ⟨rfl, by omega, by omega, by omega, ?_⟩
    rw [e]
    exact ih h3 (fun x hx => hs x (by simp [hx]))

/-- Any two different objects of a tiled heap are disjoint. -/
theorem Fits.disjoint {m : Mem} {len : Nat} {l : List Nat} (h : Fits m len l) :
    ∀ x ∈ l, ∀ y ∈ l, x ≠ y → x + sizeAt m x ≤ y ∨ y + sizeAt m y ≤ x := by
  induction l with
  | nil => simp
  | cons a l ih =>
    obtain ⟨h1, -, h3⟩ := h
    intro x hx y hy hne
    rcases List.mem_cons.1 hx with hxa | hx' <;> rcases List.mem_cons.1 hy with hya | hy'
    · exact absurd (hxa.trans hya.symm) hne
    · subst hxa; exact .inl (h1 y hy')
    · subst hya; exact .inr (h1 x hx')
    · exact ih h3 x hx' y hy' hne

theorem Fits.sum_le {m : Mem} {len a : Nat} {l : List Nat} (h : Fits m len (a :: l)) :
    a + ((a :: l).map (sizeAt m)).sum ≤ len := by
  induction l generalizing a with
  | nil => obtain ⟨-, h2, -⟩ := h; simpa using h2
  | cons b l ih =>
    obtain ⟨h1, h2, h3⟩ := h
    have := ih h3
    have := h1 b (by simp)
    simp at *; omega

theorem Fits.sublist {m : Mem} {len : Nat} {l l' : List Nat} (h : Fits m len l)
    (hs : l'.Sublist l) : Fits m len l' := by
  induction hs with
  | slnil => trivial
  | cons a hs ih => exact ih h.2.2
  | cons_cons a hs ih =>
    exact ⟨fun b hb => h.1 b (hs.subset hb), h.2.1, ih h.2.2⟩

theorem Fits.congr {m m' : Mem} {len : Nat} {l : List Nat} (h : Fits m len l)
    (hs : ∀ x ∈ l, sizeAt m' x = sizeAt m x) : Fits m' len l := by
  induction l with
  | nil => trivial
  | cons a l ih =>
    have e := hs a (by simp)
    refine ⟨fun b hb => by have := h.1 b hb; omega, by have := h.2.1; omega,
      ih h.2.2 (fun x hx => hs x (by simp [hx]))⟩

theorem Fits.mono {m : Mem} {len len' : Nat} {l : List Nat} (h : Fits m len l) (hl : len ≤ len') :
    Fits m len' l := by
  induction l with
  | nil => trivial
  | cons a l ih => exact ⟨h.1, by have := h.2.1; omega, ih h.2.2⟩

theorem Fits.nodup {m : Mem} {len : Nat} {l : List Nat} (h : Fits m len l)
    (hs : ∀ x ∈ l, 24 ≤ sizeAt m x) : l.Nodup := by
  induction l with
  | nil => simp
  | cons a l ih =>
    simp only [List.nodup_cons]
    refine ⟨fun ha => ?_, ih h.2.2 (fun x hx => hs x (by simp [hx]))⟩
    have := h.1 a ha
    have := hs a (by simp)
    omega

/-! ### Well-formed heaps -/

/-- Objects at `addrs` are unmarked and their pointer fields point at later
objects (which were allocated earlier). -/
structure ObjsOk (m : Mem) (addrs : List Nat) : Prop where
  mark : ∀ a ∈ addrs, markAt m a = 0
  bits : ∀ a ∈ addrs, ∀ i, (ptrsAt m a).testBit i = true →
    i < nfields m a ∧ a < fieldAt m a i ∧ fieldAt m a i ∈ addrs
  small : ∀ a ∈ addrs, ptrsAt m a ≠ 0 → nfields m a ≤ 64

/-- `m'` equals `m` outside the mark fields of the objects. -/
def AgreeOff (addrs : List Nat) (m m' : Mem) : Prop :=
  ∀ x, (∀ a ∈ addrs, x < a + 4 ∨ a + 8 ≤ x) → m' x = m x

theorem AgreeOff.refl (addrs : List Nat) (m : Mem) : AgreeOff addrs m m := fun _ _ => rfl
theorem AgreeOff.trans {addrs : List Nat} {m m' m'' : Mem} (h : AgreeOff addrs m m')
    (h' : AgreeOff addrs m' m'') : AgreeOff addrs m m'' :=
  fun x hx => (h' x hx).trans (h x hx)

theorem AgreeOff.read {m m' : Mem} {len : Nat} {addrs : List Nat} (hf : Fits m len addrs)
    (hs : ∀ x ∈ addrs, 24 ≤ sizeAt m x) (h : AgreeOff addrs m m') {a o n : Nat} (ha : a ∈ addrs)
    (ho : o + n ≤ 4 ∨ 8 ≤ o) (hn : o + n ≤ sizeAt m a) :
    readLE m' (a + o) n = readLE m (a + o) n := by
  apply readLE_congr
  intro x h1 h2
  apply h
  intro b hb
  by_cases hab : a = b
  · subst hab; omega
  · have := hf.disjoint a ha b hb hab
    have := hs b hb
    omega

/-- Everything but the marks is the same. -/
structure SameObjs (addrs : List Nat) (m m' : Mem) : Prop where
  size : ∀ a ∈ addrs, sizeAt m' a = sizeAt m a
  ptrs : ∀ a ∈ addrs, ptrsAt m' a = ptrsAt m a
  tag : ∀ a ∈ addrs, tagAt m' a = tagAt m a
  field : ∀ a ∈ addrs, ∀ i, i < nfields m a → fieldAt m' a i = fieldAt m a i
  body : ∀ a ∈ addrs, ∀ x, x + 24 < sizeAt m a → m' (a + 24 + x) = m (a + 24 + x)

theorem AgreeOff.same {m m' : Mem} {len : Nat} {addrs : List Nat} (hf : Fits m len addrs)
    (hs : ∀ x ∈ addrs, 24 ≤ sizeAt m x) (h : AgreeOff addrs m m') : SameObjs addrs m m' := by
  refine ⟨fun a ha => ?_, fun a ha => ?_, fun a ha => ?_, fun a ha i hi => ?_, fun a ha x hx => ?_⟩
  · have := hs a ha
    exact h.read hf hs ha (o := 0) (n := 4) (by omega) (by omega)
  · have := hs a ha
    exact h.read hf hs ha (o := 8) (n := 8) (by omega) (by omega)
  · have := hs a ha
    exact h.read hf hs ha (o := 16) (n := 8) (by omega) (by omega)
  · have := hs a ha
    unfold nfields at hi
    have := h.read hf hs ha (o := 24 + 8 * i) (n := 8) (by omega) (by omega)
    simpa [fieldAt, Nat.add_assoc] using this
  · apply h
    intro b hb
    by_cases hab : a = b
    · subst hab; omega
    · have := hf.disjoint a ha b hb hab
      have := hs b hb
      omega

theorem SameObjs.nfields {addrs : List Nat} {m m' : Mem} (h : SameObjs addrs m m') {a : Nat}
    (ha : a ∈ addrs) : nfields m' a = nfields m a := by
  unfold Tic.Heap.nfields; rw [h.size a ha]

theorem SameObjs.fieldsOf {addrs : List Nat} {m m' : Mem} (h : SameObjs addrs m m') {a : Nat}
    (ha : a ∈ addrs) : fieldsOf m' a = fieldsOf m a := by
  unfold Tic.Heap.fieldsOf
  rw [h.nfields ha]
  apply List.map_congr_left
  intro i hi
  exact h.field a ha i (by simpa using hi)

/-! ### Marking -/

/-- Memory `m'` is `m` with exactly the objects satisfying `P` marked (with 1). -/
structure Marked (addrs : List Nat) (m : Mem) (P : Nat → Prop) (m' : Mem) : Prop where
  agree : AgreeOff addrs m m'
  marked : ∀ a ∈ addrs, P a → markAt m' a = 1
  unmarked : ∀ a ∈ addrs, ¬ P a → markAt m' a = 0

theorem setMark_marked {m m' : Mem} {len v : Nat} {addrs : List Nat} {P : Nat → Prop}
    (hf : Fits m len addrs) (hs : ∀ x ∈ addrs, 24 ≤ sizeAt m x)
    (h : Marked addrs m P m') {a : Nat} (ha : a ∈ addrs) (hv : v = 0 ∨ v = 1) (halen : a + 24 ≤ len) :
    ∃ m'', setMark m' len a v = some m'' ∧ Marked addrs m (fun x => (x = a ∧ v = 1) ∨ (x ≠ a ∧ P x)) m'' := by
  have hone : ∀ b ∈ addrs, b ≠ a → markAt (writeLE m' (a + 4) 4 v) b = markAt m' b := by
    intro b hb hba
    unfold markAt
    apply readLE_writeLE_disj
    have := hf.disjoint a ha b hb (Ne.symm hba)
    have := hs a ha
    have := hs b hb
    omega
  have hself : markAt (writeLE m' (a + 4) 4 v) a = v := by
    unfold markAt
    apply readLE_writeLE_same
    rcases hv with rfl | rfl <;> decide
  refine ⟨_, by simp only [setMark]; rw [if_pos halen], ⟨?_, ?_, ?_⟩⟩
  · intro x hx
    rw [writeLE_out (by have := hx a ha; omega)]
    exact h.agree x hx
  · intro b hb hP
    rcases hP with ⟨rfl, rfl⟩ | ⟨hne, hP⟩
    · exact hself
    · rw [hone b hb hne]; exact h.marked b hb hP
  · intro b hb hP
    by_cases hba : b = a
    · subst hba
      rw [hself]
      rcases hv with rfl | rfl
      · rfl
      · exact absurd (.inl ⟨rfl, rfl⟩) hP
    · rw [hone b hb hba]
      exact h.unmarked b hb (fun hp => hP (.inr ⟨hba, hp⟩))

theorem Marked.congr {addrs : List Nat} {m m' : Mem} {P Q : Nat → Prop} (h : Marked addrs m P m')
    (hpq : ∀ a ∈ addrs, (P a ↔ Q a)) : Marked addrs m Q m' :=
  ⟨h.agree, fun a ha hq => h.marked a ha ((hpq a ha).2 hq),
    fun a ha hq => h.unmarked a ha (fun hp => hq ((hpq a ha).1 hp))⟩

theorem markRoots_marked {m m' : Mem} {len : Nat} {addrs : List Nat} {P : Nat → Prop}
    (hf : Fits m len addrs) (hs : ∀ x ∈ addrs, 24 ≤ sizeAt m x ∧ x + sizeAt m x ≤ len)
    (h : Marked addrs m P m') (roots : List Nat) (hr : ∀ r ∈ roots, r ∈ addrs) :
    ∃ m'', markRoots m' len roots = some m'' ∧ Marked addrs m (fun x => x ∈ roots ∨ P x) m'' := by
  induction roots generalizing m' P with
  | nil => exact ⟨m', rfl, h.congr (by simp)⟩
  | cons r rs ih =>
    have hra := hr r (by simp)
    have := hs r hra
    obtain ⟨m1, e1, h1⟩ := setMark_marked hf (fun x hx => (hs x hx).1) h hra (.inr rfl) (by omega : r + 24 ≤ len)
    obtain ⟨m2, e2, h2⟩ := ih h1 (fun x hx => hr x (by simp [hx]))
    refine ⟨m2, by simp [markRoots, e1, e2], h2.congr ?_⟩
    intro a _
    simp only [List.mem_cons]
    by_cases har : a = r <;> simp [har]

theorem markFields_marked {m m' : Mem} {len ptrs : Nat} {addrs : List Nat} {P : Nat → Prop}
    (hf : Fits m len addrs) (hs : ∀ x ∈ addrs, 24 ≤ sizeAt m x ∧ x + sizeAt m x ≤ len)
    (h : Marked addrs m P m') (fs : List Nat) (i : Nat) (hi : i + fs.length ≤ 64)
    (hr : ∀ k, k < fs.length → ptrs.testBit (i + k) = true → fs.getD k 0 ∈ addrs) :
    ∃ m'', markFields m' len ptrs i fs = some m'' ∧
      Marked addrs m (fun x => (∃ k, k < fs.length ∧ ptrs.testBit (i + k) = true ∧ fs.getD k 0 = x) ∨ P x) m'' := by
  induction fs generalizing m' P i with
  | nil => exact ⟨m', rfl, h.congr (by simp)⟩
  | cons f fs ih =>
    simp only [List.length_cons] at hi
    have hrest : ∀ k, k < fs.length → ptrs.testBit (i + 1 + k) = true → fs.getD k 0 ∈ addrs := by
      intro k hk hb
      have := hr (k + 1) (by simp; omega) (by rw [show i + (k + 1) = i + 1 + k by omega]; exact hb)
      simpa using this
    have hshift : ∀ (x : Nat), (∃ k, k < (f :: fs).length ∧ ptrs.testBit (i + k) = true ∧ (f :: fs).getD k 0 = x)
        ↔ ((ptrs.testBit i = true ∧ f = x) ∨
          ∃ k, k < fs.length ∧ ptrs.testBit (i + 1 + k) = true ∧ fs.getD k 0 = x) := by
      intro x
      constructor
      · rintro ⟨k, hk, hb, he⟩
        cases k with
        | zero => left; exact ⟨by simpa using hb, by simpa using he⟩
        | succ k =>
          right
          exact ⟨k, by simp at hk; omega, by rw [show i + 1 + k = i + (k + 1) by omega]; exact hb, by simpa using he⟩
      · rintro (⟨hb, he⟩ | ⟨k, hk, hb, he⟩)
        · exact ⟨0, by simp, by simpa using hb, by simpa using he⟩
        · exact ⟨k + 1, by simp; omega, by rw [show i + (k + 1) = i + 1 + k by omega]; exact hb, by simpa using he⟩
    simp only [markFields]
    rw [if_neg (by omega)]
    by_cases hb : ptrs.testBit i = true
    · rw [if_pos hb]
      have hfa : f ∈ addrs := by simpa using hr 0 (by simp) (by simpa using hb)
      have := hs f hfa
      obtain ⟨m1, e1, h1⟩ := setMark_marked hf (fun x hx => (hs x hx).1) h hfa (.inr rfl) (by omega : f + 24 ≤ len)
      obtain ⟨m2, e2, h2⟩ := ih h1 (i + 1) (by omega) hrest
      refine ⟨m2, by simp [e1, e2], h2.congr ?_⟩
      intro a _
      rw [hshift]
      by_cases haf : a = f
      · subst haf; simp [hb]
      · have : f ≠ a := Ne.symm haf
        simp [haf, this]
    · rw [if_neg hb]
      obtain ⟨m2, e2, h2⟩ := ih h (i + 1) (by omega) hrest
      refine ⟨m2, e2, h2.congr ?_⟩
      intro a _
      rw [hshift]
      simp [hb]

/-! ### Sweeping -/

/-- Pointer fields of an object. -/
def pointsTo (m : Mem) (a b : Nat) : Prop := ∃ i, (ptrsAt m a).testBit i = true ∧ fieldAt m a i = b

/-- Reachability from a set of addresses. -/
inductive Reach (m : Mem) (S : Nat → Prop) : Nat → Prop
  | base {a} : S a → Reach m S a
  | step {a b} : Reach m S a → pointsTo m a b → Reach m S b

theorem sweep_spec {m : Mem} {len : Nat} {addrs : List Nat}
    (hfa : Fits m len addrs) (hsz : ∀ x ∈ addrs, 24 ≤ sizeAt m x ∧ x + sizeAt m x ≤ len)
    (hok : ObjsOk m addrs) :
    ∀ (xs : List Nat) (cur : Nat) (m' : Mem) (P : Nat → Prop) (fuel : Nat),
      Tiled m len cur xs → (∀ x ∈ xs, x ∈ addrs) → (∀ a ∈ addrs, cur ≤ a → a ∈ xs) →
      (∀ a ∈ addrs, P a → cur ≤ a) → (∀ a, P a → a ∈ addrs) →
      Marked addrs m P m' → xs.length < fuel →
      ∃ m'' rs, sweep len fuel m' cur = some (m'', rs) ∧ Marked addrs m (fun _ => False) m'' ∧
        rs.Sublist xs ∧ (∀ x ∈ xs, x ∈ rs ↔ Reach m P x) := by
  intro xs
  induction xs with
  | nil =>
    intro cur m' P fuel ht hsub hcov hP hPa hM hfuel
    obtain ⟨fuel, rfl⟩ : ∃ k, fuel = k + 1 := ⟨fuel - 1, by omega⟩
    simp only [Tiled] at ht
    refine ⟨m', [], by simp [sweep, ht], hM.congr ?_, by simp, by simp⟩
    intro a ha
    simp only [iff_false]
    intro hp
    have h1 := hP a ha hp
    have := hcov a ha h1
    simp at this
  | cons x xs ih =>
    intro cur m' P fuel ht hsub hcov hP hPa hM hfuel
    obtain ⟨fuel, rfl⟩ : ∃ k, fuel = k + 1 := ⟨fuel - 1, by omega⟩
    obtain ⟨rfl, h24, hmod, hle, ht'⟩ := ht
    have hxa := hsub x (by simp)
    have hsame := hM.agree.same hfa (fun y hy => (hsz y hy).1)
    have esz : sizeAt m' x = sizeAt m x := hsame.size x hxa
    have hcov' : ∀ a ∈ addrs, x + sizeAt m x ≤ a → a ∈ xs := by
      intro a ha hge
      have := hcov a ha (by omega)
      rcases List.mem_cons.1 this with rfl | h
      · omega
      · exact h
    have hrest_ge : ∀ a ∈ addrs, x ≤ a → a ≠ x → x + sizeAt m x ≤ a := by
      intro a ha hge hne
      rcases hfa.disjoint x hxa a ha (Ne.symm hne) with h | h
      · exact h
      · have := (hsz a ha).1; omega
    simp only [sweep]
    rw [if_pos (by omega : x < len), if_pos (by omega), esz]
    by_cases hPx : P x
    · -- a marked object
      have hmk : markAt m' x ≠ 0 := by rw [hM.marked x hxa hPx]; decide
      rw [if_neg hmk]
      obtain ⟨m1, e1, h1⟩ := setMark_marked hfa (fun y hy => (hsz y hy).1) hM hxa (.inl rfl) (by omega : x + 24 ≤ len)
      have hsame1 := h1.agree.same hfa (fun y hy => (hsz y hy).1)
      simp only [e1, Option.bind_some]
      -- the set marked afterwards
      have key : ∃ m2, (if ptrsAt m1 x ≠ 0 then markFields m1 len (ptrsAt m1 x) 0 (fieldsOf m1 x) else some m1) = some m2 ∧
          Marked addrs m (fun y => pointsTo m x y ∨ (y ≠ x ∧ P y)) m2 := by
        rw [hsame1.ptrs x hxa, hsame1.fieldsOf hxa]
        by_cases hp0 : ptrsAt m x = 0
        · rw [if_neg (by simp [hp0])]
          refine ⟨m1, rfl, h1.congr ?_⟩
          intro a _
          simp [pointsTo, hp0]
        · rw [if_pos hp0]
          have hflen : (fieldsOf m x).length = nfields m x := by simp [fieldsOf]
          have hfget : ∀ k, k < nfields m x → (fieldsOf m x).getD k 0 = fieldAt m x k := by
            intro k hk; simp [fieldsOf, List.getD, hk]
          obtain ⟨m2, e2, h2⟩ := markFields_marked (ptrs := ptrsAt m x) hfa hsz h1 (fieldsOf m x) 0
            (by rw [hflen]; have := hok.small x hxa hp0; omega)
            (by
              intro k hk hb
              rw [hflen] at hk
              rw [Nat.zero_add] at hb
              rw [hfget k hk]
              exact (hok.bits x hxa k hb).2.2)
          refine ⟨m2, e2, h2.congr ?_⟩
          intro a _
          constructor
          · rintro (⟨k, hk, hb, he⟩ | h)
            · left
              rw [hflen] at hk
              rw [Nat.zero_add] at hb
              rw [hfget k hk] at he
              exact ⟨k, hb, he⟩
            · right
              rcases h with ⟨_, h⟩ | h
              · exact absurd h (by decide)
              · exact h
          · rintro (⟨k, hb, he⟩ | h)
            · left
              have hk := (hok.bits x hxa k hb).1
              exact ⟨k, by rw [hflen]; exact hk, by rw [Nat.zero_add]; exact hb, by rw [hfget k hk]; exact he⟩
            · right; right; exact h
      obtain ⟨m2, e2, h2⟩ := key
      rw [e2]
      simp only [Option.bind_some]
      have hPge : ∀ a ∈ addrs, (pointsTo m x a ∨ (a ≠ x ∧ P a)) → x + sizeAt m x ≤ a := by
        rintro a ha (⟨i, hb, he⟩ | ⟨hne, hp⟩)
        · have := hok.bits x hxa i hb
          exact hrest_ge a ha (by omega) (by omega)
        · exact hrest_ge a ha (hP a ha hp) hne
      have hPa' : ∀ a, (pointsTo m x a ∨ (a ≠ x ∧ P a)) → a ∈ addrs := by
        rintro a (⟨i, hb, he⟩ | ⟨_, hp⟩)
        · have := (hok.bits x hxa i hb).2.2
          rwa [he] at this
        · exact hPa a hp
      obtain ⟨m3, rs, e3, h3, hsl, hmem⟩ := ih (x + sizeAt m x) m2 _ fuel ht'
        (fun y hy => hsub y (by simp [hy])) hcov' hPge hPa' h2 (by simp at hfuel; omega)
      refine ⟨m3, x :: rs, by simp [e3], h3, hsl.cons_cons x, ?_⟩
      have himp : ∀ y, Reach m (fun y => pointsTo m x y ∨ (y ≠ x ∧ P y)) y → Reach m P y := by
        intro y hy
        induction hy with
        | base h =>
          rcases h with h | h
          · exact .step (.base hPx) h
          · exact .base h.2
        | step _ hp ih => exact .step ih hp
      have himp2 : ∀ y, Reach m P y → y = x ∨ Reach m (fun y => pointsTo m x y ∨ (y ≠ x ∧ P y)) y := by
        intro y hy
        induction hy with
        | @base a h =>
          by_cases hax : a = x
          · exact .inl hax
          · exact .inr (.base (.inr ⟨hax, h⟩))
        | @step a b _ hp ih =>
          right
          rcases ih with rfl | ih
          · exact .base (.inl hp)
          · exact .step ih hp
      intro y hy0
      rcases List.mem_cons.1 hy0 with rfl | hy
      · simp only [List.mem_cons, true_or, true_iff]; exact .base hPx
      · have hyx : y ≠ x := by
          intro he; subst he
          have := ht'.ge y hy; omega
        simp only [List.mem_cons, hyx, false_or]
        rw [hmem y hy]
        constructor
        · exact himp y
        · intro h
          rcases himp2 y h with h | h
          · exact absurd h hyx
          · exact h
    · have hmk : markAt m' x = 0 := hM.unmarked x hxa hPx
      rw [if_pos hmk]
      have hPge : ∀ a ∈ addrs, P a → x + sizeAt m x ≤ a := by
        intro a ha hp
        exact hrest_ge a ha (hP a ha hp) (fun h => hPx (h ▸ hp))
      obtain ⟨m3, rs, e3, h3, hsl, hmem⟩ := ih (x + sizeAt m x) m' P fuel ht'
        (fun y hy => hsub y (by simp [hy])) hcov' hPge hPa hM (by simp at hfuel; omega)
      refine ⟨m3, rs, e3, h3, hsl.cons x, ?_⟩
      intro y hy
      rcases List.mem_cons.1 hy with hyx | hy'
      · -- an unmarked object is not reachable: everything marked is above it
        subst hyx
        have hnr : ∀ z, Reach m P z → z ∈ addrs ∧ y + sizeAt m y ≤ z := by
          intro z hz
          induction hz with
          | @base a h => exact ⟨hPa a h, hPge a (hPa a h) h⟩
          | @step a b _ hp ihz =>
            obtain ⟨i, hb, he⟩ := hp
            have := hok.bits a ihz.1 i hb
            rw [he] at this
            exact ⟨this.2.2, by omega⟩
        constructor
        · intro h
          have := ht'.ge y (hsl.subset h)
          omega
        · intro h
          have := (hnr y h).2
          omega
      · exact hmem y hy'

end Tic.Heap
