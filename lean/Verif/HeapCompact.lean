import Verif.HeapLemmas
/-
Helper lemmas about the compaction phase of the collector.
-/
namespace Tic.Heap

theorem fixFields_spec {table : Nat → Nat} {tl a ptrs : Nat} (htab : ∀ j, table j < 2 ^ 64) :
    ∀ (n i : Nat) (m : Mem), i + n ≤ 64 →
      (∀ k, i ≤ k → k < i + n → ptrs.testBit k = true → fieldAt m a k / 24 < tl) →
      ∃ m', fixFields table tl a ptrs i n m = some m' ∧
        (∀ k, fieldAt m' a k = if i ≤ k ∧ k < i + n ∧ ptrs.testBit k = true
          then table (fieldAt m a k / 24) else fieldAt m a k) ∧
        (∀ x, x < a + 24 + 8 * i ∨ a + 24 + 8 * (i + n) ≤ x → m' x = m x) := by
  intro n
  induction n with
  | zero =>
    intro i m _ _
    exact ⟨m, rfl, fun k => by rw [if_neg (by omega)], fun _ _ => rfl⟩
  | succ n ih =>
    intro i m hi hk
    simp only [fixFields]
    rw [if_neg (by omega)]
    by_cases hb : ptrs.testBit i = true
    · rw [if_pos hb]
      have hl := hk i (by omega) (by omega) hb
      simp only [lookup, if_pos hl, Option.bind_some]
      have hdis : ∀ k, k ≠ i → fieldAt (writeLE m (a + 24 + 8 * i) 8 (table (fieldAt m a i / 24))) a k = fieldAt m a k := by
        intro k hki
        unfold fieldAt
        apply readLE_writeLE_disj
        omega
      have hself : fieldAt (writeLE m (a + 24 + 8 * i) 8 (table (fieldAt m a i / 24))) a i = table (fieldAt m a i / 24) :=
        readLE_writeLE_same (htab _)
      obtain ⟨m', e, hf, ho⟩ := ih (i + 1) (writeLE m (a + 24 + 8 * i) 8 (table (fieldAt m a i / 24))) (by omega)
        (fun k h1 h2 h3 => by rw [hdis k (by omega)]; exact hk k (by omega) (by omega) h3)
      refine ⟨m', e, ?_, ?_⟩
      · intro k
        rw [hf k]
        by_cases hki : k = i
        · subst hki
          rw [if_neg (by omega), hself, if_pos ⟨by omega, by omega, hb⟩]
        · rw [hdis k hki]
          by_cases hc : i + 1 ≤ k ∧ k < i + 1 + n ∧ ptrs.testBit k = true
          · rw [if_pos hc, if_pos ⟨by omega, by omega, hc.2.2⟩]
          · rw [if_neg hc, if_neg (fun h => hc ⟨by omega, by omega, h.2.2⟩)]
      · intro x hx
        rw [ho x (by omega), writeLE_out (by omega)]
    · rw [if_neg hb]
      obtain ⟨m', e, hf, ho⟩ := ih (i + 1) m (by omega) (fun k h1 h2 h3 => hk k (by omega) (by omega) h3)
      refine ⟨m', e, ?_, fun x hx => ho x (by omega)⟩
      intro k
      rw [hf k]
      by_cases hki : k = i
      · subst hki
        rw [if_neg (by omega), if_neg (fun h => hb h.2.2)]
      · by_cases hc : i + 1 ≤ k ∧ k < i + 1 + n ∧ ptrs.testBit k = true
        · rw [if_pos hc, if_pos ⟨by omega, by omega, hc.2.2⟩]
        · rw [if_neg hc, if_neg (fun h => hc ⟨by omega, by omega, h.2.2⟩)]

/-- The object at `b` in `m'` is a copy of the object at `a` in `m`, with pointer
fields redirected by `φ`. -/
structure Copied (m : Mem) (a : Nat) (φ : Nat → Nat) (m' : Mem) (b : Nat) : Prop where
  size : sizeAt m' b = sizeAt m a
  mark : markAt m' b = markAt m a
  ptrs : ptrsAt m' b = ptrsAt m a
  tag : tagAt m' b = tagAt m a
  field : ∀ i, i < nfields m a → fieldAt m' b i =
    if (ptrsAt m a).testBit i = true then φ (fieldAt m a i) else fieldAt m a i
  body : ptrsAt m a = 0 → ∀ x, x + 24 < sizeAt m a → m' (b + 24 + x) = m (a + 24 + x)

theorem Copied.congr {m m' m'' : Mem} {a b : Nat} {φ ψ : Nat → Nat} (h : Copied m a φ m' b)
    (h24 : 24 ≤ sizeAt m a)
    (hm : ∀ x, b ≤ x → x < b + sizeAt m a → m'' x = m' x)
    (hφ : ∀ i, (ptrsAt m a).testBit i = true → i < nfields m a → φ (fieldAt m a i) = ψ (fieldAt m a i)) :
    Copied m a ψ m'' b := by
  have hr : ∀ o n, o + n ≤ sizeAt m a → readLE m'' (b + o) n = readLE m' (b + o) n := by
    intro o n hon
    exact readLE_congr (fun x h1 h2 => hm x (by omega) (by omega))
  refine ⟨?_, ?_, ?_, ?_, ?_, ?_⟩
  · rw [← h.size]; exact hr 0 4 (by omega)
  · rw [← h.mark]; exact hr 4 4 (by omega)
  · rw [← h.ptrs]; exact hr 8 8 (by omega)
  · rw [← h.tag]; exact hr 16 8 (by omega)
  · intro i hi
    have hi' := hi
    unfold nfields at hi'
    have e : fieldAt m'' b i = fieldAt m' b i := by
      have := hr (24 + 8 * i) 8 (by omega)
      simpa [fieldAt, Nat.add_assoc] using this
    rw [e, h.field i hi]
    by_cases hb : (ptrsAt m a).testBit i = true
    · rw [if_pos hb, if_pos hb]; exact hφ i hb hi
    · rw [if_neg hb, if_neg hb]
  · intro h0 x hx
    rw [hm _ (by omega) (by omega)]
    exact h.body h0 x hx

/-- Invariant of the compaction loop, after moving the objects `D` (ascending). -/
structure MoveInv (m0 : Mem) (len : Nat) (D : List Nat) (st : MoveState) : Prop where
  bump : st.bump + (D.map (sizeAt m0)).sum = len
  below : ∀ x, x < st.bump → st.mem x = m0 x
  tiled : Tiled st.mem len st.bump (D.map fun d => st.table (d / 24))
  copied : ∀ d ∈ D, Copied m0 d (fun x => st.table (x / 24)) st.mem (st.table (d / 24))
  tab : ∀ j, st.table j < 2 ^ 64

theorem div24_ne {a b : Nat} (h : a + 24 ≤ b) : b / 24 ≠ a / 24 := by omega

theorem moveOne_spec {m0 : Mem} {len tl r : Nat} {D : List Nat} {st : MoveState}
    (hlen : len < 2 ^ 64)
    (hinv : MoveInv m0 len D st)
    (hfit : Fits m0 len (r :: D))
    (h24 : 24 ≤ sizeAt m0 r) (h8 : sizeAt m0 r % 8 = 0)
    (hbits : ∀ i, (ptrsAt m0 r).testBit i = true → i < nfields m0 r ∧ fieldAt m0 r i ∈ D)
    (hsmall : ptrsAt m0 r ≠ 0 → nfields m0 r ≤ 64)
    (hD : ∀ d ∈ D, (∀ i, (ptrsAt m0 d).testBit i = true → fieldAt m0 d i ∈ D) ∧ 24 ≤ sizeAt m0 d)
    (htl : ∀ d ∈ r :: D, d / 24 < tl) :
    ∃ st', moveOne len tl st r = some st' ∧ MoveInv m0 len (r :: D) st' := by
  obtain ⟨hbump, hbelow, htiled, hcopied, htab⟩ := hinv
  have hsum := hfit.sum_le
  simp only [List.map_cons, List.sum_cons] at hsum
  have hend : r + sizeAt m0 r ≤ st.bump := by omega
  have hrd : ∀ o n, o + n ≤ sizeAt m0 r → readLE st.mem (r + o) n = readLE m0 (r + o) n :=
    fun o n h => readLE_congr (fun x h1 h2 => hbelow x (by omega))
  have esz : sizeAt st.mem r = sizeAt m0 r := hrd 0 4 (by omega)
  let place := st.bump - sizeAt m0 r
  have hplace : place + sizeAt m0 r = st.bump := by show st.bump - sizeAt m0 r + sizeAt m0 r = st.bump; omega
  have hrp : r ≤ place := by omega
  let m1 := copyMem st.mem r place (sizeAt m0 r)
  have hm1in : ∀ o, o < sizeAt m0 r → m1 (place + o) = m0 (r + o) := by
    intro o ho
    show copyMem st.mem r place (sizeAt m0 r) (place + o) = _
    simp only [copyMem]
    rw [if_pos (by omega), show place + o - place + r = r + o by omega]
    exact hbelow _ (by omega)
  have hm1out : ∀ x, x < place ∨ st.bump ≤ x → m1 x = st.mem x := by
    intro x hx
    show copyMem st.mem r place (sizeAt m0 r) x = _
    simp only [copyMem]
    rw [if_neg (by omega)]
  have hrd1 : ∀ o n, o + n ≤ sizeAt m0 r → readLE m1 (place + o) n = readLE m0 (r + o) n := by
    intro o n h
    apply readLE_shift
    intro i hi
    rw [Nat.add_assoc, Nat.add_assoc]
    exact hm1in (o + i) (by omega)
  let tab' : Nat → Nat := fun i => if i = r / 24 then place else st.table i
  have htab' : ∀ j, tab' j < 2 ^ 64 := by
    intro j
    show (if j = r / 24 then place else st.table j) < _
    split
    · omega
    · exact htab j
  have hne : ∀ d ∈ D, d / 24 ≠ r / 24 := by
    intro d hd
    have := hfit.1 d hd
    exact div24_ne (by omega)
  have htabD : ∀ d ∈ D, tab' (d / 24) = st.table (d / 24) := by
    intro d hd
    show (if d / 24 = r / 24 then place else st.table (d / 24)) = _
    rw [if_neg (hne d hd)]
  have htabr : tab' (r / 24) = place := by
    show (if r / 24 = r / 24 then place else _) = _
    rw [if_pos rfl]
  have hpt1 : ptrsAt m1 place = ptrsAt m0 r := hrd1 8 8 (by omega)
  have hsz1 : sizeAt m1 place = sizeAt m0 r := hrd1 0 4 (by omega)
  have hnf1 : nfields m1 place = nfields m0 r := by unfold nfields; rw [hsz1]
  have hf1 : ∀ i, i < nfields m0 r → fieldAt m1 place i = fieldAt m0 r i := by
    intro i hi
    unfold nfields at hi
    have := hrd1 (24 + 8 * i) 8 (by omega)
    simpa [fieldAt, Nat.add_assoc] using this
  -- the field fixing
  have key : ∃ m2, (if ptrsAt m1 place ≠ 0 then fixFields tab' tl place (ptrsAt m1 place) 0 (nfields m1 place) m1 else some m1) = some m2 ∧
      Copied m0 r (fun x => tab' (x / 24)) m2 place ∧ (∀ x, x < place ∨ st.bump ≤ x → m2 x = st.mem x) := by
    rw [hpt1, hnf1]
    by_cases h0 : ptrsAt m0 r = 0
    · rw [if_neg (by simp [h0])]
      refine ⟨m1, rfl, ⟨hsz1, hrd1 4 4 (by omega), hpt1, hrd1 16 8 (by omega), ?_, ?_⟩, hm1out⟩
      · intro i hi
        rw [hf1 i hi, if_neg (by simp [h0])]
      · intro _ x hx
        rw [Nat.add_assoc, Nat.add_assoc]
        exact hm1in (24 + x) (by omega)
    · rw [if_pos h0]
      have hn64 := hsmall h0
      obtain ⟨m2, e2, hf2, ho2⟩ := fixFields_spec (tl := tl) (a := place) (ptrs := ptrsAt m0 r) htab' (nfields m0 r) 0 m1
        (by omega) (by
          intro k _ hk hb
          rw [hf1 k (by omega)]
          exact htl _ (List.mem_cons_of_mem _ (hbits k hb).2))
      have hhead : ∀ o n, o + n ≤ 24 → readLE m2 (place + o) n = readLE m1 (place + o) n := by
        intro o n h
        exact readLE_congr (fun x h1 h2 => ho2 x (by omega))
      refine ⟨m2, e2, ⟨?_, ?_, ?_, ?_, ?_, ?_⟩, ?_⟩
      · rw [← hsz1]; exact hhead 0 4 (by omega)
      · exact (hhead 4 4 (by omega)).trans (hrd1 4 4 (by omega))
      · exact (hhead 8 8 (by omega)).trans (hrd1 8 8 (by omega))
      · exact (hhead 16 8 (by omega)).trans (hrd1 16 8 (by omega))
      · intro i hi
        rw [hf2 i, hf1 i hi]
        by_cases hb : (ptrsAt m0 r).testBit i = true
        · rw [if_pos ⟨by omega, by omega, hb⟩, if_pos hb]
        · rw [if_neg (fun h => hb h.2.2), if_neg hb]
      · intro h; exact absurd h h0
      · intro x hx
        have : nfields m0 r * 8 + 24 ≤ sizeAt m0 r := by unfold nfields; omega
        rw [ho2 x (by omega)]
        exact hm1out x hx
  obtain ⟨m2, e2, hc2, ho2⟩ := key
  refine ⟨{ mem := m2, table := tab', bump := place }, ?_, ?_⟩
  · simp only [moveOne]
    rw [if_pos (by omega), esz, if_pos ⟨by omega, by omega, htl r (by simp)⟩]
    show Option.map _ (if ptrsAt m1 place ≠ 0 then fixFields tab' tl place (ptrsAt m1 place) 0 (nfields m1 place) m1 else some m1) = _
    rw [e2]; rfl
  · refine ⟨?_, ?_, ?_, ?_, htab'⟩
    · simp only [List.map_cons, List.sum_cons]; show place + _ = len; omega
    · intro x hx
      replace hx : x < place := hx
      show m2 x = m0 x
      rw [ho2 x (.inl hx)]
      exact hbelow x (by omega)
    · show Tiled m2 len place ((r :: D).map fun d => tab' (d / 24))
      simp only [List.map_cons]
      rw [htabr, hc2.size.symm] at *
      refine ⟨rfl, by omega, by omega, by omega, ?_⟩
      rw [hplace]
      have : (D.map fun d => tab' (d / 24)) = D.map fun d => st.table (d / 24) :=
        List.map_congr_left htabD
      rw [this]
      apply htiled.congr
      intro x hx
      have := htiled.ge x hx
      exact readLE_congr (fun y h1 h2 => ho2 y (by omega))
    · intro d hd
      rcases List.mem_cons.1 hd with rfl | hd'
      · show Copied m0 d _ m2 (tab' (d / 24))
        rw [htabr]; exact hc2
      · show Copied m0 d (fun x => tab' (x / 24)) m2 (tab' (d / 24))
        rw [htabD d hd']
        refine (hcopied d hd').congr (hD d hd').2 ?_ ?_
        · intro x h1 h2
          have := htiled.ge (st.table (d / 24)) (List.mem_map.2 ⟨d, hd', rfl⟩)
          exact ho2 x (by omega)
        · intro i hb _
          exact (htabD _ ((hD d hd').1 i hb)).symm

theorem Fits.append_right {m : Mem} {len : Nat} {l l' : List Nat} (h : Fits m len (l ++ l')) : Fits m len l' :=
  h.sublist (List.sublist_append_right l l')

theorem moveAll_spec {m0 : Mem} {len tl : Nat} {rs : List Nat} (hlen : len < 2 ^ 64)
    (hfit : Fits m0 len rs)
    (hsz : ∀ r ∈ rs, 24 ≤ sizeAt m0 r ∧ sizeAt m0 r % 8 = 0)
    (hok : ObjsOk m0 rs)
    (htl : ∀ d ∈ rs, d / 24 < tl) :
    ∀ (todo D : List Nat) (st : MoveState), rs = todo.reverse ++ D → MoveInv m0 len D st →
      ∃ st', moveAll len tl st todo = some st' ∧ MoveInv m0 len rs st' := by
  have hup : ∀ (l : List Nat) (r : Nat) (D : List Nat), rs = l ++ r :: D → ∀ f ∈ rs, r < f → f ∈ D := by
    intro l r D he f hf hlt
    rw [he] at hf
    rcases List.mem_append.1 hf with h | h
    · exfalso
      have hne : f ≠ r := by omega
      have hr : r ∈ rs := by rw [he]; simp
      -- f occurs before r, so f + size ≤ r
      have : ∀ (l : List Nat), Fits m0 len (l ++ r :: D) → f ∈ l → f + sizeAt m0 f ≤ r := by
        intro l
        induction l with
        | nil => intro _ h; cases h
        | cons y ys ih =>
          intro hF hm
          rcases List.mem_cons.1 hm with rfl | hm
          · exact hF.1 r (by simp)
          · exact ih hF.2.2 hm
      have := this l (he ▸ hfit) h
      omega
    · rcases List.mem_cons.1 h with rfl | h
      · omega
      · exact h
  intro todo
  induction todo with
  | nil =>
    intro D st he hinv
    simp at he
    subst he
    exact ⟨st, rfl, hinv⟩
  | cons r todo ih =>
    intro D st he hinv
    have he' : rs = todo.reverse ++ (r :: D) := by rw [he]; simp
    have hrin : r ∈ rs := by rw [he']; simp
    have hDin : ∀ d ∈ D, d ∈ rs := fun d hd => by rw [he']; simp [hd]
    have hfit' : Fits m0 len (r :: D) := (he' ▸ hfit : Fits m0 len (todo.reverse ++ (r :: D))).append_right
    have hge : ∀ d ∈ D, r < d := by
      intro d hd
      have := hfit'.1 d hd
      have := (hsz r hrin).1
      omega
    obtain ⟨st', e, hinv'⟩ := moveOne_spec (tl := tl) hlen hinv hfit' (hsz r hrin).1 (hsz r hrin).2
      (fun i hb => ⟨(hok.bits r hrin i hb).1, hup _ _ _ he' _ (hok.bits r hrin i hb).2.2 (hok.bits r hrin i hb).2.1⟩)
      (hok.small r hrin)
      (fun d hd => ⟨fun i hb => by
          have := hok.bits d (hDin d hd) i hb
          have := hge d hd
          exact hup _ _ _ he' _ (hok.bits d (hDin d hd) i hb).2.2 (by omega), (hsz d (hDin d hd)).1⟩)
      (fun d hd => htl d (by rw [he']; exact List.mem_append_right _ hd))
    obtain ⟨st'', e2, h2⟩ := ih (r :: D) st' he' hinv'
    exact ⟨st'', by simp [moveAll, e, e2], h2⟩

theorem fixRoots_spec {table : Nat → Nat} {tl : Nat} (roots : List Nat) (h : ∀ r ∈ roots, r / 24 < tl) :
    fixRoots table tl roots = some (roots.map fun r => table (r / 24)) := by
  induction roots with
  | nil => rfl
  | cons r rs ih =>
    simp only [fixRoots, lookup]
    rw [if_pos (h r (by simp)), ih (fun x hx => h x (by simp [hx]))]
    rfl

/-! ### Well-formed heaps and the specification of a whole collection -/

/-- Well-formed heap: the objects `addrs` tile the memory above `bump`, and so on. -/
structure WF (h : Heap) (addrs : List Nat) : Prop where
  len8 : h.len % 8 = 0
  lenlt : h.len < 2 ^ 64
  tiled : Tiled h.mem h.len h.bump addrs
  ok : ObjsOk h.mem addrs
  tab : ∀ j, h.table j < 2 ^ 64

/-- The capacity after a collection that retains `r` bytes (`heap.rs:101-103`). -/
def minCap (len r ensureFree : Nat) : Nat := max (max (r * 4) len) (ensureFree + r)

theorem roundUp8 (n : Nat) : n ≤ (n + 7) / 8 * 8 ∧ (n + 7) / 8 * 8 < n + 8 ∧ (n + 7) / 8 * 8 % 8 = 0 := by omega

/-- Everything a collection does to a well-formed heap. -/
structure Collected (h : Heap) (addrs roots : List Nat) (ensureFree : Nat) (h' : Heap) (roots' : List Nat)
    (rs : List Nat) (φ : Nat → Nat) : Prop where
  sub : rs.Sublist addrs
  reach : ∀ a, a ∈ rs ↔ Reach h.mem (· ∈ roots) a
  roots : roots' = roots.map φ
  wf : WF h' (rs.map φ)
  copied : ∀ a ∈ rs, Copied h.mem a φ h'.mem (φ a)
  inj : ∀ a ∈ rs, ∀ b ∈ rs, φ a = φ b → a = b
  alloc : h'.bump + (rs.map (sizeAt h.mem)).sum = h'.len
  len : h'.len = (minCap h.len (rs.map (sizeAt h.mem)).sum ensureFree + 7) / 8 * 8
  table : h'.tableLen = if minCap h.len (rs.map (sizeAt h.mem)).sum ensureFree > h.len
    then minCap h.len (rs.map (sizeAt h.mem)).sum ensureFree / 24 else h.tableLen

/-- The objects reachable from the roots, in address order. -/
noncomputable def reachable (h : Heap) (addrs roots : List Nat) : List Nat :=
  open Classical in addrs.filter fun a => decide (Reach h.mem (· ∈ roots) a)

noncomputable def liveBytes (h : Heap) (addrs roots : List Nat) : Nat :=
  ((reachable h addrs roots).map (sizeAt h.mem)).sum

theorem Tiled.length_lt {m : Mem} {len a : Nat} {l : List Nat} (h : Tiled m len a l) : l.length ≤ len - a := by
  induction l generalizing a with
  | nil => simp
  | cons y ys ih =>
    obtain ⟨rfl, h1, -, h2, h3⟩ := h
    have := ih h3
    simp; omega

theorem eq_filter_of_sublist {α} {p : α → Bool} {l l' : List α} (hs : l'.Sublist l) (hn : l.Nodup)
    (h : ∀ x ∈ l, x ∈ l' ↔ p x = true) : l' = l.filter p := by
  induction hs with
  | slnil => rfl
  | @cons l1 l2 a hs ih =>
    simp only [List.nodup_cons] at hn
    have hna : ¬ p a = true := fun hp => hn.1 (hs.subset ((h a (by simp)).2 hp))
    rw [List.filter_cons_of_neg hna]
    exact ih hn.2 (fun x hx => h x (by simp [hx]))
  | @cons_cons l1 l2 a hs ih =>
    simp only [List.nodup_cons] at hn
    rw [List.filter_cons_of_pos ((h a (by simp)).1 (by simp))]
    rw [← ih hn.2 (fun x hx => by
      have hxa : x ≠ a := fun he => hn.1 (he ▸ hx)
      have := h x (by simp [hx])
      simpa [hxa] using this)]

theorem WF.nodup {h : Heap} {addrs : List Nat} (hw : WF h addrs) : addrs.Nodup :=
  hw.tiled.fits.nodup (fun x hx => (hw.tiled.size x hx).1)

theorem Reach.in_addrs {m : Mem} {addrs roots : List Nat} (hok : ObjsOk m addrs) (hr : ∀ r ∈ roots, r ∈ addrs)
    {a : Nat} (h : Reach m (· ∈ roots) a) : a ∈ addrs := by
  induction h with
  | base h => exact hr _ h
  | step _ hp ih =>
    obtain ⟨i, hb, he⟩ := hp
    have := (hok.bits _ ih i hb).2.2
    rwa [he] at this

theorem collectInner_spec {h : Heap} {addrs roots : List Nat} {ensureFree : Nat}
    (hw : WF h addrs) (hr : ∀ r ∈ roots, r ∈ addrs)
    (h32 : ensureFree + liveBytes h addrs roots < 2 ^ 32)
    (htl : minCap h.len (liveBytes h addrs roots) ensureFree > h.len ∨
      ∀ a ∈ reachable h addrs roots, a / 24 < h.tableLen) :
    ∃ h' roots' φ, collectInner h roots ensureFree = some (h', roots') ∧
      Collected h addrs roots ensureFree h' roots' (reachable h addrs roots) φ := by
  obtain ⟨hlen8, hlenlt, htiled, hok, htab⟩ := hw
  have hfits := htiled.fits
  have hsize := htiled.size
  have hsz : ∀ x ∈ addrs, 24 ≤ sizeAt h.mem x ∧ x + sizeAt h.mem x ≤ h.len := fun x hx => ⟨(hsize x hx).1, (hsize x hx).2.2⟩
  have hM0 : Marked addrs h.mem (fun _ => False) h.mem :=
    ⟨AgreeOff.refl _ _, fun _ _ hf => hf.elim, fun a ha _ => hok.mark a ha⟩
  obtain ⟨m1, e1, hM1⟩ := markRoots_marked hfits hsz hM0 roots hr
  have hM1' : Marked addrs h.mem (· ∈ roots) m1 := hM1.congr (by simp)
  obtain ⟨m2, rs, e2, hM2, hsub, hmem⟩ := sweep_spec hfits hsz hok addrs h.bump m1 (· ∈ roots) (h.len + 1)
    htiled (fun _ hx => hx) (fun _ ha _ => ha) (fun a ha _ => htiled.ge a ha) hr hM1'
    (by have := htiled.length_lt; omega)
  have hnd := hfits.nodup (fun x hx => (hsize x hx).1)
  have hrs : rs = reachable h addrs roots := by
    classical
    unfold reachable
    exact eq_filter_of_sublist hsub hnd (fun x hx => by rw [hmem x hx]; simp)
  have hreach : ∀ a, a ∈ rs ↔ Reach h.mem (· ∈ roots) a := by
    intro a
    constructor
    · intro ha; exact (hmem a (hsub.subset ha)).1 ha
    · intro ha; exact (hmem a (ha.in_addrs hok hr)).2 ha
  have hsame := hM2.agree.same hfits (fun x hx => (hsize x hx).1)
  have hrsa : ∀ a ∈ rs, a ∈ addrs := fun a ha => hsub.subset ha
  have hsum : (rs.map (sizeAt m2)).sum = liveBytes h addrs roots := by
    unfold liveBytes
    rw [← hrs]
    congr 1
    exact List.map_congr_left (fun a ha => hsame.size a (hrsa a ha))
  generalize hR : liveBytes h addrs roots = R at *
  generalize hC : minCap h.len R ensureFree = C at *
  have hCge : h.len ≤ C := by rw [← hC]; unfold minCap; omega
  let len' := if C > h.len then (C + 7) / 8 * 8 else h.len
  let m3 : Mem := if C > h.len then (fun x => if h.len ≤ x then 0 else m2 x) else m2
  let tl' := if C > h.len then C / 24 else h.tableLen
  have hlen' : len' = (C + 7) / 8 * 8 := by
    show (if C > h.len then (C + 7) / 8 * 8 else h.len) = _
    split <;> omega
  have hm3 : ∀ x, x < h.len → m3 x = m2 x := by
    intro x hx
    show (if C > h.len then (fun x => if h.len ≤ x then 0 else m2 x) else m2) x = m2 x
    split
    · show (if h.len ≤ x then 0 else m2 x) = m2 x
      rw [if_neg (by omega)]
    · rfl
  have hRle : R ≤ h.len := by
    cases hrs0 : rs with
    | nil => rw [← hsum, hrs0]; simp
    | cons a l =>
      have hF : Fits m2 h.len rs := (hfits.sublist hsub).congr (fun x hx => hsame.size x (hrsa x hx))
      rw [hrs0] at hF
      have := hF.sum_le
      rw [← hsum, hrs0]; omega
  have hlen'lt : len' < 2 ^ 64 := by
    rw [hlen', ← hC]; unfold minCap; omega
  have hlenle : h.len ≤ len' := by rw [hlen']; omega
  -- relation of m3 with the original memory on retained objects
  have hrd : ∀ a ∈ rs, ∀ o n, o + n ≤ sizeAt h.mem a → readLE m3 (a + o) n = readLE m2 (a + o) n := by
    intro a ha o n hon
    have := (hsz a (hrsa a ha)).2
    exact readLE_congr (fun x h1 h2 => hm3 x (by omega))
  have h3size : ∀ a ∈ rs, sizeAt m3 a = sizeAt h.mem a := fun a ha => by
    have := (hsz a (hrsa a ha)).1
    exact (hrd a ha 0 4 (by omega)).trans (hsame.size a (hrsa a ha))
  have h3mark : ∀ a ∈ rs, markAt m3 a = 0 := fun a ha => by
    have := (hsz a (hrsa a ha)).1
    exact (hrd a ha 4 4 (by omega)).trans (hM2.unmarked a (hrsa a ha) id)
  have h3ptrs : ∀ a ∈ rs, ptrsAt m3 a = ptrsAt h.mem a := fun a ha => by
    have := (hsz a (hrsa a ha)).1
    exact (hrd a ha 8 8 (by omega)).trans (hsame.ptrs a (hrsa a ha))
  have h3tag : ∀ a ∈ rs, tagAt m3 a = tagAt h.mem a := fun a ha => by
    have := (hsz a (hrsa a ha)).1
    exact (hrd a ha 16 8 (by omega)).trans (hsame.tag a (hrsa a ha))
  have h3nf : ∀ a ∈ rs, nfields m3 a = nfields h.mem a := fun a ha => by unfold nfields; rw [h3size a ha]
  have h3field : ∀ a ∈ rs, ∀ i, i < nfields h.mem a → fieldAt m3 a i = fieldAt h.mem a i := fun a ha i hi => by
    refine Eq.trans ?_ (hsame.field a (hrsa a ha) i hi)
    unfold nfields at hi
    have := hrd a ha (24 + 8 * i) 8 (by omega)
    simpa [fieldAt, Nat.add_assoc] using this
  have h3body : ∀ a ∈ rs, ∀ x, x + 24 < sizeAt h.mem a → m3 (a + 24 + x) = h.mem (a + 24 + x) := fun a ha x hx => by
    have := (hsz a (hrsa a ha)).2
    exact (hm3 _ (by omega)).trans (hsame.body a (hrsa a ha) x hx)
  have hok3 : ObjsOk m3 rs := by
    refine ⟨h3mark, ?_, ?_⟩
    · intro a ha i hb
      rw [h3ptrs a ha] at hb
      have h1 := hok.bits a (hrsa a ha) i hb
      rw [h3nf a ha, h3field a ha i h1.1]
      refine ⟨h1.1, h1.2.1, (hreach _).2 ?_⟩
      exact .step ((hreach a).1 ha) ⟨i, hb, rfl⟩
    · intro a ha
      rw [h3ptrs a ha, h3nf a ha]
      exact hok.small a (hrsa a ha)
  have hfit3 : Fits m3 len' rs := ((hfits.sublist hsub).congr (fun x hx => h3size x hx)).mono hlenle
  have htl' : ∀ a ∈ rs, a / 24 < tl' := by
    intro a ha
    show a / 24 < if C > h.len then C / 24 else h.tableLen
    rcases htl with hg | hg
    · rw [if_pos hg]
      have := hsz a (hrsa a ha)
      omega
    · split
      · have := hsz a (hrsa a ha)
        omega
      · exact hg a (hrs ▸ ha)
  have hinv0 : MoveInv m3 len' [] { mem := m3, table := h.table, bump := len' } :=
    ⟨by simp, fun _ _ => rfl, rfl, by simp, htab⟩
  obtain ⟨st, e4, hinv⟩ := moveAll_spec (tl := tl') hlen'lt hfit3
    (fun r hr => by rw [h3size r hr]; exact ⟨(hsize r (hrsa r hr)).1, (hsize r (hrsa r hr)).2.1⟩) hok3 htl'
    rs.reverse [] _ (by simp) hinv0
  have hroots : ∀ r ∈ roots, r ∈ rs := fun r hrr => (hreach r).2 (.base hrr)
  have e5 := fixRoots_spec (table := st.table) (tl := tl') roots (fun r hrr => htl' r (hroots r hrr))
  let h' : Heap := { mem := st.mem, len := len', table := st.table, tableLen := tl', bump := st.bump }
  have hcop : ∀ a ∈ rs, Copied h.mem a (fun x => st.table (x / 24)) st.mem (st.table (a / 24)) := by
    intro a ha
    have hc := hinv.copied a ha
    refine ⟨hc.size.trans (h3size a ha), ?_, hc.ptrs.trans (h3ptrs a ha), hc.tag.trans (h3tag a ha), ?_, ?_⟩
    · rw [hc.mark, h3mark a ha, hok.mark a (hrsa a ha)]
    · intro i hi
      rw [hc.field i (by rw [h3nf a ha]; exact hi), h3ptrs a ha, h3field a ha i hi]
    · intro h0 x hx
      rw [hc.body (by rw [h3ptrs a ha]; exact h0) x (by rw [h3size a ha]; exact hx)]
      exact h3body a ha x hx
  -- order preservation of the move
  have hmono : ∀ a ∈ rs, ∀ b ∈ rs, a < b → st.table (a / 24) < st.table (b / 24) := by
    have aux : ∀ (l : List Nat) (s : Nat), Tiled st.mem len' s (l.map fun d => st.table (d / 24)) →
        Fits m3 len' l → (∀ x ∈ l, 24 ≤ sizeAt m3 x) →
        ∀ a ∈ l, ∀ b ∈ l, a < b → st.table (a / 24) < st.table (b / 24) := by
      intro l
      induction l with
      | nil => simp
      | cons y ys ih =>
        intro s ht hF h24 a ha b hb hab
        obtain ⟨hs, h1, -, h2, h3⟩ := ht
        replace hs : st.table (y / 24) = s := hs
        rcases List.mem_cons.1 hb with hby | hb'
        · rcases List.mem_cons.1 ha with hay | ha'
          · omega
          · subst hby
            have := hF.1 a ha'
            omega
        · rcases List.mem_cons.1 ha with hay | ha'
          · have := h3.ge (st.table (b / 24)) (List.mem_map.2 ⟨b, hb', rfl⟩)
            rw [hay]
            omega
          · exact ih _ h3 hF.2.2 (fun x hx => h24 x (by simp [hx])) a ha' b hb' hab
    exact aux rs st.bump hinv.tiled hfit3 (fun x hx => by rw [h3size x hx]; exact (hsz x (hrsa x hx)).1)
  refine ⟨h', roots.map (fun r => st.table (r / 24)), fun x => st.table (x / 24), ?_, ?_⟩
  · simp only [collectInner, e1, Option.bind_some, e2]
    rw [hsum, if_neg (by omega)]
    have hC' : max (max (R * 4) h.len) (ensureFree + R) = C := hC
    rw [hC']
    show (moveAll len' tl' { mem := m3, table := h.table, bump := len' } rs.reverse).bind _ = _
    rw [e4, Option.bind_some]
    show Option.map _ (fixRoots st.table tl' roots) = _
    rw [e5]; rfl
  · rw [← hrs]
    have hsum' : (rs.map (sizeAt h.mem)).sum = R := by
      rw [← hsum]; congr 1
      exact List.map_congr_left (fun a ha => (hsame.size a (hrsa a ha)).symm)
    refine ⟨hsub, hreach, rfl, ?_, hcop, ?_, ?_, ?_, ?_⟩
    · refine ⟨?_, hlen'lt, hinv.tiled, ?_, hinv.tab⟩
      · show len' % 8 = 0
        rw [hlen']; omega
      · refine ⟨?_, ?_, ?_⟩
        · intro b hb
          obtain ⟨a, ha, rfl⟩ := List.mem_map.1 hb
          show markAt st.mem _ = 0
          rw [(hcop a ha).mark, hok.mark a (hrsa a ha)]
        · intro b hb i hbit
          obtain ⟨a, ha, rfl⟩ := List.mem_map.1 hb
          replace hbit : (ptrsAt st.mem (st.table (a / 24))).testBit i = true := hbit
          rw [(hcop a ha).ptrs] at hbit
          have h1 := hok.bits a (hrsa a ha) i hbit
          have hfin : fieldAt h.mem a i ∈ rs := (hreach _).2 (.step ((hreach a).1 ha) ⟨i, hbit, rfl⟩)
          have hnf : nfields st.mem (st.table (a / 24)) = nfields h.mem a := by unfold nfields; rw [(hcop a ha).size]
          show i < nfields st.mem (st.table (a / 24)) ∧ st.table (a / 24) < fieldAt st.mem (st.table (a / 24)) i ∧ fieldAt st.mem (st.table (a / 24)) i ∈ _
          rw [hnf, (hcop a ha).field i h1.1, if_pos hbit]
          exact ⟨h1.1, hmono a ha _ hfin h1.2.1, List.mem_map.2 ⟨_, hfin, rfl⟩⟩
        · intro b hb
          obtain ⟨a, ha, rfl⟩ := List.mem_map.1 hb
          have hnf : nfields st.mem (st.table (a / 24)) = nfields h.mem a := by unfold nfields; rw [(hcop a ha).size]
          show ptrsAt st.mem (st.table (a / 24)) ≠ 0 → nfields st.mem (st.table (a / 24)) ≤ 64
          rw [(hcop a ha).ptrs, hnf]
          exact hok.small a (hrsa a ha)
    · intro a ha b hb he
      replace he : st.table (a / 24) = st.table (b / 24) := he
      rcases Nat.lt_trichotomy a b with hlt | heq | hlt
      · have := hmono a ha b hb hlt; omega
      · exact heq
      · have := hmono b hb a ha hlt; omega
    · rw [hsum']
      show st.bump + R = len'
      have := hinv.bump
      rw [← this]
      congr 1
      rw [← hsum']; congr 1
      exact List.map_congr_left (fun a ha => (h3size a ha).symm)
    · rw [hsum', hC]; exact hlen'
    · rw [hsum', hC]

end Tic.Heap
