/-
C18, C19, C32: the unifier, over every history of its operations.
-/
import Verif.UnifyLemmas

namespace Tic.Unify

/-- The unifiers the type checker can have between two operations: every history of creating
unknown types, creating types out of existing ones, unifying existing types and tainting.
(`instantiate` is a sequence of the first two, see `instantiate_reachable`.) -/
inductive Reachable : Unifier → Prop
  | init : Reachable {}
  | fresh {u} : Reachable u → Reachable u.freshVar.1
  | alloc {u t} : Reachable u → (∀ j ∈ Ty.refs t, j < u.slots.length) → Reachable (u.allocate t).1
  | unify {u u' n a b ok} : Reachable u → a < u.slots.length → b < u.slots.length →
      unifyTop n u a b = some (u', ok) → Reachable u'
  | taint {u u' n a} : Reachable u → a < u.slots.length → Tic.Unify.taint n u a = some u' → Reachable u'

/-- The tree a type of the unifier stands for, unknown types being `var`. -/
inductive Denotes (u : Unifier) : Nat → Term → Prop
  | infer {i} : u.get i = some .infer → Denotes u i (.var i)
  | next {i j t} : u.get i = some (.next j) → Denotes u j t → Denotes u i t
  | bool {i} : u.get i = some (.ty .bool) → Denotes u i .bool
  | int {i} : u.get i = some (.ty .int) → Denotes u i .int
  | str {i} : u.get i = some (.ty .str) → Denotes u i .str
  | named {i s} : u.get i = some (.ty (.named s)) → Denotes u i (.named s)
  | apply {i a b s t} : u.get i = some (.ty (.apply a b)) → Denotes u a s → Denotes u b t → Denotes u i (.apply s t)
  | fn {i a b s t} : u.get i = some (.ty (.fn a b)) → Denotes u a s → Denotes u b t → Denotes u i (.fn s t)
  | folded {i a b s t} : u.get i = some (.ty (.folded a b)) → Denotes u a s → Denotes u b t → Denotes u i (.folded s t)
  | error {i} : u.get i = some (.ty .error) → Denotes u i .error

/-! ### The state between operations -/

theorem get_committed {u : Unifier} (h : u.pending = []) (i : Nat) : u.get i = u.slots[i]? := by
  simp [Unifier.get, h, pend]

theorem setAll_length : ∀ (ps : List (Nat × Slot)) (ss : List Slot), (setAll ps ss).length = ss.length
  | [], _ => rfl
  | (_, _) :: ps, ss => by simp [setAll, setAll_length ps ss]

theorem setAll_get : ∀ (ps : List (Nat × Slot)) (ss : List Slot) (i : Nat), i < ss.length →
    (setAll ps ss)[i]? = match pend ps i with | some s => some s | none => ss[i]?
  | [], _, _, _ => by simp [setAll, pend]
  | (k, s) :: ps, ss, i, hi => by
    simp only [setAll, pend]
    by_cases h : k = i
    · subst h
      simp [setAll_length, hi]
    · rw [List.getElem?_set_ne h, setAll_get ps ss i hi, if_neg h]

theorem commit_length (u : Unifier) : u.commit.slots.length = u.slots.length := setAll_length _ _

theorem get_commit {u : Unifier} (h : WF u) (i : Nat) : u.commit.get i = u.get i := by
  rw [get_committed rfl]
  by_cases hi : i < u.slots.length
  · show (setAll u.pending u.slots)[i]? = _
    rw [setAll_get _ _ _ hi]; rfl
  · rw [List.getElem?_eq_none (by rw [commit_length]; omega)]
    cases hg : u.get i with
    | none => rfl
    | some s => exact absurd (h.lt hg) hi

theorem Sat.congr {u u' : Unifier} (h : ∀ i, u'.get i = u.get i) {θ} : Sat u' θ ↔ Sat u θ := by
  unfold Sat
  simp only [h]

theorem refs_congr {u u' : Unifier} (h : ∀ i, u'.get i = u.get i) (i) : u'.refs i = u.refs i := by
  unfold Unifier.refs
  rw [h]

theorem wf_commit {u : Unifier} (h : WF u) : WF u.commit := by
  obtain ⟨r, hr⟩ := h.rank
  refine ⟨fun i s hs => by simp [Unifier.commit, Tic.Unify.pend] at hs, r, fun i j hm => ?_⟩
  rw [refs_congr (get_commit h)] at hm
  rw [commit_length]
  exact hr i j hm

/-- Adding a slot changes nothing about the existing types. -/
theorem get_push {u : Unifier} (hp : u.pending = []) (s : Slot) (i : Nat) :
    Unifier.get { u with slots := u.slots ++ [s] } i = if i = u.slots.length then some s else u.get i := by
  simp only [Unifier.get, hp, pend]
  by_cases hi : i < u.slots.length
  · rw [List.getElem?_append_left hi, if_neg (by omega)]
  · rw [List.getElem?_append_right (by omega)]
    split
    · rename_i h; subst h; simp
    · rw [List.getElem?_eq_none (by simp; omega), List.getElem?_eq_none (by omega)]

theorem le_sum_of_mem (r : Nat → Nat) : ∀ (l : List Nat) (j : Nat), j ∈ l → r j ≤ (l.map r).sum
  | a :: l, j, h => by
    rcases List.mem_cons.mp h with rfl | h
    · simp
    · have := le_sum_of_mem r l j h
      simp only [List.map_cons, List.sum_cons]; omega

theorem wf_push {u : Unifier} (hw : WF u) (hp : u.pending = []) (s : Slot)
    (hs : ∀ j ∈ Unifier.refs { u with slots := u.slots ++ [s] } u.slots.length, j < u.slots.length) :
    WF { u with slots := u.slots ++ [s] } := by
  obtain ⟨r, hr⟩ := hw.rank
  have hrefs : ∀ i, i ≠ u.slots.length → Unifier.refs { u with slots := u.slots ++ [s] } i = u.refs i := by
    intro i hi
    unfold Unifier.refs
    rw [get_push hp, if_neg hi]
  refine ⟨fun i s hs => by simp [hp, Tic.Unify.pend] at hs, fun i =>
    if i = u.slots.length then ((Unifier.refs { u with slots := u.slots ++ [s] } u.slots.length).map r).sum + 1 else r i, ?_⟩
  intro i j hm
  by_cases hi : i = u.slots.length
  · subst hi
    have hj := hs j hm
    refine ⟨by simp; omega, ?_⟩
    have : r j ≤ ((Unifier.refs { u with slots := u.slots ++ [s] } u.slots.length).map r).sum :=
      le_sum_of_mem r _ j hm
    simp only [if_true]
    rw [if_neg (by omega)]
    omega
  · rw [hrefs i hi] at hm
    have := hr i j hm
    refine ⟨by simp; omega, ?_⟩
    simp only [if_neg hi, if_neg (show ¬ j = u.slots.length by omega)]
    exact this.2

theorem get_set {u : Unifier} (hp : u.pending = []) {i} (hi : i < u.slots.length) (s : Slot) (k : Nat) :
    Unifier.get { u with slots := u.slots.set i s } k = if k = i then some s else u.get k := by
  simp only [Unifier.get, hp, pend]
  by_cases h : k = i
  · subst h; simp [hi]
  · rw [List.getElem?_set_ne (Ne.symm h), if_neg h]

/-- What `taint` does: if the type is unknown it becomes an error type, otherwise nothing happens. -/
theorem taint_spec {n u i u'} (hw : WF u) (hp : u.pending = []) (hi : i < u.slots.length) (h : taint n u i = some u') :
    ∃ f, IsFinal u i f ∧ f < u.slots.length ∧
      ((u.get f = some .infer ∧ u' = { u with slots := u.slots.set f (.ty .error) }) ∨ (∃ t, u.get f = some (.ty t)) ∧ u' = u) := by
  obtain ⟨r, hr⟩ := hw.rank
  induction n generalizing i with
  | zero => simp [taint] at h
  | succ n ih =>
    simp only [taint] at h
    rw [← get_committed hp] at h
    cases hg : u.get i with
    | none => simp [hg] at h
    | some s =>
      cases s with
      | infer => simp only [hg, Option.some.injEq] at h; exact ⟨i, isFinal_self (.inl hg), hi, .inl ⟨hg, h.symm⟩⟩
      | ty t => simp only [hg, Option.some.injEq] at h; exact ⟨i, isFinal_self (.inr ⟨t, hg⟩), hi, .inr ⟨⟨t, hg⟩, h.symm⟩⟩
      | next j =>
        simp only [hg] at h
        have hm : j ∈ u.refs i := by simp [Unifier.refs, hg]
        obtain ⟨f, hf, hfl, hh⟩ := ih (hr i j hm).1 h
        refine ⟨f, ⟨.step hm hf.reach, hf.fin, fun θ hθ => ?_, fun v hv hrv => ?_⟩, hfl, hh⟩
        · have := hθ i; simp only [hg] at this; rw [this, hf.eq θ hθ]
        · cases hrv with
          | refl => rw [hg] at hv; cases hv
          | step hm' hr' => simp only [Unifier.refs, hg, List.mem_singleton] at hm'; subst hm'; exact hf.only v hv hr'

theorem taint_mono {n u i r} (h : taint n u i = some r) : ∀ {m}, n ≤ m → taint m u i = some r := by
  induction n generalizing i with
  | zero => simp [taint] at h
  | succ n ih =>
    intro m hm
    obtain ⟨m, rfl⟩ : ∃ k, m = k + 1 := ⟨m - 1, by omega⟩
    simp only [taint] at h ⊢
    cases hs : u.slots[i]? with
    | none => simp [hs] at h
    | some s => cases s <;> simp only [hs] at h ⊢ <;> first | exact h | exact ih h (by omega)

theorem taint_total {u : Unifier} (hp : u.pending = []) {r} (hr : Ranked u r) {i} (hi : i < u.slots.length) :
    ∃ n u', taint n u i = some u' := by
  induction h : r i using Nat.strongRecOn generalizing i with
  | _ k ih =>
    have hg := get_committed hp i
    rw [List.getElem?_eq_getElem hi] at hg
    cases hs : u.slots[i] with
    | infer => exact ⟨1, _, by simp only [taint, List.getElem?_eq_getElem hi, hs]; rfl⟩
    | ty t => exact ⟨1, _, by simp only [taint, List.getElem?_eq_getElem hi, hs]; rfl⟩
    | next j =>
      rw [hs] at hg
      have hm : j ∈ u.refs i := by simp [Unifier.refs, hg]
      have := hr i j hm
      obtain ⟨n, f, hf⟩ := ih (r j) (by omega) this.1 rfl
      exact ⟨n + 1, f, by simp only [taint, List.getElem?_eq_getElem hi, hs]; exact hf⟩

theorem sat_set {u : Unifier} (hp : u.pending = []) {f} (hf : u.get f = some .infer) (hl : f < u.slots.length) (t : Ty) {θ} :
    Sat { u with slots := u.slots.set f (.ty t) } θ ↔ Sat u θ ∧ θ f = t.under θ := by
  constructor
  · intro h
    refine ⟨fun i => ?_, ?_⟩
    · have := h i
      rw [get_set hp hl] at this
      by_cases hi : i = f
      · subst hi; simp [hf]
      · simpa [hi] using this
    · have := h f
      rw [get_set hp hl] at this
      simpa using this
  · rintro ⟨h, he⟩ i
    rw [get_set hp hl]
    by_cases hi : i = f
    · subst hi; simpa using he
    · simpa [hi] using h i

theorem unifyTop_cases {n u a b u' ok} (h : unifyTop n u a b = some (u', ok)) :
    ∃ u1, unify n u a b = some (u1, ok) ∧ u' = if ok then u1.commit else u1.rollback := by
  simp only [unifyTop, Option.map_eq_some_iff] at h
  obtain ⟨⟨u1, ok1⟩, h1, h⟩ := h
  cases ok1 <;> simp at h <;> obtain ⟨rfl, rfl⟩ := h <;> exact ⟨u1, h1, by simp⟩

theorem reachable_wf {u : Unifier} (h : Reachable u) : WF u ∧ u.pending = [] := by
  induction h with
  | init => exact ⟨⟨fun i s h => by simp [Tic.Unify.pend] at h, fun _ => 0, fun i j h => by simp [Unifier.refs, Unifier.get, pend] at h⟩, rfl⟩
  | @fresh u hu ih =>
    refine ⟨wf_push ih.1 ih.2 _ fun j hj => ?_, ih.2⟩
    simp [Unifier.refs, get_push ih.2] at hj
  | @alloc u t hu ht ih =>
    refine ⟨wf_push ih.1 ih.2 _ fun j hj => ?_, ih.2⟩
    simp [Unifier.refs, get_push ih.2] at hj
    exact ht j hj
  | @unify u u' n a b ok hu ha hb h ih =>
    obtain ⟨u1, h1, rfl⟩ := unifyTop_cases h
    have o := unify_spec ih.1 ha hb h1
    cases ok with
    | true => exact ⟨wf_commit o.wf, rfl⟩
    | false =>
      have : u1.rollback = u := by
        have := o.slots
        cases u; cases u1
        simp_all [Unifier.rollback]
      simp only [Bool.false_eq_true, if_false, this]
      exact ih
  | @taint u u' n a hu ha h ih =>
    obtain ⟨f, hf, hfl, ⟨hg, rfl⟩ | ⟨-, rfl⟩⟩ := taint_spec ih.1 ih.2 ha h
    · refine ⟨⟨fun i s h => by simp [ih.2, Tic.Unify.pend] at h, ?_⟩, ih.2⟩
      obtain ⟨r, hr⟩ := ih.1.rank
      refine ⟨r, fun i j hm => ?_⟩
      have : j ∈ u.refs i := by
        unfold Unifier.refs at hm ⊢
        rw [get_set ih.2 hfl] at hm
        by_cases hi : i = f
        · simp [hi, Ty.refs] at hm
        · simpa [hi] using hm
      simpa using hr i j this
    · exact ih

/-! ### C18: soundness -/

/-- A successful unification makes the two types equal, up to error types, whatever the still
unknown types turn out to be. -/
theorem unify_sound {u u' : Unifier} {n a b} (hu : Reachable u) (ha : a < u.slots.length) (hb : b < u.slots.length)
    (h : unifyTop n u a b = some (u', true)) : ∀ θ, Sat u' θ → Compat (θ a) (θ b) := by
  obtain ⟨hw, -⟩ := reachable_wf hu
  obtain ⟨u1, h1, rfl⟩ := unifyTop_cases h
  have o := unify_spec hw ha hb h1
  intro θ hθ
  exact o.sound rfl θ ((Sat.congr (get_commit o.wf)).mp hθ)

/-- ... and exactly equal where there are no error types. -/
theorem unify_sound_eq {u u' : Unifier} {n a b} (hu : Reachable u) (ha : a < u.slots.length) (hb : b < u.slots.length)
    (h : unifyTop n u a b = some (u', true)) (θ : Nat → Term) (hθ : Sat u' θ) (h1 : NoError (θ a)) (h2 : NoError (θ b)) :
    θ a = θ b :=
  (unify_sound hu ha hb h θ hθ).eq_of_noError h1 h2

/-- Whatever was known before is still known: types that were equal stay equal. -/
theorem unify_keeps {u u' : Unifier} {n a b ok} (hu : Reachable u) (ha : a < u.slots.length) (hb : b < u.slots.length)
    (h : unifyTop n u a b = some (u', ok)) : ∀ θ, Sat u' θ → Sat u θ := by
  obtain ⟨hw, hp⟩ := reachable_wf hu
  obtain ⟨u1, h1, rfl⟩ := unifyTop_cases h
  have o := unify_spec hw ha hb h1
  intro θ hθ
  cases ok with
  | true => exact o.down θ ((Sat.congr (get_commit o.wf)).mp hθ)
  | false =>
    have : u1.rollback = u := by
      have := o.slots
      cases u; cases u1
      simp_all [Unifier.rollback]
    simpa [this] using hθ

theorem unify_keeps_equal {u u' : Unifier} {n a b ok} (hu : Reachable u) (ha : a < u.slots.length) (hb : b < u.slots.length)
    (h : unifyTop n u a b = some (u', ok)) (i j : Nat) (he : ∀ θ, Sat u θ → θ i = θ j) : ∀ θ, Sat u' θ → θ i = θ j :=
  fun θ hθ => he θ (unify_keeps hu ha hb h θ hθ)

/-- Nothing is assumed beyond what is needed: every way of making the two types equal is still
possible afterwards, and if there is one at all unification succeeds. -/
theorem unify_most_general {u u' : Unifier} {n a b ok} (hu : Reachable u) (ha : a < u.slots.length) (hb : b < u.slots.length)
    (h : unifyTop n u a b = some (u', ok)) (θ : Nat → Term) (hθ : Sat u θ) (he : θ a = θ b) : ok = true ∧ Sat u' θ := by
  obtain ⟨hw, -⟩ := reachable_wf hu
  obtain ⟨u1, h1, rfl⟩ := unifyTop_cases h
  have o := unify_spec hw ha hb h1
  obtain ⟨rfl, hs⟩ := o.mgu θ hθ he
  exact ⟨rfl, (Sat.congr (get_commit o.wf)).mpr hs⟩

/-- A reported mismatch is one: no choice of the unknown types makes the two types equal. -/
theorem unify_failure_genuine {u u' : Unifier} {n a b} (hu : Reachable u) (ha : a < u.slots.length) (hb : b < u.slots.length)
    (h : unifyTop n u a b = some (u', false)) (θ : Nat → Term) (hθ : Sat u θ) : θ a ≠ θ b :=
  fun he => by have := (unify_most_general hu ha hb h θ hθ he).1; cases this

/-! ### C19: termination, no cycles, no trace -/

/-- Unification terminates: there is a depth of recursion that suffices. -/
theorem unify_terminates {u : Unifier} {a b} (hu : Reachable u) (ha : a < u.slots.length) (hb : b < u.slots.length) :
    ∃ n r, ∀ m, n ≤ m → unifyTop m u a b = some r := by
  obtain ⟨n, r, h⟩ := unify_total (reachable_wf hu).1 ha hb
  exact ⟨n, _, fun m hm => by rw [unifyTop, unify_mono h hm]; rfl⟩

theorem taint_terminates {u : Unifier} {a} (hu : Reachable u) (ha : a < u.slots.length) :
    ∃ n r, ∀ m, n ≤ m → taint m u a = some r := by
  obtain ⟨hw, hp⟩ := reachable_wf hu
  obtain ⟨r, hr⟩ := hw.rank
  obtain ⟨n, u', h⟩ := taint_total hp hr ha
  exact ⟨n, u', fun m hm => taint_mono h hm⟩

/-- No type ever contains itself. -/
theorem no_cyclic_types {u : Unifier} (hu : Reachable u) (i j : Nat) (hm : j ∈ u.refs i) : ¬ Reach u j i := by
  obtain ⟨r, hr⟩ := (reachable_wf hu).1.rank
  intro h
  have h1 := (hr i j hm).2
  have h2 := h.rank_le hr
  omega

/-- A failed unification leaves the unifier as it was. -/
theorem unify_failure_no_trace {u u' : Unifier} {n a b} (hu : Reachable u) (ha : a < u.slots.length) (hb : b < u.slots.length)
    (h : unifyTop n u a b = some (u', false)) : u' = u := by
  obtain ⟨hw, hp⟩ := reachable_wf hu
  obtain ⟨u1, h1, rfl⟩ := unifyTop_cases h
  have := (unify_spec hw ha hb h1).slots
  cases u; cases u1
  simp_all [Unifier.rollback]

/-- Existing types keep their place: operations only add types. -/
theorem unify_length {u u' : Unifier} {n a b ok} (hu : Reachable u) (ha : a < u.slots.length) (hb : b < u.slots.length)
    (h : unifyTop n u a b = some (u', ok)) : u'.slots.length = u.slots.length := by
  obtain ⟨hw, hp⟩ := reachable_wf hu
  obtain ⟨u1, h1, rfl⟩ := unifyTop_cases h
  have := (unify_spec hw ha hb h1).slots
  cases ok with
  | true => rw [if_pos rfl, commit_length, this]
  | false => simp [Unifier.rollback, this]

theorem Denotes.det {u : Unifier} {i s t} (h : Denotes u i s) (h' : Denotes u i t) : s = t := by
  induction h generalizing t with
  | infer hg => cases h' <;> simp_all
  | next hg _ ih => cases h' <;> simp_all; exact ih ‹_›
  | apply hg _ _ iha ihb => cases h' <;> simp_all; exact ⟨iha ‹_›, ihb ‹_›⟩
  | fn hg _ _ iha ihb => cases h' <;> simp_all; exact ⟨iha ‹_›, ihb ‹_›⟩
  | folded hg _ _ iha ihb => cases h' <;> simp_all; exact ⟨iha ‹_›, ihb ‹_›⟩
  | _ => cases h' <;> simp_all

/-- Following a type to the end always terminates: every type stands for exactly one finite tree. -/
theorem denotes_total {u : Unifier} (hu : Reachable u) {i} (hi : i < u.slots.length) : ∃ t, Denotes u i t ∧ ∀ s, Denotes u i s → s = t := by
  obtain ⟨r, hr⟩ := (reachable_wf hu).1.rank
  have : ∃ t, Denotes u i t := by
    induction h : r i using Nat.strongRecOn generalizing i with
    | _ k ih =>
      obtain ⟨s, hs⟩ := get_of_lt hi
      have sub : ∀ j, j ∈ u.refs i → ∃ t, Denotes u j t := fun j hj => ih (r j) (h ▸ (hr i j hj).2) (hr i j hj).1 rfl
      cases s with
      | infer => exact ⟨_, .infer hs⟩
      | next j => obtain ⟨t, ht⟩ := sub j (by simp [Unifier.refs, hs]); exact ⟨t, .next hs ht⟩
      | ty t =>
        cases t with
        | bool => exact ⟨_, .bool hs⟩
        | int => exact ⟨_, .int hs⟩
        | str => exact ⟨_, .str hs⟩
        | named s => exact ⟨_, .named hs⟩
        | error => exact ⟨_, .error hs⟩
        | apply a b =>
          obtain ⟨s, h1⟩ := sub a (by simp [Unifier.refs, hs, Ty.refs])
          obtain ⟨t, h2⟩ := sub b (by simp [Unifier.refs, hs, Ty.refs])
          exact ⟨_, .apply hs h1 h2⟩
        | fn a b =>
          obtain ⟨s, h1⟩ := sub a (by simp [Unifier.refs, hs, Ty.refs])
          obtain ⟨t, h2⟩ := sub b (by simp [Unifier.refs, hs, Ty.refs])
          exact ⟨_, .fn hs h1 h2⟩
        | folded a b =>
          obtain ⟨s, h1⟩ := sub a (by simp [Unifier.refs, hs, Ty.refs])
          obtain ⟨t, h2⟩ := sub b (by simp [Unifier.refs, hs, Ty.refs])
          exact ⟨_, .folded hs h1 h2⟩
  obtain ⟨t, ht⟩ := this
  exact ⟨t, ht, fun s hs => hs.det ht⟩

/-- Replacing unknown types. -/
def Term.subst (σ : Nat → Term) : Term → Term
  | .var n => σ n
  | .apply a b => .apply (a.subst σ) (b.subst σ)
  | .fn a b => .fn (a.subst σ) (b.subst σ)
  | .folded a b => .folded (a.subst σ) (b.subst σ)
  | t => t

theorem sat_denotes {u : Unifier} {θ} (hθ : Sat u θ) {i t} (h : Denotes u i t) : θ i = t.subst θ := by
  induction h with
  | infer hg => rfl
  | @next i j t hg _ ih => have := hθ i; simp only [hg] at this; rw [this, ih]
  | @apply i a b s t hg _ _ iha ihb | @fn i a b s t hg _ _ iha ihb | @folded i a b s t hg _ _ iha ihb =>
    have := hθ i; simp only [hg, Ty.under] at this; rw [this, iha, ihb]; rfl
  | @bool i hg | @int i hg | @str i hg | @named i _ hg | @error i hg => have := hθ i; simpa only [hg, Ty.under, Term.subst] using this

/-- The trees a reachable unifier allows are exactly the instances of the trees its types stand
for: every choice for the unknown types is possible (so the theorems about `Sat` are about
something). -/
theorem sat_exists {u : Unifier} (hu : Reachable u) (σ : Nat → Term) :
    ∃ θ, Sat u θ ∧ (∀ i, u.get i = some .infer → θ i = σ i) ∧ ∀ i t, Denotes u i t → θ i = t.subst σ := by
  classical
  have hw := (reachable_wf hu).1
  obtain ⟨r, hr⟩ := hw.rank
  let den : Nat → Term := fun i => if h : ∃ t, Denotes u i t then (Classical.choose h) else .error
  have hden : ∀ {i t}, Denotes u i t → den i = t := by
    intro i t ht
    have hex : ∃ t, Denotes u i t := ⟨t, ht⟩
    simp only [den, dif_pos hex]
    exact (Classical.choose_spec hex).det ht
  have hsub : ∀ {i j}, j ∈ u.refs i → ∃ t, Denotes u j t := fun {i j} hm =>
    ⟨_, (denotes_total hu (hr i j hm).1).choose_spec.1⟩
  refine ⟨fun i => (den i).subst σ, ?_, ?_, ?_⟩
  · intro i
    cases hg : u.get i with
    | none => trivial
    | some s =>
      cases s with
      | infer => trivial
      | next j =>
        obtain ⟨t, ht⟩ := hsub (i := i) (j := j) (by simp [Unifier.refs, hg])
        simp only [hden ht, hden (.next hg ht)]
      | ty t =>
        cases t with
        | bool => simp [hden (.bool hg), Ty.under, Term.subst]
        | int => simp [hden (.int hg), Ty.under, Term.subst]
        | str => simp [hden (.str hg), Ty.under, Term.subst]
        | named s => simp [hden (.named hg), Ty.under, Term.subst]
        | error => simp [hden (.error hg), Ty.under, Term.subst]
        | apply a b =>
          obtain ⟨s, h1⟩ := hsub (i := i) (j := a) (by simp [Unifier.refs, hg, Ty.refs])
          obtain ⟨t, h2⟩ := hsub (i := i) (j := b) (by simp [Unifier.refs, hg, Ty.refs])
          simp [hden h1, hden h2, hden (.apply hg h1 h2), Ty.under, Term.subst]
        | fn a b =>
          obtain ⟨s, h1⟩ := hsub (i := i) (j := a) (by simp [Unifier.refs, hg, Ty.refs])
          obtain ⟨t, h2⟩ := hsub (i := i) (j := b) (by simp [Unifier.refs, hg, Ty.refs])
          simp [hden h1, hden h2, hden (.fn hg h1 h2), Ty.under, Term.subst]
        | folded a b =>
          obtain ⟨s, h1⟩ := hsub (i := i) (j := a) (by simp [Unifier.refs, hg, Ty.refs])
          obtain ⟨t, h2⟩ := hsub (i := i) (j := b) (by simp [Unifier.refs, hg, Ty.refs])
          simp [hden h1, hden h2, hden (.folded hg h1 h2), Ty.under, Term.subst]
  · intro i hg
    simp [hden (.infer hg), Term.subst]
  · intro i t ht
    simp [hden ht]

theorem Term.subst_var (t : Term) : t.subst .var = t := by
  induction t <;> simp [Term.subst, *]

/-- C18 in terms of the resolved trees: after a successful unification the trees the two types
stand for are equal up to error types. -/
theorem unify_sound_resolved {u u' : Unifier} {n a b s t} (hu : Reachable u) (ha : a < u.slots.length) (hb : b < u.slots.length)
    (h : unifyTop n u a b = some (u', true)) (hs : Denotes u' a s) (ht : Denotes u' b t) : Compat s t := by
  obtain ⟨θ, h1, -, h3⟩ := sat_exists (Reachable.unify hu ha hb h) .var
  have := unify_sound hu ha hb h θ h1
  rwa [h3 a s hs, h3 b t ht, Term.subst_var, Term.subst_var] at this

/-! ### C32: turning inferred types back into types -/

/-- The `ir::Type` of a tree; `none` if something that is not a type constructor is applied. -/
def Term.ir : Term → Option IrTy
  | .var _ => some .infer
  | .bool => some .bool
  | .int => some .int
  | .str => some .str
  | .named s => some (.named s [])
  | .apply a b => match a.ir with
    | some (.named s xs) => b.ir.map fun b => .named s (xs ++ [b])
    | _ => none
  | .fn a b => a.ir.bind fun a => b.ir.map fun b => .fn a b
  | .folded a b => a.ir.bind fun a => b.ir.map fun b => .folded a b
  | .error => some .error

theorem toIr_mono {n u i res} (h : toIr n u i = some res) : ∀ {m}, n ≤ m → toIr m u i = some res := by
  induction n generalizing i res with
  | zero => simp [toIr] at h
  | succ n ih =>
    intro m hm
    obtain ⟨m, rfl⟩ : ∃ k, m = k + 1 := ⟨m - 1, by omega⟩
    have hnm : n ≤ m := by omega
    simp only [toIr, Option.bind_eq_some_iff] at h ⊢
    obtain ⟨t, ht, h⟩ := h
    refine ⟨t, normalize_mono ht hnm, ?_⟩
    split at h
    all_goals first
      | exact h
      | (simp only [Option.bind_eq_some_iff] at h ⊢
         obtain ⟨ra, hra, h⟩ := h
         refine ⟨ra, ih hra hnm, ?_⟩
         split at h
         all_goals first
           | (simp only [Option.bind_eq_some_iff] at h ⊢
              obtain ⟨rb, hrb, h⟩ := h
              exact ⟨rb, ih hrb hnm, h⟩)
           | exact h
           | (split <;> simp_all))

theorem normalize_next {n u i j t} (hg : u.get i = some (.next j)) (h : normalize n u j = some t) : normalize (n + 1) u i = some t := by
  simp only [normalize, Option.bind_eq_some_iff] at h ⊢
  obtain ⟨k, hk, h⟩ := h
  exact ⟨k, by simp [finalIdx, hg, hk], h⟩

theorem toIr_next {n u i j r} (hg : u.get i = some (.next j)) (h : toIr n u j = some r) : toIr (n + 1) u i = some r := by
  cases n with
  | zero => simp [toIr] at h
  | succ n =>
    have hm : ∀ {k r}, toIr n u k = some r → toIr (n + 1) u k = some r := fun h => toIr_mono h (by omega)
    simp only [toIr, Option.bind_eq_some_iff] at h
    obtain ⟨t, ht, h⟩ := h
    rw [toIr, normalize_next hg ht]
    simp only [Option.bind_some]
    split at h
    all_goals first
      | exact h
      | (simp only [Option.bind_eq_some_iff] at h ⊢
         obtain ⟨ra, hra, h⟩ := h
         refine ⟨ra, hm hra, ?_⟩
         split at h
         all_goals first
           | (simp only [Option.bind_eq_some_iff] at h ⊢
              obtain ⟨rb, hrb, h⟩ := h
              exact ⟨rb, hm hrb, h⟩)
           | exact h
           | (split <;> simp_all))

/-- `to_ir` terminates and gives the type of the tree the inferred type stands for. -/
theorem toIr_denotes {u : Unifier} {i t} (h : Denotes u i t) : ∃ n, ∀ m, n ≤ m → toIr m u i = some t.ir := by
  have : ∃ n, toIr n u i = some t.ir := by
    induction h with
    | infer hg => exact ⟨2, by rw [toIr, normalize_final_infer hg]; rfl⟩
    | next hg _ ih => obtain ⟨n, hn⟩ := ih; exact ⟨n + 1, toIr_next hg hn⟩
    | bool hg => exact ⟨2, by rw [toIr, normalize_final_ty hg]; rfl⟩
    | int hg => exact ⟨2, by rw [toIr, normalize_final_ty hg]; rfl⟩
    | str hg => exact ⟨2, by rw [toIr, normalize_final_ty hg]; rfl⟩
    | named hg => exact ⟨2, by rw [toIr, normalize_final_ty hg]; rfl⟩
    | error hg => exact ⟨2, by rw [toIr, normalize_final_ty hg]; rfl⟩
    | @apply i a b s t hg _ _ iha ihb =>
      obtain ⟨n1, h1⟩ := iha
      obtain ⟨n2, h2⟩ := ihb
      refine ⟨n1 + n2 + 1 + 1, ?_⟩
      rw [toIr, normalize_final_ty hg]
      simp only [Option.bind_some, toIr_mono h1 (show n1 ≤ n1 + n2 + 1 by omega), toIr_mono h2 (show n2 ≤ n1 + n2 + 1 by omega), Term.ir]
      cases s.ir with
      | none => rfl
      | some a => cases a <;> rfl
    | @fn i a b s t hg _ _ iha ihb | @folded i a b s t hg _ _ iha ihb =>
      obtain ⟨n1, h1⟩ := iha
      obtain ⟨n2, h2⟩ := ihb
      refine ⟨n1 + n2 + 1 + 1, ?_⟩
      rw [toIr, normalize_final_ty hg]
      simp only [Option.bind_some, toIr_mono h1 (show n1 ≤ n1 + n2 + 1 by omega), toIr_mono h2 (show n2 ≤ n1 + n2 + 1 by omega), Term.ir]
      cases s.ir with
      | none => rfl
      | some a => rfl
  obtain ⟨n, hn⟩ := this
  exact ⟨n, fun m hm => toIr_mono hn hm⟩

end Tic.Unify
