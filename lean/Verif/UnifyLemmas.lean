/-
Specification of what a unifier means (`Term`, `Sat`, `Compat`) and the lemmas about `Verif.Unify`.
-/
import Verif.Unify

namespace Tic.Unify

/-- Types as trees; `var` stands for a type that is not known. -/
inductive Term
  | var (n : Nat)
  | bool | int | str
  | named (s : Symbol)
  | apply (a b : Term)
  | fn (a b : Term)
  | folded (a b : Term)
  | error
  deriving DecidableEq, Repr

/-- The tree of a constructor whose parts are given by `θ`. -/
def Ty.under (θ : Nat → Term) : Ty → Term
  | .bool => .bool
  | .int => .int
  | .str => .str
  | .named s => .named s
  | .apply a b => .apply (θ a) (θ b)
  | .fn a b => .fn (θ a) (θ b)
  | .folded a b => .folded (θ a) (θ b)
  | .error => .error

/-- `θ` gives every type of the unifier a tree that respects everything the unifier knows: what is
bound is equal to what it is bound to, what is known has the known shape. -/
def Sat (u : Unifier) (θ : Nat → Term) : Prop :=
  ∀ i, match u.get i with
    | some (.next j) => θ i = θ j
    | some (.ty t) => θ i = t.under θ
    | _ => True

/-- Equality of trees, except that an error type agrees with everything. -/
def Compat : Term → Term → Prop
  | .error, _ => True
  | _, .error => True
  | .apply a b, .apply c d => Compat a c ∧ Compat b d
  | .fn a b, .fn c d => Compat a c ∧ Compat b d
  | .folded a b, .folded c d => Compat a c ∧ Compat b d
  | s, t => s = t

/-- No error type anywhere. -/
def NoError : Term → Prop
  | .error => False
  | .apply a b => NoError a ∧ NoError b
  | .fn a b => NoError a ∧ NoError b
  | .folded a b => NoError a ∧ NoError b
  | _ => True

theorem Compat.refl (t : Term) : Compat t t := by
  induction t <;> simp [Compat, *]

theorem Compat.eq_of_noError {s t : Term} (h : Compat s t) (hs : NoError s) (ht : NoError t) : s = t := by
  induction s generalizing t with
  | apply a b iha ihb | fn a b iha ihb | folded a b iha ihb =>
    cases t <;> simp only [Compat, NoError, reduceCtorEq] at h hs ht
    rw [iha h.1 hs.1 ht.1, ihb h.2 hs.2 ht.2]
  | _ => cases t <;> simp_all [Compat, NoError]

/-- The indices a constructor mentions. -/
def Ty.refs : Ty → List Nat
  | .apply a b => [a, b]
  | .fn a b => [a, b]
  | .folded a b => [a, b]
  | _ => []

/-- The indices slot `i` mentions. -/
def Unifier.refs (u : Unifier) (i : Nat) : List Nat :=
  match u.get i with
  | some (.next j) => [j]
  | some (.ty t) => t.refs
  | _ => []

/-- `j` can be reached from `i` by following mentions. -/
inductive Reach (u : Unifier) : Nat → Nat → Prop
  | refl (i) : Reach u i i
  | step {i j k} : j ∈ u.refs i → Reach u j k → Reach u i k

/-- A rank showing that all mentions are in bounds and well founded. -/
def Ranked (u : Unifier) (r : Nat → Nat) : Prop := ∀ i j, j ∈ u.refs i → j < u.slots.length ∧ r j < r i

structure WF (u : Unifier) : Prop where
  pend : ∀ i s, pend u.pending i = some s → i < u.slots.length
  rank : ∃ r, Ranked u r

theorem WF.lt {u : Unifier} (h : WF u) {i s} (hg : u.get i = some s) : i < u.slots.length := by
  unfold Unifier.get at hg
  split at hg
  · rename_i s' hs; exact h.pend i s' hs
  · exact (List.getElem?_eq_some_iff.mp hg).1

theorem get_of_lt {u : Unifier} {i} (h : i < u.slots.length) : ∃ s, u.get i = some s := by
  unfold Unifier.get
  split
  · exact ⟨_, rfl⟩
  · exact ⟨_, List.getElem?_eq_getElem h⟩

theorem Reach.trans {u : Unifier} {i j k} (h : Reach u i j) (h' : Reach u j k) : Reach u i k := by
  induction h with
  | refl => exact h'
  | step hm _ ih => exact .step hm (ih h')

theorem Reach.rank_le {u : Unifier} {r} (hr : Ranked u r) {i j} (h : Reach u i j) : r j ≤ r i := by
  induction h with
  | refl => exact Nat.le_refl _
  | step hm _ ih => exact Nat.le_trans ih (Nat.le_of_lt (hr _ _ hm).2)

theorem Reach.lt {u : Unifier} {r} (hr : Ranked u r) {i j} (h : Reach u i j) (hi : i < u.slots.length) : j < u.slots.length := by
  induction h with
  | refl => exact hi
  | step hm _ ih => exact ih (hr _ _ hm).1

/-! ### `final_idx` and `normalize` -/

theorem finalIdx_mono {n u i j} (h : finalIdx n u i = some j) : ∀ {m}, n ≤ m → finalIdx m u i = some j := by
  induction n generalizing i with
  | zero => simp [finalIdx] at h
  | succ n ih =>
    intro m hm
    obtain ⟨m, rfl⟩ : ∃ k, m = k + 1 := ⟨m - 1, by omega⟩
    simp only [finalIdx] at h ⊢
    cases hg : u.get i with
    | none => simp [hg] at h
    | some s =>
      cases s with
      | infer => simpa [hg] using h
      | ty t => simpa [hg] using h
      | next k => simp only [hg] at h ⊢; exact ih h (by omega)

/-- What `final_idx` returns. -/
structure IsFinal (u : Unifier) (i j : Nat) : Prop where
  reach : Reach u i j
  fin : u.get j = some .infer ∨ ∃ t, u.get j = some (.ty t)
  eq : ∀ θ, Sat u θ → θ i = θ j
  only : ∀ v, u.get v = some .infer → Reach u i v → Reach u j v

theorem isFinal_self {u : Unifier} {i} (h : u.get i = some .infer ∨ ∃ t, u.get i = some (.ty t)) : IsFinal u i i :=
  ⟨.refl i, h, fun _ _ => rfl, fun _ _ h => h⟩

theorem finalIdx_spec {n u i j} (h : finalIdx n u i = some j) : IsFinal u i j := by
  induction n generalizing i with
  | zero => simp [finalIdx] at h
  | succ n ih =>
    simp only [finalIdx] at h
    cases hg : u.get i with
    | none => simp [hg] at h
    | some s =>
      cases s with
      | infer => simp only [hg, Option.some.injEq] at h; subst h; exact isFinal_self (.inl hg)
      | ty t => simp only [hg, Option.some.injEq] at h; subst h; exact isFinal_self (.inr ⟨t, hg⟩)
      | next k =>
        simp only [hg] at h
        have hk := ih h
        refine ⟨.step (by simp [Unifier.refs, hg]) hk.reach, hk.fin, ?_, ?_⟩
        · intro θ hθ
          have := hθ i
          simp only [hg] at this
          rw [this, hk.eq θ hθ]
        · intro v hv hr
          cases hr with
          | refl => rw [hg] at hv; cases hv
          | step hm hr' =>
            simp only [Unifier.refs, hg, List.mem_singleton] at hm
            subst hm
            exact hk.only v hv hr'

theorem finalIdx_total {u r} (hr : Ranked u r) {i} (hi : i < u.slots.length) : ∃ n j, finalIdx n u i = some j := by
  induction h : r i using Nat.strongRecOn generalizing i with
  | _ k ih =>
    obtain ⟨s, hs⟩ := get_of_lt hi
    cases s with
    | infer => exact ⟨1, i, by simp [finalIdx, hs]⟩
    | ty t => exact ⟨1, i, by simp [finalIdx, hs]⟩
    | next j =>
      have hm : j ∈ u.refs i := by simp [Unifier.refs, hs]
      have := hr i j hm
      obtain ⟨n, f, hf⟩ := ih (r j) (by omega) this.1 rfl
      exact ⟨n + 1, f, by simp [finalIdx, hs, hf]⟩

theorem finalIdx_final {n u j} (h : u.get j = some .infer ∨ ∃ t, u.get j = some (.ty t)) : finalIdx (n + 1) u j = some j := by
  rcases h with h | ⟨t, h⟩ <;> simp [finalIdx, h]

theorem normalize_mono {n u i t} (h : normalize n u i = some t) {m} (hm : n ≤ m) : normalize m u i = some t := by
  simp only [normalize, Option.bind_eq_some_iff] at h ⊢
  obtain ⟨j, hj, h⟩ := h
  exact ⟨j, finalIdx_mono hj hm, h⟩

theorem normalize_final_ty {n u j t} (h : u.get j = some (.ty t)) : normalize (n + 1) u j = some (some t) := by
  simp [normalize, finalIdx, h]

theorem normalize_final_infer {n u j} (h : u.get j = some .infer) : normalize (n + 1) u j = some none := by
  simp [normalize, finalIdx, h]

/-- Normalizing a final index reads its slot. -/
theorem normalize_spec {n u j t} (hj : u.get j = some .infer ∨ ∃ t, u.get j = some (.ty t))
    (h : normalize n u j = some t) :
    match t with
    | some t => u.get j = some (.ty t)
    | none => u.get j = some .infer := by
  cases n with
  | zero => simp [normalize, finalIdx] at h
  | succ n =>
    rcases hj with hg | ⟨t', hg⟩
    · rw [normalize_final_infer hg] at h; cases h; exact hg
    · rw [normalize_final_ty hg] at h; cases h; exact hg

/-! ### `occurs` -/

theorem occurs_mono {n u v i b} (h : occurs n u v i = some b) : ∀ {m}, n ≤ m → occurs m u v i = some b := by
  induction n generalizing i b with
  | zero => simp [occurs] at h
  | succ n ih =>
    intro m hm
    obtain ⟨m, rfl⟩ : ∃ k, m = k + 1 := ⟨m - 1, by omega⟩
    have hnm : n ≤ m := by omega
    simp only [occurs, Option.bind_eq_some_iff] at h ⊢
    obtain ⟨j, hj, h⟩ := h
    refine ⟨j, finalIdx_mono hj hnm, ?_⟩
    split at h
    · rename_i hv; rw [if_pos hv]; exact h
    · rename_i hv
      rw [if_neg hv]
      simp only [Option.bind_eq_some_iff] at h ⊢
      obtain ⟨t, ht, h⟩ := h
      refine ⟨t, normalize_mono ht hnm, ?_⟩
      split at h
      all_goals first
        | (simp only [Option.bind_eq_some_iff] at h ⊢
           obtain ⟨r, hr, h⟩ := h
           refine ⟨r, ih hr hnm, ?_⟩
           split at h
           · rename_i hr'; rw [if_pos hr']; exact h
           · rename_i hr'; rw [if_neg hr']; exact ih h hnm)
        | exact h

theorem reach_refs {u : Unifier} {i v} : Reach u i v ↔ i = v ∨ ∃ j ∈ u.refs i, Reach u j v := by
  constructor
  · intro h
    cases h with
    | refl => exact .inl rfl
    | step hm hr => exact .inr ⟨_, hm, hr⟩
  · rintro (rfl | ⟨j, hm, hr⟩)
    · exact .refl _
    · exact .step hm hr

theorem occurs_spec {n u v i b} (hv : u.get v = some .infer) (h : occurs n u v i = some b) : b = true ↔ Reach u i v := by
  induction n generalizing i b with
  | zero => simp [occurs] at h
  | succ n ih =>
    simp only [occurs, Option.bind_eq_some_iff] at h
    obtain ⟨j, hj, h⟩ := h
    have hf := finalIdx_spec hj
    have key : Reach u i v ↔ Reach u j v := ⟨hf.only v hv, hf.reach.trans⟩
    rw [key]
    split at h
    · rename_i he; cases h; subst he; exact ⟨fun _ => .refl _, fun _ => rfl⟩
    · rename_i hne
      simp only [Option.bind_eq_some_iff] at h
      obtain ⟨t, ht, h⟩ := h
      have hs := normalize_spec hf.fin ht
      rw [reach_refs]
      split at h
      all_goals first
        | (simp only [Option.bind_eq_some_iff] at h
           obtain ⟨r, hr, h⟩ := h
           have hra := ih hr
           simp only [Unifier.refs, hs, Ty.refs, List.mem_cons, List.not_mem_nil, or_false, exists_eq_or_imp,
             exists_eq_left, Ne.symm hne, false_or]
           split at h
           · rename_i hr'; cases h; simp [hra.mp hr']
           · rename_i hr'
             have hrb := ih h
             have : ¬ Reach u _ v := fun hh => hr' (hra.mpr hh)
             simp [this, hrb])
        | skip
      rename_i hn1 hn2 hn3
      cases h
      simp only [Bool.false_eq_true, Ne.symm hne, false_or, false_iff]
      rintro ⟨k, hk, -⟩
      cases t with
      | none => simp [Unifier.refs, hs] at hk
      | some t => cases t <;> simp_all [Unifier.refs, Ty.refs]

theorem occurs_total {u r} (hr : Ranked u r) (v : Nat) {i} (hi : i < u.slots.length) : ∃ n b, occurs n u v i = some b := by
  induction h : r i using Nat.strongRecOn generalizing i with
  | _ k ih =>
    obtain ⟨n, j, hj⟩ := finalIdx_total hr hi
    have hf := finalIdx_spec hj
    have hji := hf.reach.rank_le hr
    by_cases hv : v = j
    · exact ⟨n + 1, true, by simp [occurs, hj, hv]⟩
    · -- the parts
      have two : ∀ a b, u.refs j = [a, b] → ∃ m ra, occurs m u v a = some ra ∧ ∃ rb, occurs m u v b = some rb := by
        intro a b hab
        have h1 := hr j a (by simp [hab])
        have h2 := hr j b (by simp [hab])
        obtain ⟨m1, ra, h1'⟩ := ih (r a) (by omega) h1.1 rfl
        obtain ⟨m2, rb, h2'⟩ := ih (r b) (by omega) h2.1 rfl
        exact ⟨m1 + m2, ra, occurs_mono h1' (by omega), rb, occurs_mono h2' (by omega)⟩
      have fin : ∀ m, finalIdx (n + m + 1) u i = some j := fun m => finalIdx_mono hj (by omega)
      rcases hf.fin with hg | ⟨t, hg⟩
      · exact ⟨n + 2, false, by rw [occurs, fin 0]; simp [hv, normalize_final_infer hg]⟩
      · have app : ∀ a b, (t = .apply a b ∨ t = .fn a b ∨ t = .folded a b) → ∃ n b, occurs n u v i = some b := by
          intro a b ht
          have hab : u.refs j = [a, b] := by rcases ht with rfl | rfl | rfl <;> simp [Unifier.refs, hg, Ty.refs]
          obtain ⟨m, ra, h1, rb, h2⟩ := two a b hab
          have h1' : occurs (n + m + 1) u v a = some ra := occurs_mono h1 (by omega)
          have h2' : occurs (n + m + 1) u v b = some rb := occurs_mono h2 (by omega)
          refine ⟨n + m + 1 + 1, if ra then true else rb, ?_⟩
          rw [occurs, fin m]
          rcases ht with rfl | rfl | rfl <;>
            (simp only [Option.bind_some, if_neg hv, normalize_final_ty hg, h1', h2']; cases ra <;> simp)
        cases t with
        | apply a b => exact app a b (.inl rfl)
        | fn a b => exact app a b (.inr (.inl rfl))
        | folded a b => exact app a b (.inr (.inr rfl))
        | _ => exact ⟨n + 2, false, by rw [occurs, fin 0]; simp [hv, normalize_final_ty hg]⟩

/-! ### Binding -/

theorem get_bind {u : Unifier} {f g i} : (u.bind f g).get i = if i = f then some (.next g) else u.get i := by
  unfold Unifier.get Unifier.bind
  simp only [Tic.Unify.pend]
  by_cases h : f = i
  · simp [h]
  · simp [h, Ne.symm h]

theorem sat_bind {u : Unifier} {f g θ} (hf : u.get f = some .infer) :
    Sat (u.bind f g) θ ↔ Sat u θ ∧ θ f = θ g := by
  constructor
  · intro h
    refine ⟨fun i => ?_, ?_⟩
    · have := h i
      rw [get_bind] at this
      by_cases hi : i = f
      · subst hi; simp [hf]
      · simpa [hi] using this
    · have := h f
      rw [get_bind] at this
      simpa using this
  · rintro ⟨h, he⟩ i
    rw [get_bind]
    by_cases hi : i = f
    · subst hi; simpa using he
    · simpa [hi] using h i

theorem refs_bind {u : Unifier} {f g i} : (u.bind f g).refs i = if i = f then [g] else u.refs i := by
  unfold Unifier.refs
  rw [get_bind]
  by_cases h : i = f <;> simp [h]

theorem wf_bind {u : Unifier} (h : WF u) {f g} (hf : u.get f = some .infer) (hg : g < u.slots.length)
    (hno : ¬ Reach u g f) : WF (u.bind f g) := by
  obtain ⟨r, hr⟩ := h.rank
  refine ⟨?_, fun i => r i + (open Classical in if Reach u i f then r g + 1 else 0), ?_⟩
  · intro i s hs
    simp only [Unifier.bind, Tic.Unify.pend] at hs
    split at hs
    · rename_i he; subst he; exact h.lt hf
    · exact h.pend i s hs
  · intro i j hm
    rw [refs_bind] at hm
    split at hm
    · rename_i he
      subst he
      simp only [List.mem_singleton] at hm
      subst hm
      refine ⟨hg, ?_⟩
      simp only [if_neg hno, if_pos (Reach.refl (u := u) i)]
      omega
    · have hj := hr i j hm
      refine ⟨hj.1, ?_⟩
      have hr' : Reach u j f → Reach u i f := fun hh => .step hm hh
      by_cases h1 : Reach u j f
      · simp only [if_pos h1, if_pos (hr' h1)]; omega
      · simp only [if_neg h1]; have := hj.2; split <;> omega

/-- How many types are not known. -/
def inferCount (u : Unifier) : Nat := (List.range u.slots.length).countP fun i => u.get i == some .infer

theorem inferCount_bind {u : Unifier} {f g} (h : WF u) (hf : u.get f = some .infer) :
    inferCount (u.bind f g) < inferCount u := by
  have hlt := h.lt hf
  unfold inferCount
  show (List.range u.slots.length).countP _ < _
  have hmem : f ∈ List.range u.slots.length := List.mem_range.mpr hlt
  have hle : ∀ i, ((u.bind f g).get i == some .infer) = true → (u.get i == some .infer) = true := by
    intro i
    rw [get_bind]
    split <;> simp
  have hf1 : (u.get f == some Slot.infer) = true := by simp [hf]
  have hf2 : ((u.bind f g).get f == some Slot.infer) = false := by simp [get_bind]
  revert hmem
  generalize List.range u.slots.length = l
  intro hmem
  induction l with
  | nil => cases hmem
  | cons a l ih =>
    have hl : l.countP (fun i => (u.bind f g).get i == some .infer) ≤ l.countP (fun i => u.get i == some .infer) :=
      List.countP_mono_left fun i _ => hle i
    rw [List.countP_cons, List.countP_cons]
    by_cases ha : a = f
    · subst ha; simp only [hf1, hf2]; simp; omega
    · have hmem' : f ∈ l := by
        rcases List.mem_cons.mp hmem with h | h
        · exact absurd h.symm ha
        · exact h
      have := ih hmem'
      have ha' := hle a
      split <;> split <;> first | omega | simp_all

/-- The size of a tree. -/
def Term.size : Term → Nat
  | .apply a b => a.size + b.size + 1
  | .fn a b => a.size + b.size + 1
  | .folded a b => a.size + b.size + 1
  | _ => 0

theorem reach_size {u : Unifier} {θ} (hθ : Sat u θ) {i v} (h : Reach u i v) : (θ v).size ≤ (θ i).size := by
  induction h with
  | refl => exact Nat.le_refl _
  | @step i j k hm _ ih =>
    refine Nat.le_trans ih ?_
    have := hθ i
    unfold Unifier.refs at hm
    split at hm
    · rename_i k' hg; simp only [hg] at this; simp only [List.mem_singleton] at hm; subst hm; rw [this]; exact Nat.le_refl _
    · rename_i t hg
      simp only [hg] at this
      rw [this]
      cases t <;> simp only [Ty.refs, List.mem_cons, List.not_mem_nil, or_false, Ty.under, Term.size] at hm ⊢
      all_goals rcases hm with rfl | rfl <;> omega
    · cases hm

/-- A type that properly contains `v` is larger than `v`, so it is not equal to it. -/
theorem reach_ne {u : Unifier} {θ} (hθ : Sat u θ) {i v} (h : Reach u i v) (hne : i ≠ v)
    (hfin : u.get i = some .infer ∨ ∃ t, u.get i = some (.ty t)) : θ i ≠ θ v := by
  cases h with
  | refl => exact absurd rfl hne
  | @step _ j _ hm hr =>
    have hsz := reach_size hθ hr
    rcases hfin with hg | ⟨t, hg⟩
    · simp [Unifier.refs, hg] at hm
    · have := hθ i
      simp only [hg] at this
      intro he
      have hs : (θ i).size = (θ v).size := by rw [he]
      rw [this] at hs
      simp only [Unifier.refs, hg] at hm
      cases t <;> simp only [Ty.refs, List.mem_cons, List.not_mem_nil, or_false, Ty.under, Term.size] at hm hs
      all_goals rcases hm with rfl | rfl <;> omega

/-! ### `unify` -/

/-- What a run of `unify` guarantees. -/
structure Outcome (u : Unifier) (t1 t2 : Nat) (u' : Unifier) (ok : Bool) : Prop where
  wf : WF u'
  slots : u'.slots = u.slots
  dec : u' = u ∨ inferCount u' < inferCount u
  down : ∀ θ, Sat u' θ → Sat u θ
  sound : ok = true → ∀ θ, Sat u' θ → Compat (θ t1) (θ t2)
  mgu : ∀ θ, Sat u θ → θ t1 = θ t2 → ok = true ∧ Sat u' θ

/-- The same for a list of pairs. -/
structure OutcomeL (u : Unifier) (ps : List (Nat × Nat)) (u' : Unifier) (ok : Bool) : Prop where
  wf : WF u'
  slots : u'.slots = u.slots
  dec : u' = u ∨ inferCount u' < inferCount u
  down : ∀ θ, Sat u' θ → Sat u θ
  sound : ok = true → ∀ θ, Sat u' θ → ∀ p ∈ ps, Compat (θ p.1) (θ p.2)
  mgu : ∀ θ, Sat u θ → (∀ p ∈ ps, θ p.1 = θ p.2) → ok = true ∧ Sat u' θ

theorem unifyAll_spec {f : Unifier → Nat → Nat → Option (Unifier × Bool)}
    (hf : ∀ {u t1 t2 u' ok}, WF u → t1 < u.slots.length → t2 < u.slots.length → f u t1 t2 = some (u', ok) → Outcome u t1 t2 u' ok) :
    ∀ {ps u u' ok}, WF u → (∀ p ∈ ps, p.1 < u.slots.length ∧ p.2 < u.slots.length) →
      unifyAll f ps u = some (u', ok) → OutcomeL u ps u' ok := by
  intro ps
  induction ps with
  | nil =>
    intro u u' ok hw _ h
    simp only [unifyAll, Option.some.injEq, Prod.mk.injEq] at h
    obtain ⟨rfl, rfl⟩ := h
    exact ⟨hw, rfl, .inl rfl, fun _ h => h, fun _ _ _ p hp => (by cases hp), fun _ h _ => ⟨rfl, h⟩⟩
  | cons p ps ih =>
    intro u u' ok hw hb h
    simp only [unifyAll, Option.bind_eq_some_iff] at h
    obtain ⟨⟨u1, ok1⟩, h1, h⟩ := h
    have hp := hb p (by simp)
    have o1 := hf hw hp.1 hp.2 h1
    cases ok1 with
    | false =>
      simp only [Bool.false_eq_true, if_false, Option.some.injEq, Prod.mk.injEq] at h
      obtain ⟨rfl, rfl⟩ := h
      refine ⟨o1.wf, o1.slots, o1.dec, o1.down, fun h => (by cases h), fun θ hθ hh => ?_⟩
      have := (o1.mgu θ hθ (hh p (by simp))).1
      cases this
    | true =>
      simp only [if_true] at h
      have o2 := ih o1.wf (fun q hq => by rw [o1.slots]; exact hb q (by simp [hq])) h
      refine ⟨o2.wf, by rw [o2.slots, o1.slots], ?_, fun θ h => o1.down θ (o2.down θ h), ?_, ?_⟩
      · rcases o2.dec with rfl | h2
        · exact o1.dec
        · rcases o1.dec with rfl | h1
          · exact .inr h2
          · exact .inr (Nat.lt_trans h2 h1)
      · intro hok θ hθ q hq
        rcases List.mem_cons.mp hq with rfl | hq
        · exact o1.sound rfl θ (o2.down θ hθ)
        · exact o2.sound hok θ hθ q hq
      · intro θ hθ hh
        exact o2.mgu θ (o1.mgu θ hθ (hh p (by simp))).2 (fun q hq => hh q (by simp [hq]))

theorem unifyTys_some {a b ps} (h : unifyTys a b = some ps) :
    (∀ p ∈ ps, p.1 ∈ a.refs ∧ p.2 ∈ b.refs) ∧
    (∀ θ, (∀ p ∈ ps, Compat (θ p.1) (θ p.2)) → Compat (a.under θ) (b.under θ)) ∧
    (∀ θ, a.under θ = b.under θ → ∀ p ∈ ps, θ p.1 = θ p.2) := by
  cases a <;> cases b <;> simp only [unifyTys, reduceCtorEq, Option.some.injEq, ite_eq_left_iff] at h <;>
    (try split at h) <;> (try simp only [reduceCtorEq, Option.some.injEq] at h) <;>
    (try subst h) <;> simp_all [Compat, Ty.under, Ty.refs]

theorem unifyTys_none {a b} (h : unifyTys a b = none) (θ : Nat → Term) : a.under θ ≠ b.under θ := by
  cases a <;> cases b <;> simp_all [unifyTys, Ty.under]

/-- Binding an unknown type that does not occur in the other one. -/
theorem outcome_bind {u : Unifier} (hw : WF u) {t1 t2 f g} (hf : u.get f = some .infer) (hg : g < u.slots.length)
    (hno : ¬ Reach u g f) (h : ∀ θ, Sat u θ → (θ t1 = θ t2 ↔ θ f = θ g)) : Outcome u t1 t2 (u.bind f g) true := by
  refine ⟨wf_bind hw hf hg hno, rfl, .inr (inferCount_bind hw hf), fun θ hθ => ((sat_bind hf).mp hθ).1, ?_, ?_⟩
  · intro _ θ hθ
    have := (sat_bind hf).mp hθ
    rw [(h θ this.1).mpr this.2]
    exact Compat.refl _
  · intro θ hθ he
    exact ⟨rfl, (sat_bind hf).mpr ⟨hθ, (h θ hθ).mp he⟩⟩

theorem outcome_fail {u : Unifier} (hw : WF u) {t1 t2} (h : ∀ θ, Sat u θ → θ t1 ≠ θ t2) : Outcome u t1 t2 u false :=
  ⟨hw, rfl, .inl rfl, fun _ h => h, fun h => (by cases h), fun θ hθ he => absurd he (h θ hθ)⟩

theorem unify_spec {n u t1 t2 u' ok} (hw : WF u) (h1 : t1 < u.slots.length) (h2 : t2 < u.slots.length)
    (h : unify n u t1 t2 = some (u', ok)) : Outcome u t1 t2 u' ok := by
  induction n generalizing u t1 t2 u' ok with
  | zero => simp [unify] at h
  | succ n ih =>
    simp only [unify, Option.bind_eq_some_iff] at h
    obtain ⟨f1, hf1, f2, hf2, h⟩ := h
    have F1 := finalIdx_spec hf1
    have F2 := finalIdx_spec hf2
    obtain ⟨r, hr⟩ := hw.rank
    have l1 : f1 < u.slots.length := F1.reach.lt hr h1
    have l2 : f2 < u.slots.length := F2.reach.lt hr h2
    have heq : ∀ θ, Sat u θ → (θ t1 = θ t2 ↔ θ f1 = θ f2) := fun θ hθ => by rw [F1.eq θ hθ, F2.eq θ hθ]
    split at h
    · rename_i he
      subst he
      simp only [Option.some.injEq, Prod.mk.injEq] at h
      obtain ⟨rfl, rfl⟩ := h
      refine ⟨hw, rfl, .inl rfl, fun _ h => h, fun _ θ hθ => ?_, fun _ h _ => ⟨rfl, h⟩⟩
      rw [(heq θ hθ).mpr rfl]; exact Compat.refl _
    · rename_i hne
      simp only [Option.bind_eq_some_iff] at h
      obtain ⟨n1, hn1, n2, hn2, h⟩ := h
      have N1 := normalize_spec F1.fin hn1
      have N2 := normalize_spec F2.fin hn2
      -- the failing occurs check
      have bad : ∀ {f g}, (∀ θ, Sat u θ → (θ t1 = θ t2 ↔ θ f = θ g)) → f ≠ g →
          (u.get g = some .infer ∨ ∃ t, u.get g = some (.ty t)) → Reach u g f → Outcome u t1 t2 u false := by
        intro f g hh hfg hfin hreach
        exact outcome_fail hw fun θ hθ he => reach_ne hθ hreach (Ne.symm hfg) hfin ((hh θ hθ).mp he).symm
      have heq' : ∀ θ, Sat u θ → (θ t1 = θ t2 ↔ θ f2 = θ f1) := fun θ hθ => (heq θ hθ).trans eq_comm
      cases n1 with
      | none =>
        simp only [Option.bind_eq_some_iff] at h N1
        obtain ⟨o, ho, h⟩ := h
        have ho' := occurs_spec N1 ho
        cases o with
        | false =>
          simp only [if_true, Option.some.injEq, Prod.mk.injEq] at h
          obtain ⟨rfl, rfl⟩ := h
          exact outcome_bind hw N1 l2 (fun hh => by simpa using ho'.mpr hh) heq
        | true =>
          have hreach := ho'.mp rfl
          have hfail := bad heq hne F2.fin hreach
          simp only [Bool.true_eq_false, if_false] at h
          cases n2 with
          | some t =>
            simp only [Option.some.injEq, Prod.mk.injEq] at h
            obtain ⟨rfl, rfl⟩ := h
            exact hfail
          | none =>
            -- an unknown type contains nothing else
            simp only at N2
            exfalso
            cases hreach with
            | refl => exact hne rfl
            | step hm _ => simp [Unifier.refs, N2] at hm
      | some a =>
        cases n2 with
        | none =>
          simp only [Option.bind_eq_some_iff] at h N2
          obtain ⟨o, ho, h⟩ := h
          have ho' := occurs_spec N2 ho
          cases o with
          | false =>
            simp only [if_true, Option.some.injEq, Prod.mk.injEq] at h
            obtain ⟨rfl, rfl⟩ := h
            exact outcome_bind hw N2 l1 (fun hh => by simpa using ho'.mpr hh) heq'
          | true =>
            simp only [Bool.true_eq_false, if_false, Option.some.injEq, Prod.mk.injEq] at h
            obtain ⟨rfl, rfl⟩ := h
            exact bad heq' (Ne.symm hne) F1.fin (ho'.mp rfl)
        | some b =>
          simp only at h N1 N2
          have s1 : ∀ θ, Sat u θ → θ f1 = a.under θ := fun θ hθ => by have := hθ f1; simpa [N1] using this
          have s2 : ∀ θ, Sat u θ → θ f2 = b.under θ := fun θ hθ => by have := hθ f2; simpa [N2] using this
          cases hps : unifyTys a b with
          | none =>
            simp only [hps, Option.some.injEq, Prod.mk.injEq] at h
            obtain ⟨rfl, rfl⟩ := h
            refine outcome_fail hw fun θ hθ he => ?_
            have := (heq θ hθ).mp he
            rw [s1 θ hθ, s2 θ hθ] at this
            exact unifyTys_none hps θ this
          | some ps =>
            simp only [hps] at h
            obtain ⟨p1, p2, p3⟩ := unifyTys_some hps
            have o := unifyAll_spec (fun hw h1 h2 h => ih hw h1 h2 h) hw (fun p hp => by
              have := p1 p hp
              exact ⟨(hr f1 _ (by simpa [Unifier.refs, N1] using this.1)).1, (hr f2 _ (by simpa [Unifier.refs, N2] using this.2)).1⟩) h
            refine ⟨o.wf, o.slots, o.dec, o.down, ?_, ?_⟩
            · intro hok θ hθ
              have hθ' := o.down θ hθ
              rw [F1.eq θ hθ', F2.eq θ hθ', s1 θ hθ', s2 θ hθ']
              exact p2 θ (o.sound hok θ hθ)
            · intro θ hθ he
              have := (heq θ hθ).mp he
              rw [s1 θ hθ, s2 θ hθ] at this
              exact o.mgu θ hθ (p3 θ this)

/-! ### Termination -/

theorem unifyAll_mono {f g : Unifier → Nat → Nat → Option (Unifier × Bool)}
    (hfg : ∀ {u a b r}, f u a b = some r → g u a b = some r) : ∀ {ps u r}, unifyAll f ps u = some r → unifyAll g ps u = some r := by
  intro ps
  induction ps with
  | nil => intro u r h; exact h
  | cons p ps ih =>
    intro u r h
    simp only [unifyAll, Option.bind_eq_some_iff] at h ⊢
    obtain ⟨r1, h1, h⟩ := h
    refine ⟨r1, hfg h1, ?_⟩
    split at h
    · rename_i hh; rw [if_pos hh]; exact ih h
    · rename_i hh; rw [if_neg hh]; exact h

theorem unify_mono {n u t1 t2 res} (h : unify n u t1 t2 = some res) : ∀ {m}, n ≤ m → unify m u t1 t2 = some res := by
  induction n generalizing u t1 t2 res with
  | zero => simp [unify] at h
  | succ n ih =>
    intro m hm
    obtain ⟨m, rfl⟩ : ∃ k, m = k + 1 := ⟨m - 1, by omega⟩
    have hnm : n ≤ m := by omega
    simp only [unify, Option.bind_eq_some_iff] at h ⊢
    obtain ⟨f1, hf1, f2, hf2, h⟩ := h
    refine ⟨f1, finalIdx_mono hf1 hnm, f2, finalIdx_mono hf2 hnm, ?_⟩
    split at h
    · rename_i he; rw [if_pos he]; exact h
    · rename_i he
      rw [if_neg he]
      simp only [Option.bind_eq_some_iff] at h ⊢
      obtain ⟨n1, hn1, n2, hn2, h⟩ := h
      refine ⟨n1, normalize_mono hn1 hnm, n2, normalize_mono hn2 hnm, ?_⟩
      cases n1 with
      | none =>
        simp only [Option.bind_eq_some_iff] at h ⊢
        obtain ⟨o, ho, h⟩ := h
        refine ⟨o, occurs_mono ho hnm, ?_⟩
        cases o with
        | false => exact h
        | true =>
          cases n2 with
          | some t => exact h
          | none =>
            simp only [Bool.true_eq_false, if_false, Option.bind_eq_some_iff] at h ⊢
            obtain ⟨o, ho, h⟩ := h
            exact ⟨o, occurs_mono ho hnm, h⟩
      | some a =>
        cases n2 with
        | none =>
          simp only [Option.bind_eq_some_iff] at h ⊢
          obtain ⟨o, ho, h⟩ := h
          exact ⟨o, occurs_mono ho hnm, h⟩
        | some b =>
          simp only at h ⊢
          cases hps : unifyTys a b with
          | none => simp only [hps] at h ⊢; exact h
          | some ps =>
            simp only [hps] at h ⊢
            exact unifyAll_mono (fun h => ih h hnm) h

theorem unify_total {u : Unifier} (hw : WF u) {t1 t2} (h1 : t1 < u.slots.length) (h2 : t2 < u.slots.length) :
    ∃ n r, unify n u t1 t2 = some r := by
  induction hc : inferCount u using Nat.strongRecOn generalizing u t1 t2 with
  | _ c ihc =>
    obtain ⟨r, hr⟩ := hw.rank
    induction hk : r t1 using Nat.strongRecOn generalizing t1 t2 with
    | _ k ihk =>
      obtain ⟨m1, f1, hf1⟩ := finalIdx_total hr h1
      obtain ⟨m2, f2, hf2⟩ := finalIdx_total hr h2
      have F1 := finalIdx_spec hf1
      have F2 := finalIdx_spec hf2
      have l1 : f1 < u.slots.length := F1.reach.lt hr h1
      have l2 : f2 < u.slots.length := F2.reach.lt hr h2
      obtain ⟨m3, o12, ho12⟩ := occurs_total hr f1 l2
      obtain ⟨m4, o21, ho21⟩ := occurs_total hr f2 l1
      have H1 : ∀ m, m1 + m2 + m3 + m4 ≤ m → finalIdx m u t1 = some f1 := fun m hm => finalIdx_mono hf1 (by omega)
      have H2 : ∀ m, m1 + m2 + m3 + m4 ≤ m → finalIdx m u t2 = some f2 := fun m hm => finalIdx_mono hf2 (by omega)
      have H3 : ∀ m, m1 + m2 + m3 + m4 ≤ m → occurs m u f1 f2 = some o12 := fun m hm => occurs_mono ho12 (by omega)
      have H4 : ∀ m, m1 + m2 + m3 + m4 ≤ m → occurs m u f2 f1 = some o21 := fun m hm => occurs_mono ho21 (by omega)
      by_cases he : f1 = f2
      · subst he
        refine ⟨m1 + m2 + m3 + m4 + 1, (u, true), ?_⟩
        simp [unify, H1, H2]
      · -- the two parts of two known types
        have parts : ∀ ps, (∀ p ∈ ps, p.1 ∈ u.refs f1 ∧ p.2 ∈ u.refs f2) → ∃ n res, unifyAll (unify n) ps u = some res := by
          have gen : ∀ (ps : List (Nat × Nat)) (u' : Unifier), WF u' → u'.slots = u.slots → (u' = u ∨ inferCount u' < c) →
              (∀ p ∈ ps, p.1 ∈ u.refs f1 ∧ p.2 ∈ u.refs f2) → ∃ n res, unifyAll (unify n) ps u' = some res := by
            intro ps
            induction ps with
            | nil => intro u' _ _ _ _; exact ⟨0, (u', true), rfl⟩
            | cons p ps ih =>
              intro u' hw' hsl hu' hps
              have hp := hps p (by simp)
              have b1 := hr f1 _ hp.1
              have b2 := hr f2 _ hp.2
              have hfr := F1.reach.rank_le hr
              have ⟨n, res, hn⟩ : ∃ n res, unify n u' p.1 p.2 = some res := by
                rcases hu' with rfl | hlt
                · exact ihk (r p.1) (by omega) b1.1 b2.1 rfl
                · exact ihc _ hlt hw' (by rw [hsl]; exact b1.1) (by rw [hsl]; exact b2.1) rfl
              obtain ⟨u1, ok⟩ := res
              have o := unify_spec hw' (by rw [hsl]; exact b1.1) (by rw [hsl]; exact b2.1) hn
              cases ok with
              | false => exact ⟨n, (u1, false), by simp [unifyAll, hn]⟩
              | true =>
                have hu1 : u1 = u ∨ inferCount u1 < c := by
                  rcases o.dec with h | h
                  · rw [h]; exact hu'
                  · rcases hu' with rfl | h'
                    · exact .inr (by omega)
                    · exact .inr (by omega)
                obtain ⟨n', res', hn'⟩ := ih u1 o.wf (by rw [o.slots, hsl]) hu1 (fun q hq => hps q (by simp [hq]))
                refine ⟨n + n', res', ?_⟩
                simp only [unifyAll, unify_mono hn (show n ≤ n + n' by omega), Option.bind_some, if_true]
                exact unifyAll_mono (fun h => unify_mono h (by omega)) hn'
          exact fun ps => gen ps u hw rfl (.inl rfl)
        rcases F1.fin with g1 | ⟨a, g1⟩
        · -- first unknown
          rcases F2.fin with g2 | ⟨b, g2⟩
          · refine ⟨m1 + m2 + m3 + m4 + 1 + 1, ?_⟩
            simp only [unify, H1 _ (Nat.le_succ _), H2 _ (Nat.le_succ _), H3 _ (Nat.le_succ _), H4 _ (Nat.le_succ _),
              Option.bind_some, if_neg he, normalize_final_infer g1, normalize_final_infer g2]
            cases o12 <;> cases o21 <;> simp
          · refine ⟨m1 + m2 + m3 + m4 + 1 + 1, ?_⟩
            simp only [unify, H1 _ (Nat.le_succ _), H2 _ (Nat.le_succ _), H3 _ (Nat.le_succ _), H4 _ (Nat.le_succ _),
              Option.bind_some, if_neg he, normalize_final_infer g1, normalize_final_ty g2]
            cases o12 <;> simp
        · rcases F2.fin with g2 | ⟨b, g2⟩
          · refine ⟨m1 + m2 + m3 + m4 + 1 + 1, ?_⟩
            simp only [unify, H1 _ (Nat.le_succ _), H2 _ (Nat.le_succ _), H3 _ (Nat.le_succ _), H4 _ (Nat.le_succ _),
              Option.bind_some, if_neg he, normalize_final_ty g1, normalize_final_infer g2]
            cases o21 <;> simp
          · cases hps : unifyTys a b with
            | none =>
              refine ⟨m1 + m2 + m3 + m4 + 1 + 1, (u, false), ?_⟩
              simp only [unify, H1 _ (Nat.le_succ _), H2 _ (Nat.le_succ _), Option.bind_some, if_neg he, normalize_final_ty g1,
                normalize_final_ty g2, hps]
            | some ps =>
              obtain ⟨n, res, hn⟩ := parts ps (fun p hp => by
                have := (unifyTys_some hps).1 p hp
                simpa [Unifier.refs, g1, g2] using this)
              refine ⟨m1 + m2 + m3 + m4 + n + 1 + 1, res, ?_⟩
              rw [unify, H1 _ (by omega), H2 _ (by omega)]
              simp only [Option.bind_some, if_neg he, normalize_final_ty g1, normalize_final_ty g2, hps]
              exact unifyAll_mono (fun h => unify_mono h (by omega)) hn

end Tic.Unify
