import Verif.PropKinds
import Verif.Typing
/-
Invariants of the unifier while the type checker runs on resolved, kind-checked items: every type
has the right number of arguments and none is the error type.
-/
namespace Tic.Front
open Tic.Unify

/-- Slot `i` is consistent with the number of arguments `ar` each type still takes. -/
def SlotOK (count : Symbol → Nat) (ar : Nat → Nat) (i : Nat) : Slot → Prop
  | .infer => ar i = 0
  | .next j => ar i = ar j
  | .ty .int => ar i = 0
  | .ty .bool => ar i = 0
  | .ty .str => ar i = 0
  | .ty (.named s) => ar i = count s
  | .ty (.apply a b) => ar a = ar i + 1 ∧ ar b = 0
  | .ty (.fn a b) => ar i = 0 ∧ ar a = 0 ∧ ar b = 0
  | .ty (.folded a b) => ar i = 0 ∧ ar a = 0 ∧ ar b = 0
  | .ty .error => False

/-- ... all slots. -/
def SlotsOK (count : Symbol → Nat) (u : Unifier) (ar : Nat → Nat) : Prop :=
  ∀ i s, u.get i = some s → SlotOK count ar i s

theorem finalIdx_ar {count ar n u i j} (hs : SlotsOK count u ar) (h : finalIdx n u i = some j) : ar i = ar j := by
  induction n generalizing i with
  | zero => simp [finalIdx] at h
  | succ n ih =>
    simp only [finalIdx] at h
    split at h
    · cases h; rfl
    · cases h; rfl
    · rename_i k hg; rw [← ih h]; exact hs i _ hg
    · cases h

theorem slots_bind {count ar} {u : Unifier} {f g} (hs : SlotsOK count u ar) (hf : ar f = ar g) : SlotsOK count (u.bind f g) ar := by
  intro i s h
  rw [get_bind] at h
  by_cases hi : i = f
  · rw [if_pos hi] at h; cases h; rw [hi]; exact hf
  · rw [if_neg hi] at h; exact hs i s h

theorem unifyTys_ar {count ar f1 f2 x y ps} (h1 : SlotOK count ar f1 (.ty x)) (h2 : SlotOK count ar f2 (.ty y)) (he : ar f1 = ar f2)
    (h : unifyTys x y = some ps) : ∀ p ∈ ps, ar p.1 = ar p.2 := by
  cases x <;> cases y <;> simp only [unifyTys, SlotOK] at h h1 h2
  all_goals first
    | (cases h; done)
    | (exact h1.elim)
    | (exact h2.elim)
    | (cases h; intro p hp; simp at hp; rcases hp with rfl | rfl <;> simp <;> omega)
    | (split at h <;> cases h; simp)
    | (cases h; simp)

/-- Unifying types that take equally many arguments keeps the slots consistent. -/
theorem unify_slots {count ar n u a b u' ok} (hw : WF u) (ha : a < u.slots.length) (hb : b < u.slots.length)
    (hs : SlotsOK count u ar) (hab : ar a = ar b)
    (h : unify n u a b = some (u', ok)) : SlotsOK count u' ar := by
  induction n generalizing u a b u' ok with
  | zero => simp [Tic.Unify.unify] at h
  | succ n ih =>
    simp only [Tic.Unify.unify, Option.bind_eq_some_iff] at h
    obtain ⟨f1, hf1, f2, hf2, h⟩ := h
    have F1 := finalIdx_spec hf1
    have F2 := finalIdx_spec hf2
    have A1 := finalIdx_ar hs hf1
    have A2 := finalIdx_ar hs hf2
    have A : ar f1 = ar f2 := by omega
    obtain ⟨r, hr⟩ := hw.rank
    split at h
    · cases h; exact hs
    · simp only [Option.bind_eq_some_iff] at h
      obtain ⟨n1, hn1, n2, hn2, h⟩ := h
      have N1 := normalize_spec F1.fin hn1
      have N2 := normalize_spec F2.fin hn2
      cases n1 with
      | none =>
        simp only [Option.bind_eq_some_iff] at h N1
        obtain ⟨o, -, h⟩ := h
        cases o with
        | false => cases h; exact slots_bind hs A
        | true =>
          cases n2 with
          | some t => cases h; exact hs
          | none =>
            simp only [Bool.true_eq_false, if_false, Option.bind_eq_some_iff] at h N2
            obtain ⟨o, -, h⟩ := h
            cases o with
            | false => cases h; exact slots_bind hs A.symm
            | true => cases h; exact hs
      | some x =>
        cases n2 with
        | none =>
          simp only [Option.bind_eq_some_iff] at h N2
          obtain ⟨o, -, h⟩ := h
          cases o with
          | false => cases h; exact slots_bind hs A.symm
          | true => cases h; exact hs
        | some y =>
          simp only at h N1 N2
          cases hps : unifyTys x y with
          | none => simp only [hps] at h; cases h; exact hs
          | some ps =>
            simp only [hps] at h
            have p1 := (unifyTys_some hps).1
            have hb : ∀ p ∈ ps, p.1 < u.slots.length ∧ p.2 < u.slots.length := fun p hp =>
              ⟨(hr f1 _ (by simpa [Unifier.refs, N1] using (p1 p hp).1)).1, (hr f2 _ (by simpa [Unifier.refs, N2] using (p1 p hp).2)).1⟩
            have hpa := unifyTys_ar (hs _ _ N1) (hs _ _ N2) A hps
            clear p1 hps N1 N2 F1 F2 hf1 hf2 hn1 hn2 hr A1 A2 A hab ha
            induction ps generalizing u u' ok with
            | nil => simp only [unifyAll] at h; cases h; exact hs
            | cons p ps ihp =>
              simp only [unifyAll, Option.bind_eq_some_iff] at h
              obtain ⟨⟨u1, ok1⟩, h1, h⟩ := h
              have hp := hb p (by simp)
              have o1 := unify_spec hw hp.1 hp.2 h1
              have e1 := ih hw hp.1 hp.2 hs (hpa p (by simp)) h1
              cases ok1 with
              | false => cases h; exact e1
              | true =>
                simp only [if_true] at h
                exact ihp o1.wf (by rw [o1.slots]; omega) e1 h
                  (fun q hq => by rw [o1.slots]; exact hb q (by simp [hq])) (fun q hq => hpa q (by simp [hq]))

/-- The unifier is in a reachable state with consistent slots. -/
structure Good (count : Symbol → Nat) (u : Unifier) (ar : Nat → Nat) : Prop where
  reach : KReachable u
  slots : SlotsOK count u ar

/-- Going from one state of the unifier to a later one. -/
structure Evo (count : Symbol → Nat) (u : Unifier) (ar : Nat → Nat) (u' : Unifier) (ar' : Nat → Nat) : Prop where
  good : Good count u' ar'
  len : u.slots.length ≤ u'.slots.length
  agree : ∀ i, i < u.slots.length → ar' i = ar i
  sat : ∀ θ, Sat u' θ → Sat u θ

theorem Evo.refl {count u ar} (h : Good count u ar) : Evo count u ar u ar :=
  ⟨h, Nat.le_refl _, fun _ _ => rfl, fun _ h => h⟩

theorem Evo.trans {count a ra b rb c rc} (h : Evo count a ra b rb) (h' : Evo count b rb c rc) : Evo count a ra c rc :=
  ⟨h'.good, Nat.le_trans h.len h'.len, fun i hi => by rw [h'.agree i (Nat.lt_of_lt_of_le hi h.len), h.agree i hi],
    fun θ hθ => h.sat θ (h'.sat θ hθ)⟩

/-- A type that takes no more arguments. -/
def Typ (u : Unifier) (ar : Nat → Nat) (i : Nat) : Prop := i < u.slots.length ∧ ar i = 0

theorem Evo.typ {count a ra b rb} (h : Evo count a ra b rb) {i} (hi : Typ a ra i) : Typ b rb i :=
  ⟨Nat.lt_of_lt_of_le hi.1 h.len, by rw [h.agree i hi.1]; exact hi.2⟩

/-- `ar` with one more slot. -/
def arSet (ar : Nat → Nat) (i k : Nat) : Nat → Nat := fun j => if j = i then k else ar j

theorem refs_lt {count u ar} (h : Good count u ar) {i j} (hm : j ∈ u.refs i) : j < u.slots.length := by
  obtain ⟨r, hr⟩ := (reachable_wf h.reach.reach).1.rank
  exact (hr i j hm).1

theorem slotOK_arSet {count ar i k l s} (hi : i ≠ l) (hr : ∀ j, (match s with | .next j' => j = j' | .ty t => j ∈ Ty.refs t | .infer => False) → j ≠ l)
    (h : SlotOK count ar i s) : SlotOK count (arSet ar l k) i s := by
  cases s with
  | infer => simpa [SlotOK, arSet, hi] using h
  | next j => simpa [SlotOK, arSet, hi, hr j rfl] using h
  | ty t =>
    cases t <;> simp only [SlotOK, arSet, if_neg hi] at h ⊢ <;> try exact h
    all_goals
      rename_i a b
      rw [if_neg (hr a (by simp [Ty.refs])), if_neg (hr b (by simp [Ty.refs]))]
      exact h

theorem good_push {count u ar} (h : Good count u ar) {s k} (hr : KReachable { u with slots := u.slots ++ [s] })
    (hrefs : ∀ j, (match s with | .next j' => j = j' | .ty t => j ∈ Ty.refs t | .infer => False) → j < u.slots.length)
    (hs : SlotOK count (arSet ar u.slots.length k) u.slots.length s) :
    Evo count u ar { u with slots := u.slots ++ [s] } (arSet ar u.slots.length k) := by
  have hp := (reachable_wf h.reach.reach).2
  have hw := (reachable_wf h.reach.reach).1
  refine ⟨⟨hr, ?_⟩, by simp, fun i hi => by simp only [arSet]; rw [if_neg (by omega)], ?_⟩
  · intro i t hg
    rw [get_push hp] at hg
    by_cases hi : i = u.slots.length
    · rw [if_pos hi] at hg; cases hg; subst hi; exact hs
    · rw [if_neg hi] at hg
      refine slotOK_arSet hi (fun j hj => ?_) (h.slots i t hg)
      refine Nat.ne_of_lt (refs_lt h (i := i) (j := j) ?_)
      cases t with
      | infer => exact hj.elim
      | next j' => simp [Unifier.refs, hg, hj]
      | ty t => simpa [Unifier.refs, hg] using hj
  · intro θ hθ i
    have h1 := hθ i
    rw [get_push hp] at h1
    by_cases hi : i = u.slots.length
    · have : u.get i = none := by
        rw [get_committed hp, hi]; simp
      rw [this]; trivial
    · rw [if_neg hi] at h1; exact h1

theorem evo_fresh {count u ar} (h : Good count u ar) :
    ∃ ar', Evo count u ar u.freshVar.1 ar' ∧ Typ u.freshVar.1 ar' u.freshVar.2 := by
  refine ⟨_, good_push h (k := 0) (.fresh h.reach) (fun j hj => hj.elim) (by simp [SlotOK, arSet]), ?_, ?_⟩
  · simp [Unifier.freshVar]
  · simp [Unifier.freshVar, arSet]

/-- The arguments a type under construction takes. -/
theorem evo_alloc {count u ar} (h : Good count u ar) {t : Ty} {k} (ht : ∀ j ∈ Ty.refs t, j < u.slots.length)
    (hk : ∀ a b, t = .apply a b → (∃ s, u.get a = some (.ty (.named s))) ∨ (∃ c d, u.get a = some (.ty (.apply c d))))
    (hs : SlotOK count (arSet ar u.slots.length k) u.slots.length (.ty t)) :
    ∃ ar', Evo count u ar (u.allocate t).1 ar' ∧ (u.allocate t).2 < (u.allocate t).1.slots.length ∧ ar' (u.allocate t).2 = k ∧
      ∀ θ, Sat (u.allocate t).1 θ → θ (u.allocate t).2 = t.under θ := by
  refine ⟨_, good_push h (k := k) (.alloc h.reach ht hk) (fun j hj => ht j hj) hs, ?_, ?_, ?_⟩
  · simp [Unifier.allocate]
  · simp [Unifier.allocate, arSet]
  · intro θ hθ
    exact sat_get_ty hθ (grows_alloc h.reach.reach ht).2.2

/-- Unifying two types. -/
theorem evo_unify {count u ar n a b u' ok} (h : Good count u ar) (ha : a < u.slots.length) (hb : b < u.slots.length) (hab : ar a = ar b)
    (hu : unifyTop n u a b = some (u', ok)) : Evo count u ar u' ar := by
  have hw := (reachable_wf h.reach.reach).1
  refine ⟨⟨.unify h.reach ha hb hu, ?_⟩, ?_, fun _ _ => rfl, unify_keeps h.reach.reach ha hb hu⟩
  · obtain ⟨u1, h1, rfl⟩ := unifyTop_cases hu
    have o := unify_spec hw ha hb h1
    have := unify_slots hw ha hb h.slots hab h1
    cases ok with
    | true =>
      intro i s hg
      simp only [if_true] at hg
      rw [get_commit o.wf] at hg
      exact this i s hg
    | false =>
      have hp := (reachable_wf h.reach.reach).2
      have : u1.rollback = u := by
        have := o.slots
        cases u; cases u1
        simp_all [Unifier.rollback]
      simp only [Bool.false_eq_true, if_false, this]
      exact h.slots
  · exact Nat.le_of_eq (unify_length h.reach.reach ha hb hu).symm

end Tic.Front
