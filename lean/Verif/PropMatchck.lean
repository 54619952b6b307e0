import Verif.Matchck
/-
C17: a match accepted without diagnostics covers every constructor exactly once.
-/
namespace Tic.Matchck

/-! ### Helpers -/

theorem loop_spec (all : List Nat) (cs : List Nat) (idx : Nat) (missing : List Nat) (diags : List Diag)
    (hm : ∀ c ∈ missing, c ∈ all) :
    ∃ d, loop all (cs.map some) idx missing diags
        = (some (missing.filter (fun c => !cs.contains c), diags ++ d), diags ++ d) ∧
      (d = [] ↔ ∀ c ∈ all, cs.count c ≤ (if c ∈ missing then 1 else 0)) ∧
      (∀ x ∈ d, ∃ i, x = .unreachable i) := by
  induction cs generalizing idx missing diags with
  | nil =>
    refine ⟨[], by simp [loop, List.filter_eq_self.2], by simp, by simp⟩
  | cons s cs ih =>
    simp only [List.map_cons, loop]
    by_cases hs : s ∈ all
    · have hc : all.contains s = true := by simpa using hs
      simp only [hc, Bool.not_true, Bool.false_eq_true, if_false]
      have hsub : ∀ c ∈ missing.filter (· != s), c ∈ all := fun c h => hm c (List.mem_filter.1 h).1
      have hfil : (missing.filter (· != s)).filter (fun c => !cs.contains c)
          = missing.filter (fun c => !(s :: cs).contains c) := by
        rw [List.filter_filter]
        apply List.filter_congr
        intro c _
        by_cases hcs : c = s <;> simp [hcs]
      by_cases hms : s ∈ missing
      · have hmc : missing.contains s = true := by simpa using hms
        simp only [hmc, Bool.not_true, Bool.false_eq_true, if_false]
        obtain ⟨d, h1, h2, h3⟩ := ih (idx + 1) (missing.filter (· != s)) diags hsub
        refine ⟨d, by rw [h1, hfil], ?_, h3⟩
        rw [h2]
        constructor
        · intro h c hc'
          have := h c hc'
          by_cases hcs : c = s
          · subst hcs
            simp at this ⊢
            simp [hms, this]
          · rw [List.count_cons_of_ne (Ne.symm hcs)]
            simpa [hcs] using this
        · intro h c hc'
          have := h c hc'
          by_cases hcs : c = s
          · subst hcs
            simp [hms] at this
            simp [this]
          · rw [List.count_cons_of_ne (Ne.symm hcs)] at this
            simpa [hcs] using this
      · have hmc : missing.contains s = false := by simpa using hms
        simp only [hmc, Bool.not_false, if_true]
        obtain ⟨d, h1, h2, h3⟩ := ih (idx + 1) (missing.filter (· != s)) (diags ++ [.unreachable idx]) hsub
        refine ⟨.unreachable idx :: d, by rw [h1, hfil]; simp, ?_, ?_⟩
        · constructor
          · intro h; cases h
          · intro h
            have := h s hs
            simp [hms] at this
        · intro x hx
          rcases List.mem_cons.1 hx with rfl | hx
          · exact ⟨_, rfl⟩
          · exact h3 x hx
    · have hc : all.contains s = false := by simpa using hs
      simp only [hc, Bool.not_false, if_true]
      obtain ⟨d, h1, h2, h3⟩ := ih (idx + 1) missing diags hm
      refine ⟨d, ?_, ?_, h3⟩
      · rw [h1]
        have : missing.filter (fun c => !cs.contains c) = missing.filter (fun c => !(s :: cs).contains c) := by
          apply List.filter_congr
          intro c hc'
          have : c ≠ s := fun h => hs (h ▸ hm c hc')
          simp [this]
        rw [this]
      · rw [h2]
        constructor
        · intro h c hc'
          have hne : c ≠ s := fun h => hs (h ▸ hc')
          rw [List.count_cons_of_ne (Ne.symm hne)]; exact h c hc'
        · intro h c hc'
          have hne : c ≠ s := fun h => hs (h ▸ hc')
          have := h c hc'
          rwa [List.count_cons_of_ne (Ne.symm hne)] at this

theorem report_nil {l : List Nat} : report l = [] ↔ l = [] := by
  rcases l with _ | ⟨a, _ | ⟨b, _ | ⟨c, l⟩⟩⟩ <;> simp [report]

theorem loop_none (all : List Nat) (cases : List (Option Nat)) (h : none ∈ cases) (idx missing diags) :
    (loop all cases idx missing diags).1 = none := by
  induction cases generalizing idx missing diags with
  | nil => simp at h
  | cons c cs ih =>
    cases c with
    | none => rfl
    | some s =>
      have h' : none ∈ cs := by simpa using h
      simp only [loop]
      split
      · exact ih h' _ _ _
      · exact ih h' _ _ _

/-! ### Theorems -/

/-- A match whose cases all have resolved constructors `cs`, on a type whose
constructors are `all`, gets no diagnostic exactly when every constructor of the
type is handled by exactly one case. -/
theorem accepted_iff_each_once (all cs : List Nat) :
    (check (.named (.list all)) (cs.map some)).1 = [] ↔ ∀ c ∈ all, cs.count c = 1 := by
  obtain ⟨d, h1, h2, -⟩ := loop_spec all cs 0 all [] (fun c h => h)
  simp only [check, h1, List.nil_append, List.append_eq_nil_iff, report_nil, h2,
    List.filter_eq_nil_iff]
  constructor
  · rintro ⟨ha, hb⟩ c hc
    have h3 := ha c hc
    have h4 := hb c hc
    simp only [hc, if_true] at h3
    simp at h4
    have := List.count_pos_iff.2 h4
    omega
  · intro h
    refine ⟨fun c hc => by simp [hc, h c hc], fun c hc => ?_⟩
    have : c ∈ cs := List.count_pos_iff.1 (by rw [h c hc]; omega)
    simpa using this

/-- The check always runs to the end on resolved cases, and the diagnostics are
unreachable-pattern errors followed by one report about the constructors no case
handles, in declaration order. -/
theorem diagnostics_shape (all cs : List Nat) :
    ∃ d, check (.named (.list all)) (cs.map some)
        = (d ++ report (all.filter fun c => !cs.contains c), true) ∧
      (∀ x ∈ d, ∃ i, x = .unreachable i) ∧
      (d = [] ↔ ∀ c ∈ all, cs.count c ≤ 1) := by
  obtain ⟨d, h1, h2, h3⟩ := loop_spec all cs 0 all [] (fun c h => h)
  refine ⟨d, by simp [check, h1], h3, ?_⟩
  rw [h2]
  constructor
  · intro h c hc; have := h c hc; simpa [hc] using this
  · intro h c hc; have := h c hc; simpa [hc] using this

/-- If a constructor is not handled, an error naming the first unhandled
constructor is reported, with the number of the remaining ones. -/
theorem missing_reported (all cs : List Nat) (c : Nat) (hc : c ∈ all) (hn : c ∉ cs) :
    ∃ first rest, (all.filter fun c => !cs.contains c) = first :: rest ∧
      ((rest = [] ∧ .missing1 first ∈ (check (.named (.list all)) (cs.map some)).1) ∨
       (∃ second, rest = [second] ∧ .missing2 first second ∈ (check (.named (.list all)) (cs.map some)).1) ∨
       (2 ≤ rest.length ∧ .missingMany first rest.length ∈ (check (.named (.list all)) (cs.map some)).1)) := by
  obtain ⟨d, h1, -, -⟩ := diagnostics_shape all cs
  have hmem : c ∈ all.filter fun c => !cs.contains c := by simp [hc, hn]
  rw [h1]
  rcases hl : (all.filter fun c => !cs.contains c) with _ | ⟨a, _ | ⟨b, _ | ⟨e, l⟩⟩⟩
  · rw [hl] at hmem; simp at hmem
  · exact ⟨a, [], rfl, .inl ⟨rfl, by simp [report]⟩⟩
  · exact ⟨a, [b], rfl, .inr (.inl ⟨b, rfl, by simp [report]⟩)⟩
  · exact ⟨a, b :: e :: l, rfl, .inr (.inr ⟨by simp, by simp [report]⟩)⟩

/-- The only ways to get no diagnostic at all: an ill-formed match (error already
reported elsewhere: no scrutinee type, an error type, or a case whose constructor
is missing or unresolved), or full coverage. -/
theorem silent_cases (scrut : Scrutinee) (cases : List (Option Nat))
    (h : (check scrut cases).1 = []) :
    scrut = .error ∨ scrut = .missing ∨ none ∈ cases ∨
      ∃ all, scrut = .named (.list all) ∧ ∀ c ∈ all, cases.count (some c) = 1 := by
  cases scrut with
  | error => exact .inl rfl
  | missing => exact .inr (.inl rfl)
  | other => simp [check] at h
  | named cts =>
    cases cts with
    | opaq => simp [check] at h
    | list all =>
      by_cases hn : none ∈ cases
      · exact .inr (.inr (.inl hn))
      · right; right; right
        refine ⟨all, rfl, ?_⟩
        obtain ⟨cs, rfl⟩ : ∃ cs : List Nat, cases = cs.map some := by
          clear h
          induction cases with
          | nil => exact ⟨[], rfl⟩
          | cons c cases ih =>
            cases c with
            | none => simp at hn
            | some s =>
              obtain ⟨cs, rfl⟩ := ih (by simpa using hn)
              exact ⟨s :: cs, rfl⟩
        intro c hc
        have := (accepted_iff_each_once all cs).1 h c hc
        rw [← this]
        clear this h hn hc
        induction cs with
        | nil => rfl
        | cons x xs ih =>
          simp only [List.map_cons, List.count_cons, ih]
          by_cases hx : x = c <;> simp [hx]

-- Non-vacuity.
example : (check (.named (.list [3, 5, 7])) ([7, 3, 5].map some)).1 = [] := by decide
example : check (.named (.list [3, 5, 7, 9])) ([5, 5].map some)
    = ([.unreachable 1, .missingMany 3 2], true) := by decide

end Tic.Matchck
