import Verif.Interp
/-
C27: which definition is run as `main`.
-/
namespace Tic.Core

/-- `d` is an exported definition called `main`. -/
def IsMain (d : ValueDef) : Prop := d.exportName = some "main"
/-- ... of the right type, string to string. -/
def GoodMain (d : ValueDef) : Prop := IsMain d ∧ d.ty = .fn [.string] .string

theorem isMainTy_iff (t : Ty) : isMainTy t = true ↔ t = .fn [.string] .string := by
  unfold isMainTy
  split <;> simp_all

theorem mainLoop_err (ds : List ValueDef) : ∀ (m : Option Name) (e : MainErr), mainLoop ds m = .error e ↔
    e = .invalidMain ∧ ∃ d ∈ ds, IsMain d ∧ ¬ GoodMain d := by
  induction ds with
  | nil => intro m e; simp [mainLoop]
  | cons d ds ih =>
    intro m e
    unfold mainLoop
    by_cases h1 : d.exportName = some "main"
    · rw [if_pos h1]
      by_cases h2 : isMainTy d.ty = true
      · rw [if_pos h2, ih]
        have : GoodMain d := ⟨h1, (isMainTy_iff _).1 h2⟩
        simp [this]
      · rw [if_neg h2]
        have h3 : ¬ GoodMain d := fun h => h2 ((isMainTy_iff _).2 h.2)
        constructor
        · intro h; cases h; exact ⟨rfl, d, by simp, h1, h3⟩
        · rintro ⟨rfl, -⟩; rfl
    · rw [if_neg h1, ih]
      have : ¬ IsMain d := h1
      simp [this]

theorem mainLoop_ok (ds : List ValueDef) : ∀ (m r : Option Name), mainLoop ds m = .ok r →
    (∃ pre d post, ds = pre ++ d :: post ∧ IsMain d ∧ (∀ d' ∈ post, ¬ IsMain d') ∧ r = some d.name) ∨
    ((∀ d' ∈ ds, ¬ IsMain d') ∧ r = m) := by
  induction ds with
  | nil => intro m r h; cases h; exact .inr ⟨by simp, rfl⟩
  | cons d ds ih =>
    intro m r h
    unfold mainLoop at h
    by_cases h1 : d.exportName = some "main"
    · rw [if_pos h1] at h
      by_cases h2 : isMainTy d.ty = true
      · rw [if_pos h2] at h
        rcases ih _ _ h with ⟨pre, d', post, rfl, a, b, c⟩ | ⟨a, b⟩
        · exact .inl ⟨d :: pre, d', post, rfl, a, b, c⟩
        · exact .inl ⟨[], d, ds, rfl, h1, a, b⟩
      · rw [if_neg h2] at h; cases h
    · rw [if_neg h1] at h
      rcases ih _ _ h with ⟨pre, d', post, rfl, a, b, c⟩ | ⟨a, b⟩
      · exact .inl ⟨d :: pre, d', post, rfl, a, b, c⟩
      · refine .inr ⟨?_, b⟩
        intro d' hd'
        rcases List.mem_cons.1 hd' with rfl | h
        · exact h1
        · exact a d' h

/-- **C27, no main**: reported exactly when nothing called `main` is exported. -/
theorem noMain_iff (defs : List ValueDef) :
    selectMain defs = .error .noMain ↔ ∀ d ∈ defs, ¬ IsMain d := by
  unfold selectMain
  cases h : mainLoop defs.reverse none with
  | error e =>
    obtain ⟨rfl, d, hd, hm, -⟩ := (mainLoop_err _ _ _).1 h
    simp only [reduceCtorEq, Except.error.injEq, false_iff]
    intro h'
    exact h' d (by simpa using hd) hm
  | ok r =>
    rcases mainLoop_ok _ _ _ h with ⟨pre, d, post, he, hm, -, rfl⟩ | ⟨ha, rfl⟩
    · simp only [reduceCtorEq, false_iff]
      intro h'
      refine h' d ?_ hm
      rw [← List.mem_reverse, he]; simp
    · simp only [true_iff]
      intro d hd
      exact ha d (by simpa using hd)

/-- **C27, invalid main**: reported exactly when some exported `main` has another
type, even if another exported `main` has the right type. -/
theorem invalidMain_iff (defs : List ValueDef) :
    selectMain defs = .error .invalidMain ↔ ∃ d ∈ defs, IsMain d ∧ ¬ GoodMain d := by
  unfold selectMain
  cases h : mainLoop defs.reverse none with
  | error e =>
    obtain ⟨rfl, d, hd, hm⟩ := (mainLoop_err _ _ _).1 h
    simp only [true_iff]
    exact ⟨d, by simpa using hd, hm⟩
  | ok r =>
    have hno : ¬ ∃ d ∈ defs, IsMain d ∧ ¬ GoodMain d := by
      rintro ⟨d, hd, hm⟩
      have := (mainLoop_err defs.reverse none .invalidMain).2 ⟨rfl, d, by simpa using hd, hm⟩
      rw [h] at this; cases this
    cases r <;> simp [hno]

/-- **C27, chosen main**: otherwise the *first* exported `main` of the program is
the one that is run, and all exported `main`s have type string to string. -/
theorem selectMain_ok_iff (defs : List ValueDef) (n : Name) :
    selectMain defs = .ok n ↔
      (∀ d ∈ defs, IsMain d → GoodMain d) ∧
      ∃ pre d post, defs = pre ++ d :: post ∧ (∀ d' ∈ pre, ¬ IsMain d') ∧ IsMain d ∧ d.name = n := by
  constructor
  · intro h
    have hinv : ¬ selectMain defs = .error .invalidMain := by rw [h]; simp
    rw [invalidMain_iff] at hinv
    refine ⟨fun d hd hm => Classical.byContradiction fun hg => hinv ⟨d, hd, hm, hg⟩, ?_⟩
    unfold selectMain at h
    cases hl : mainLoop defs.reverse none with
    | error e => rw [hl] at h; cases h
    | ok r =>
      rw [hl] at h
      rcases mainLoop_ok _ _ _ hl with ⟨pre, d, post, he, hm, hp, rfl⟩ | ⟨ha, rfl⟩
      · cases h
        refine ⟨post.reverse, d, pre.reverse, ?_, ?_, hm, rfl⟩
        · rw [← List.reverse_reverse defs, he]; simp
        · intro d' hd'; exact hp d' (by simpa using hd')
      · cases h
  · rintro ⟨hall, pre, d, post, rfl, hpre, hm, rfl⟩
    cases h : selectMain (pre ++ d :: post) with
    | error e =>
      cases e with
      | invalidMain =>
        obtain ⟨d', hd', hm', hg'⟩ := (invalidMain_iff _).1 h
        exact absurd (hall d' hd' hm') hg'
      | noMain => exact absurd hm ((noMain_iff _).1 h d (by simp))
    | ok r =>
      unfold selectMain at h
      cases hl : mainLoop (pre ++ d :: post).reverse none with
      | error e => rw [hl] at h; cases h
      | ok r' =>
        rw [hl] at h
        rcases mainLoop_ok _ _ _ hl with ⟨pre', d2, post', he, hm2, hp2, rfl⟩ | ⟨ha, rfl⟩
        · cases h
          congr 1
          have he' : pre ++ d :: post = post'.reverse ++ d2 :: pre'.reverse := by
            rw [← List.reverse_reverse (pre ++ d :: post), he]; simp
          have hp2' : ∀ x ∈ post'.reverse, ¬ IsMain x := fun x hx => hp2 x (by simpa using hx)
          generalize post'.reverse = q at he' hp2'
          generalize pre'.reverse = q' at he'
          clear hl he hp2 hall
          induction pre generalizing q with
          | nil =>
            cases q with
            | nil => simp at he'; rw [he'.1]
            | cons a q => simp at he'; exact absurd (he'.1 ▸ hm) (hp2' a (by simp))
          | cons a pre ih =>
            cases q with
            | nil => simp at he'; exact absurd (he'.1 ▸ hm2) (hpre a (by simp))
            | cons b q =>
              simp at he'
              exact ih (fun x hx => hpre x (by simp [hx])) q (fun x hx => hp2' x (List.mem_cons_of_mem _ hx)) he'.2
        · cases h

/-- Non-vacuity: of two exported mains the first one is run. -/
example : selectMain [⟨3, none, .int, .int 1⟩, ⟨4, some "main", .fn [.string] .string, .name 0⟩,
    ⟨5, some "main", .fn [.string] .string, .name 1⟩] = .ok 4 := by rfl
example : selectMain [⟨4, some "main", .fn [.string] .string, .name 0⟩, ⟨5, some "main", .int, .name 1⟩] =
    .error .invalidMain := by rfl

/-- **C27, output**: running `main` on an input yields exactly what applying the
chosen definition to that input yields. -/
theorem evalMain_runs (n : Nat) (p : Program) (input : List UInt8) (main : Name) (h : selectMain p.defs = .ok main)
    (out : List UInt8) :
    evalMain n p input = .ok (.ok out) ↔
      ∃ ρ, evalDefs n p.defs [] = .ok ρ ∧ eval n ρ (.call (.name main) [.str input]) = .ok (.str out) := by
  unfold evalMain
  simp only [h, evalProgram, Except.ok.injEq, Res.bind_eq_ok, evalList, mainExpr]
  constructor
  · rintro ⟨vs, ⟨ρ, hρ, v, hv, _, h1, h2⟩, hs⟩
    cases h1; cases h2
    refine ⟨ρ, hρ, ?_⟩
    cases v <;> simp [Val.intoStr] at hs
    rw [hv, hs]
  · rintro ⟨ρ, hρ, hv⟩
    exact ⟨[.str out], ⟨ρ, hρ, _, hv, _, rfl, rfl⟩, rfl⟩

end Tic.Core
