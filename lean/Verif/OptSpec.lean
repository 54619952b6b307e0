import Verif.Passes
/-
Specification vocabulary for the optimizer theorems: well-named programs and what
may be asked of a program, plus the lifting of expression passes to programs.
-/
namespace Tic.Core

/-- Well-named programs, as the code generator produces them and the verifier
(`ticc-core/src/verify.rs:60-126`) insists on: every name is bound once in the whole
program, a definition mentions only earlier definitions and its own binders,
recursive definitions are functions and no match has two branches for one constructor
(the last two are not checked by the verifier: the first is how the code generator makes
recursive definitions, `gen_core.rs`, the second is checked in the source program, C17). -/
structure WellNamed (p : Program) : Prop where
  uniq : (p.defs.flatMap fun d => d.name :: binders d.value).Nodup
  scope : ∀ pre d post, p.defs = pre ++ d :: post → ∀ x, Free x d.value → x ∈ pre.map (·.name)
  recs : ∀ d ∈ p.defs, WellShaped d.value

/-- `es` mention only definitions of the program. -/
def Asks (p : Program) (es : List Expr) : Prop := ∀ e ∈ es, ∀ x, Free x e → x ∈ p.defs.map (·.name)

/-- `es` mention only exported definitions of the program. -/
def AsksExported (p : Program) (es : List Expr) : Prop :=
  ∀ e ∈ es, ∀ x, Free x e → ∃ d ∈ p.defs, d.name = x ∧ d.exportName.isSome = true

/-- Running the passes' `for v in &mut program.defs` loop with a stateless function. -/
def mapDefs (g : Expr → Expr) (p : Program) : Program :=
  { p with defs := p.defs.map fun d => { d with value := g d.value } }

/-- A final expression that says nothing. -/
abbrev unit : Expr := .bool true

theorem good_unit (X : List Name) : Good X unit :=
  ⟨by simp [cnt, binders], by simp [cnt, binders], by simp [Free], by
    rw [wellShaped_iff]; simp [children, NodeOK]⟩

theorem good_let {X : List Name} {n : Name} {v e : Expr} : Good X (.let_ n v e) ↔
    Good X v ∧ Good (n :: X) e ∧ n ∉ X ∧ cnt n v = 0 ∧ ∀ y, cnt y v + cnt y e ≤ 1 := by
  have hc : ∀ y, cnt y (.let_ n v e) = (if n = y then 1 else 0) + (cnt y v + cnt y e) := by
    intro y; rw [cnt_eq]; simp [own, children, List.count_cons, beq_iff_eq]
  constructor
  · intro h
    refine ⟨h.child (c := ([], v)) (by simp [children]), h.child (c := ([n], e)) (by simp [children]), ?_, ?_, ?_⟩
    · intro hn; have := h.disj n hn; rw [hc] at this; simp at this
    · have := h.uniq n; rw [hc] at this; simp at this; omega
    · intro y; have := h.uniq y; rw [hc] at this; omega
  · rintro ⟨h1, h2, h3, h4, h5⟩
    refine ⟨fun y => ?_, fun y hy => ?_, fun x hx => ?_, ?_⟩
    · rw [hc]
      have h6 := h5 y
      by_cases hn : n = y
      · subst hn
        have := h2.disj n (by simp)
        simp; omega
      · simp [hn]; omega
    · rw [hc]
      have := h1.disj y hy
      have := h2.disj y (by simp [hy])
      have : n ≠ y := fun hn => h3 (hn ▸ hy)
      simp [this]; omega
    · rcases hx with hx | ⟨hn, hx⟩
      · exact h1.scope x hx
      · rcases List.mem_cons.1 (h2.scope x hx) with h | h
        · exact absurd h hn
        · exact h
    · rw [wellShaped_iff]
      refine ⟨trivial, ?_⟩
      intro c hc
      simp [children] at hc
      rcases hc with rfl | rfl
      · exact h1.recs
      · exact h2.recs

theorem cnt_let (y n : Name) (v e : Expr) : cnt y (.let_ n v e) = (if n = y then 1 else 0) + (cnt y v + cnt y e) := by
  rw [cnt_eq]; simp [own, children, List.count_cons, beq_iff_eq]

theorem cnt_lets (ds : List ValueDef) (y : Name) :
    cnt y (lets (defPairs ds) unit) = (ds.flatMap fun d => d.name :: binders d.value).count y := by
  induction ds with
  | nil => rfl
  | cons d ds ih =>
    simp only [defPairs, List.map_cons, lets, cnt_let, List.flatMap_cons, List.count_append, List.count_cons]
    rw [← ih, defPairs]
    simp only [cnt, beq_iff_eq]
    omega

theorem good_lets {ds : List ValueDef} : ∀ {X : List Name}, Good X (lets (defPairs ds) unit) ↔
    (∀ y, (ds.flatMap fun d => d.name :: binders d.value).count y ≤ 1) ∧
    (∀ y ∈ X, (ds.flatMap fun d => d.name :: binders d.value).count y = 0) ∧
    (∀ pre d post, ds = pre ++ d :: post → ∀ x, Free x d.value → x ∈ pre.map (·.name) ++ X) ∧
    (∀ d ∈ ds, WellShaped d.value) := by
  induction ds with
  | nil => intro X; simp [defPairs, lets, good_unit]
  | cons d ds ih =>
    intro X
    have hcnt := cnt_lets (d :: ds)
    simp only [defPairs, List.map_cons, lets] at hcnt
    simp only [defPairs, List.map_cons, lets]
    constructor
    · intro h
      obtain ⟨h1, h2, h3, h4, h5⟩ := good_let.1 h
      rw [← defPairs, ih] at h2
      refine ⟨fun y => ?_, fun y hy => ?_, ?_, ?_⟩
      · rw [← hcnt]; exact h.uniq y
      · rw [← hcnt]; exact h.disj y hy
      · intro pre d' post he x hx
        cases pre with
        | nil =>
          simp only [List.nil_append, List.cons.injEq] at he
          obtain ⟨rfl, rfl⟩ := he
          simpa using h1.scope x hx
        | cons a pre =>
          simp only [List.cons_append, List.cons.injEq] at he
          obtain ⟨rfl, he⟩ := he
          have := h2.2.2.1 pre d' post he x hx
          simp at this ⊢
          rcases this with h | h | h
          · exact .inr (.inl h)
          · exact .inl h
          · exact .inr (.inr h)
      · intro d' hd'
        rcases List.mem_cons.1 hd' with rfl | h
        · exact h1.recs
        · exact h2.2.2.2 d' h
    · rintro ⟨h1, h2, h3, h4⟩
      have hsplit : ∀ y, ((d :: ds).flatMap fun d => d.name :: binders d.value).count y =
          (if d.name = y then 1 else 0) + cnt y d.value + (ds.flatMap fun d => d.name :: binders d.value).count y := by
        intro y
        simp only [List.flatMap_cons, List.count_append, List.count_cons, cnt, beq_iff_eq]; omega
      rw [good_let]
      refine ⟨⟨fun y => ?_, fun y hy => ?_, fun x hx => ?_, h4 d (by simp)⟩, ?_, ?_, ?_, fun y => ?_⟩
      · have := h1 y; rw [hsplit] at this; omega
      · have := h2 y hy; rw [hsplit] at this; omega
      · simpa using h3 [] d ds rfl x hx
      · rw [← defPairs, ih]
        refine ⟨fun y => ?_, fun y hy => ?_, ?_, fun d' hd' => h4 d' (by simp [hd'])⟩
        · have := h1 y; rw [hsplit] at this; omega
        · rcases List.mem_cons.1 hy with rfl | hy
          · have := h1 d.name; rw [hsplit] at this; simp at this; omega
          · have := h2 y hy; rw [hsplit] at this; omega
        · intro pre d' post he x hx
          have := h3 (d :: pre) d' post (by rw [he]; rfl) x hx
          simp at this ⊢
          rcases this with h | h | h
          · exact .inr (.inl h)
          · exact .inl h
          · exact .inr (.inr h)
      · intro hn; have := h2 _ hn; rw [hsplit] at this; simp at this
      · have := h1 d.name; rw [hsplit] at this; simp at this; omega
      · have := h1 y; rw [hsplit] at this
        have := cnt_lets ds y
        rw [defPairs] at this
        omega

theorem wellNamed_iff {p : Program} : WellNamed p ↔ Good [] (lets (defPairs p.defs) unit) := by
  rw [good_lets]
  constructor
  · intro h
    exact ⟨fun y => List.nodup_iff_count.1 h.uniq y, by simp, fun pre d post he x hx => by simpa using h.scope pre d post he x hx, h.recs⟩
  · rintro ⟨h1, -, h3, h4⟩
    exact ⟨List.nodup_iff_count.2 h1, fun pre d post he x hx => by simpa using h3 pre d post he x hx, h4⟩

/-- `LeD` under one definition. -/
theorem leD_let {d : Bool} {s : Mode} {X : List Name} {n : Name} {v v' e e' : Expr} (hv : LeD d s X v v') (he : LeD d s (n :: X) e e') :
    LeD d s X (.let_ n v e) (.let_ n v' e') := by
  cases d <;> exact le_let hv he

/-- A pass on definition values, seen as a pass on the nested-let form. -/
theorem lets_pass {d : Bool} {s : Mode} {g : Expr → Expr} (hg : ∀ X e, Good X e → PassOK d s X e (g e)) :
    ∀ {ds : List ValueDef} {X : List Name}, Good X (lets (defPairs ds) unit) →
    Good X (lets (defPairs (ds.map fun d => { d with value := g d.value })) unit) ∧
    (∀ y, cnt y (lets (defPairs (ds.map fun d => { d with value := g d.value })) unit) ≤ cnt y (lets (defPairs ds) unit)) ∧
    ∀ e, (∀ x, Free x e → x ∈ ds.map (·.name) ++ X) →
      LeD d s X (lets (defPairs ds) e) (lets (defPairs (ds.map fun d => { d with value := g d.value })) e) := by
  intro ds
  induction ds with
  | nil =>
    intro X h
    exact ⟨h, fun _ => Nat.le_refl _, fun e he => by
      simp only [defPairs, List.map_nil, lets]
      exact LeD.refl (by simpa using he)⟩
  | cons d ds ih =>
    intro X h
    simp only [defPairs, List.map_cons, lets] at h ⊢
    obtain ⟨h1, h2, h3, h4, h5⟩ := good_let.1 h
    obtain ⟨g1, g2, g3⟩ := ih h2
    have hp := hg X d.value h1
    refine ⟨good_let.2 ⟨hp.good, g1, h3, ?_, fun y => ?_⟩, fun y => ?_, fun e he => ?_⟩
    · have := hp.cnt d.name; omega
    · have := hp.cnt y; have := g2 y; have := h5 y; simp only [defPairs] at *; omega
    · rw [cnt_let, cnt_let]; have := hp.cnt y; have := g2 y; simp only [defPairs] at *; omega
    · exact leD_let hp.le (g3 e fun x hx => by have := he x hx; simp at this ⊢; grind)

/-- Lifting to programs: well-namedness is kept, and results carry over. -/
theorem mapDefs_ok {s : Mode} {g : Expr → Expr} (hg : ∀ X e, Good X e → PassOK true s X e (g e)) {p : Program} (hp : WellNamed p) :
    WellNamed (mapDefs g p) ∧ ∀ es, Asks p es →
      OutSim s (fun v v' => obsList v = obsList v') (fun n => evalProgram n p es) (fun n => evalProgram n (mapDefs g p) es) := by
  obtain ⟨h1, -, h3⟩ := lets_pass hg (wellNamed_iff.1 hp)
  refine ⟨wellNamed_iff.2 h1, fun es hes => outSim_program (Y := p.defs.map ValueDef.name) (fun e he k => ?_) hes⟩
  exact h3 e (by simpa using he) k [] [] (by simp)

/-- ... and back. -/
theorem mapDefs_back {s : Mode} {g : Expr → Expr} (hg : ∀ X e, Good X e → PassOK false s X e (g e)) {p : Program} (hp : WellNamed p) :
    ∀ es, Asks p es →
      OutSim s (fun v v' => obsList v = obsList v') (fun n => evalProgram n (mapDefs g p) es) (fun n => evalProgram n p es) := by
  obtain ⟨h1, -, h3⟩ := lets_pass hg (wellNamed_iff.1 hp)
  refine fun es hes => outSim_program (Y := p.defs.map ValueDef.name) (fun e he k => ?_) hes
  exact h3 e (by simpa using he) k [] [] (by simp)

end Tic.Core
