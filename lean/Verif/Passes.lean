import Verif.Scope
/-
Helper: how local rewriting steps compose to whole passes over expressions and programs.
-/
namespace Tic.Core

/-- `Le` in either direction: `true` is from the original to the rewritten expression. -/
def LeD (d : Bool) (s : Mode) (X : List Name) (e e' : Expr) : Prop :=
  match d with
  | true => Le s X e e'
  | false => Le s X e' e

variable {d : Bool} {s : Mode} {X : List Name}

theorem LeD.refl {e : Expr} (h : ∀ x, Free x e → x ∈ X) : LeD d s X e e := by
  cases d <;> exact Le.refl h

theorem LeD.trans {e e' e'' : Expr} (h : LeD d s X e e') (h' : LeD d s X e' e'') : LeD d s X e e'' := by
  cases d
  · exact Le.trans (e := e'') h' h
  · exact Le.trans (e := e) h h'

theorem LeD.scope {X' : List Name} {e e' : Expr} (h : LeD d s X e e') (hx : ∀ x ∈ X, x ∈ X') : LeD d s X' e e' := by
  cases d <;> exact Le.scope h hx

/-- `RecOK` in either direction. -/
def RecOKD (d : Bool) (s : Mode) (X : List Name) (v v' : Expr) : Prop :=
  ∀ ps b, recLam v = some (ps, b) → ∃ b', recLam v' = some (ps, b') ∧ LeD d s (ps ++ X) b b'

theorem leD_mapSub {g g' : Expr → Expr} {e : Expr} (hn : ∀ x, e = .name x → x ∈ X)
    (hc : ∀ c ∈ children e, LeD d s (c.1 ++ X) (g c.2) (g' c.2))
    (hr : ∀ n t v b, e = .letrec n t v b → (recLam (g v)).isSome = true)
    (hrec : ∀ n t v b, e = .letrec n t v b → RecOKD d s (n :: X) (g v) (g' v)) :
    LeD d s X (mapSub g e) (mapSub g' e) := by
  cases d
  · refine le_mapSub hn hc fun n t v b he => ?_
    have h1 := hr n t v b he
    obtain ⟨⟨ps, c⟩, h2⟩ := Option.isSome_iff_exists.1 h1
    obtain ⟨b', h3, h4⟩ := hrec n t v b he ps c h2
    exact .inr ⟨ps, b', c, h3, h2, h4⟩
  · refine le_mapSub hn hc fun n t v b he => ?_
    have h1 := hr n t v b he
    obtain ⟨⟨ps, c⟩, h2⟩ := Option.isSome_iff_exists.1 h1
    obtain ⟨b', h3, h4⟩ := hrec n t v b he ps c h2
    exact .inr ⟨ps, c, b', h2, h3, h4⟩

/-- A rewriting step that preserves meaning and scoping and leaves function and
type abstractions alone. -/
structure StepOK (d : Bool) (s : Mode) (f : Expr → Expr) : Prop where
  ok : ∀ X e, Good X e → LeD d s X e (f e) ∧ Good X (f e) ∧ ∀ y, cnt y (f e) ≤ cnt y e
  lam : ∀ ps b, ∃ ps', f (.lam ps b) = .lam ps' b ∧ ps'.map (·.1) = ps.map (·.1)
  pi : ∀ v e, f (.pi v e) = .pi v e

theorem recLam_lam (ps : List (Name × Ty)) (b : Expr) : recLam (.lam ps b) = some (ps.map (·.1), b) := by
  simp [recLam, stripPis]
theorem recLam_pi (v : TyVar) (e : Expr) : recLam (.pi v e) = recLam e := by simp [recLam, stripPis]

theorem recLam_cases {v : Expr} {ps : List Name} {b : Expr} (h : recLam v = some (ps, b)) :
    (∃ ps', v = .lam ps' b ∧ ps = ps'.map (·.1)) ∨ ∃ a e, v = .pi a e ∧ recLam e = some (ps, b) := by
  cases v <;> simp only [recLam, stripPis, reduceCtorEq] at h
  case lam ps' b' =>
    simp only [Option.some.injEq, Prod.mk.injEq] at h
    exact .inl ⟨ps', by rw [h.2], h.1.symm⟩
  case pi a e => exact .inr ⟨a, e, rfl, h⟩

/-- What a pass guarantees about one expression. -/
structure PassOK (d : Bool) (s : Mode) (X : List Name) (e e' : Expr) : Prop where
  le : LeD d s X e e'
  good : Good X e'
  cnt : ∀ y, cnt y e' ≤ cnt y e
  recs : RecOKD d s X e e'

theorem PassOK.refl {e : Expr} (h : Good X e) : PassOK d s X e e :=
  ⟨.refl h.scope, h, fun _ => Nat.le_refl _, fun ps b hb => ⟨b, hb, .refl fun x hx => by
    by_cases hp : x ∈ ps
    · exact List.mem_append_left _ hp
    · exact List.mem_append_right _ (h.scope x ((recLam_free hb).2 ⟨hp, hx⟩))⟩⟩

theorem Good.recSome {e : Expr} (h : Good X e) {n : Name} {t : Ty} {v b : Expr} (he : e = .letrec n t v b) :
    (recLam v).isSome = true := by subst he; exact h.recs _ .refl

/-- Passing over the immediate subexpressions. -/
theorem PassOK.mapSub {e : Expr} {g : Expr → Expr} (h : Good X e)
    (hg : ∀ c ∈ children e, PassOK d s (c.1 ++ X) c.2 (g c.2)) : PassOK d s X e (mapSub g e) := by
  have hrec : ∀ n t v b, e = .letrec n t v b → RecOKD d s (n :: X) v (g v) := by
    intro n t v b he
    subst he
    exact (hg ([n], v) (by simp [children])).recs
  have hsome : ∀ n t v b, e = .letrec n t v b → (recLam (g v)).isSome = true := by
    intro n t v b he
    obtain ⟨⟨ps, c⟩, h2⟩ := Option.isSome_iff_exists.1 (h.recSome he)
    obtain ⟨b', h3, -⟩ := hrec n t v b he ps c h2
    simp [h3]
  refine ⟨?_, h.mapSub (fun c hc => ⟨(hg c hc).good, (hg c hc).cnt⟩) hsome, fun y => cnt_mapSub fun c hc => (hg c hc).cnt y, ?_⟩
  · have := leD_mapSub (d := d) (s := s) (g := id) (g' := g) (e := e) (fun x hx => h.scope x (by rw [hx]; simp [Free]))
      (fun c hc => (hg c hc).le) (fun n t v b he => h.recSome he) hrec
    rwa [mapSub_id] at this
  · intro ps b hb
    rcases recLam_cases hb with ⟨ps', rfl, rfl⟩ | ⟨a, e', rfl, h'⟩
    · exact ⟨g b, recLam_lam _ _, (hg (_, b) (by simp [children])).le⟩
    · obtain ⟨b', h1, h2⟩ := (hg ([], e') (by simp [children])).recs ps b h'
      exact ⟨b', by rw [Core.mapSub, recLam_pi, h1], h2⟩

theorem PassOK.trans {e e' e'' : Expr} (h : PassOK d s X e e') (h' : PassOK d s X e' e'') : PassOK d s X e e'' := by
  refine ⟨h.le.trans h'.le, h'.good, fun y => Nat.le_trans (h'.cnt y) (h.cnt y), fun ps b hb => ?_⟩
  obtain ⟨b', h1, h2⟩ := h.recs ps b hb
  obtain ⟨b'', h3, h4⟩ := h'.recs ps b' h1
  exact ⟨b'', h3, h2.trans h4⟩

theorem StepOK.pass {f : Expr → Expr} (h : StepOK d s f) {e : Expr} (he : Good X e) : PassOK d s X e (f e) := by
  obtain ⟨h1, h2, h3⟩ := h.ok X e he
  refine ⟨h1, h2, h3, fun ps b hb => ?_⟩
  have : recLam (f e) = recLam e := by
    rcases recLam_cases hb with ⟨ps', rfl, rfl⟩ | ⟨a, e', rfl, h'⟩
    · obtain ⟨ps'', h1, h2⟩ := h.lam ps' b
      rw [h1, recLam_lam, recLam_lam, h2]
    · rw [h.pi]
  rw [this]
  exact (PassOK.refl he).recs ps b hb

theorem StepOK.walkPostN {f : Expr → Expr} (h : StepOK d s f) : ∀ (n : Nat) (X : List Name) (e : Expr), Good X e →
    PassOK d s X e (walkPostN n f e) := by
  intro n
  induction n with
  | zero => intro X e he; exact .refl he
  | succ n ih =>
    intro X e he
    have h1 : PassOK d s X e (mapSub (Core.walkPostN n f) e) := .mapSub he fun c hc => ih _ _ (he.child hc)
    exact h1.trans (h.pass h1.good)

theorem StepOK.walkPost {f : Expr → Expr} (h : StepOK d s f) {e : Expr} (he : Good X e) :
    PassOK d s X e (walkPost f e) := h.walkPostN _ X e he

theorem StepOK.walkPreN {f : Expr → Expr} (h : StepOK d s f) : ∀ (n : Nat) (X : List Name) (e : Expr), Good X e →
    PassOK d s X e (walkPreN n f e) := by
  intro n
  induction n with
  | zero => intro X e he; exact .refl he
  | succ n ih =>
    intro X e he
    have h1 := h.pass (X := X) he
    exact h1.trans (.mapSub h1.good fun c hc => ih _ _ (h1.good.child hc))

/-! ### Programs -/

/-- A program as one expression: its definitions around a final expression. -/
def lets : List (Name × Expr) → Expr → Expr
  | [], e => e
  | (n, v) :: ds, e => .let_ n v (lets ds e)

/-- Names and values of the definitions. -/
def defPairs (ds : List ValueDef) : List (Name × Expr) := ds.map fun d => (d.name, d.value)

theorem evalDefs_lets (ds : List ValueDef) (e : Expr) : ∀ (n : Nat) (ρ : Env),
    ((evalDefs n ds ρ).bind fun ρ => eval n ρ e).Le (eval (n + ds.length) ρ (lets (defPairs ds) e)) := by
  induction ds with
  | nil => intro n ρ; exact .refl _
  | cons d ds ih =>
    intro n ρ
    simp only [evalDefs, defPairs, List.map_cons, lets, List.length_cons]
    rw [show n + (ds.length + 1) = (n + ds.length) + 1 by omega, eval]
    rw [show ((eval n ρ d.value).bind fun v => evalDefs n ds ((d.name, v) :: ρ)).bind (fun ρ => eval n ρ e) =
      (eval n ρ d.value).bind fun v => (evalDefs n ds ((d.name, v) :: ρ)).bind fun ρ => eval n ρ e by
        cases eval n ρ d.value <;> rfl]
    exact (eval_le (by omega) _ _).bind fun v _ => ih n _

theorem lets_evalDefs (ds : List ValueDef) (e : Expr) : ∀ (n : Nat) (ρ : Env),
    (eval n ρ (lets (defPairs ds) e)).Le ((evalDefs n ds ρ).bind fun ρ => eval n ρ e) := by
  induction ds with
  | nil => intro n ρ; exact .refl _
  | cons d ds ih =>
    intro n ρ
    simp only [evalDefs, defPairs, List.map_cons, lets]
    rw [show ((eval n ρ d.value).bind fun v => evalDefs n ds ((d.name, v) :: ρ)).bind (fun ρ => eval n ρ e) =
      (eval n ρ d.value).bind fun v => (evalDefs n ds ((d.name, v) :: ρ)).bind fun ρ => eval n ρ e by
        cases eval n ρ d.value <;> rfl]
    cases n with
    | zero => exact .inl rfl
    | succ n =>
      rw [eval]
      exact (eval_le (by omega) _ _).bind fun v _ =>
        Res.Le.trans (ih n _) ((evalDefs_le (by omega) _ _).bind fun ρ _ => eval_le (by omega) _ _)

/-- Seen from outside, running the program and then `es` gives the values `os`. -/
def Yields (p : Program) (es : List Expr) (os : List Obs) : Prop :=
  ∃ n vals, evalProgram n p es = .ok vals ∧ obsList vals = os
/-- Running the program and then `es` traps with message `m`. -/
def Traps (p : Program) (es : List Expr) (m : String) : Prop := ∃ n, evalProgram n p es = .trap m
/-- Running the program and then `es` crashes the evaluator. -/
def Panics (p : Program) (es : List Expr) : Prop := ∃ n, evalProgram n p es = .panic

theorem RelD.out {e e' : Expr} {ρ ρ' : Env} (h : ∀ k, RelD s k ρ e ρ' e') {n : Nat} (hn : eval n ρ e ≠ .timeout) :
    ∃ m, OutRel s (fun v v' => v.obs = v'.obs) (eval n ρ e) (eval m ρ' e') := by
  have h2 : (evalC n ρ e).2 = eval n ρ e := evalC_eval _ _ _
  obtain ⟨m, ho⟩ := h (evalC n ρ e).1 _ (Nat.le_refl _) n (Nat.le_refl _) (by rw [h2]; exact hn)
  rw [h2] at ho
  exact ⟨m, ho.imp fun a b hab => hab.obs⟩

/-- Outcomes of one evaluation with fuel `n` are matched with some fuel. -/
def OutSim {α β : Type} (s : Mode) (P : α → β → Prop) (L : Nat → Res α) (R : Nat → Res β) : Prop :=
  ∀ n, L n ≠ .timeout → ∃ m, OutRel s P (L n) (R m)

theorem outSim_list {ρ ρ' : Env} : ∀ {es : List Expr},
    (∀ e ∈ es, OutSim s (fun v v' => v.obs = v'.obs) (fun n => eval n ρ e) (fun n => eval n ρ' e)) →
    OutSim s (fun v v' => obsList v = obsList v') (fun n => evalList (eval n ρ) es) (fun n => evalList (eval n ρ') es)
  | [], _, n, _ => ⟨0, [], rfl, rfl⟩
  | e :: es, h, n, hn => by
    dsimp only at hn ⊢
    simp only [evalList] at hn ⊢
    have he : eval n ρ e ≠ .timeout := fun hc => hn (by rw [hc]; rfl)
    obtain ⟨m, hm⟩ := h e (by simp) n he
    dsimp only at hm
    cases hv : eval n ρ e with
    | timeout => exact absurd hv he
    | trap msg => rw [hv] at hm; exact ⟨m, fun hs => by rw [hm hs]; rfl⟩
    | panic => rw [hv] at hm; exact ⟨m, fun hs => by rw [hm hs]; rfl⟩
    | ok v =>
      rw [hv] at hm hn
      obtain ⟨v', hv', hvv⟩ := hm
      have hl : evalList (eval n ρ) es ≠ .timeout := fun hc => hn (by rw [Res.bind_ok, hc]; rfl)
      obtain ⟨m', hm'⟩ := outSim_list (fun e he => h e (by simp [he])) n hl
      dsimp only at hm'
      have hv2 : eval (max m m') ρ' e = .ok v' := eval_mono_ok (Nat.le_max_left _ _) hv'
      refine ⟨max m m', ?_⟩
      rw [hv2, Res.bind_ok, Res.bind_ok]
      have hup := OutRel.up (mono_list ρ' es) hm' (Nat.le_max_right m m')
      cases hw : evalList (eval n ρ) es with
      | timeout => exact absurd hw hl
      | trap msg => rw [hw] at hup; exact fun hs => by rw [hup hs]; rfl
      | panic => rw [hw] at hup; exact fun hs => by rw [hup hs]; rfl
      | ok vs =>
        rw [hw] at hup
        obtain ⟨vs', h1, h2⟩ := hup
        rw [h1]
        exact ⟨v' :: vs', rfl, by simp [obsList, hvv, h2]⟩

/-- Outcomes of one question are matched when those of the nested-let forms are. -/
theorem outSim_lets {ds ds' : List ValueDef} {e e' : Expr}
    (h : ∀ k, RelD s k [] (lets (defPairs ds) e) [] (lets (defPairs ds') e')) : OutSim s (fun v v' => v.obs = v'.obs)
      (fun n => (evalDefs n ds []).bind fun ρ => eval n ρ e) (fun n => (evalDefs n ds' []).bind fun ρ => eval n ρ e') := by
  intro n hn
  dsimp only at hn
  have h1 := (evalDefs_lets ds e n []).eq hn
  obtain ⟨m, hm⟩ := RelD.out h (n := n + ds.length) (by rw [h1]; exact hn)
  rw [h1] at hm
  refine ⟨m, ?_⟩
  dsimp only
  rcases lets_evalDefs ds' e' m [] with h2 | h2
  · cases hc : (evalDefs n ds []).bind fun ρ => eval n ρ e with
    | timeout => exact absurd hc hn
    | ok a => rw [hc, h2] at hm; obtain ⟨b, hb, -⟩ := hm; cases hb
    | trap msg => rw [hc, h2] at hm; exact fun hs => by cases hm hs
    | panic => rw [hc, h2] at hm; exact fun hs => by cases hm hs
  · rw [← h2]; exact hm

/-- Outcomes of a program are matched when those of each question are. -/
theorem outSim_questions {p p' : Program} {P : Expr → Prop}
    (key : ∀ e, P e → OutSim s (fun v v' => v.obs = v'.obs)
      (fun n => (evalDefs n p.defs []).bind fun ρ => eval n ρ e) (fun n => (evalDefs n p'.defs []).bind fun ρ => eval n ρ e))
    (hunit : P (.bool true)) {es : List Expr} (hes : ∀ e ∈ es, P e) :
    OutSim s (fun v v' => obsList v = obsList v') (fun n => evalProgram n p es) (fun n => evalProgram n p' es) := by
  intro n hn
  dsimp only at hn ⊢
  unfold evalProgram at hn ⊢
  have hd : evalDefs n p.defs [] ≠ .timeout := fun hc => hn (by rw [hc]; rfl)
  cases hρ : evalDefs n p.defs [] with
  | timeout => exact absurd hρ hd
  | trap msg =>
    obtain ⟨m, hm⟩ := key _ hunit n (by dsimp only; rw [hρ]; simp)
    dsimp only at hm
    rw [hρ] at hm
    refine ⟨m, fun hs => ?_⟩
    have := hm hs
    cases hd' : evalDefs m p'.defs [] with
    | trap m' => rw [hd'] at this; cases this; rfl
    | ok ρ' => rw [hd'] at this; cases m <;> simp [eval] at this
    | panic => rw [hd'] at this; simp at this
    | timeout => rw [hd'] at this; simp at this
  | panic =>
    obtain ⟨m, hm⟩ := key _ hunit n (by dsimp only; rw [hρ]; simp)
    dsimp only at hm
    rw [hρ] at hm
    refine ⟨m, fun hs => ?_⟩
    have := hm hs
    cases hd' : evalDefs m p'.defs [] with
    | trap m' => rw [hd'] at this; cases this
    | ok ρ' => rw [hd'] at this; cases m <;> simp [eval] at this
    | panic => rfl
    | timeout => rw [hd'] at this; simp at this
  | ok ρ =>
    rw [hρ, Res.bind_ok] at hn
    have hn1 : evalDefs (n + 1) p.defs [] = .ok ρ := by
      have := (evalDefs_le (show n ≤ n + 1 by omega) p.defs []).eq hd
      rw [this, hρ]
    obtain ⟨m0, hm0⟩ := key _ hunit (n + 1) (by dsimp only; rw [hn1]; simp [eval])
    dsimp only at hm0
    rw [hn1] at hm0
    obtain ⟨v0, hv0, -⟩ := hm0
    obtain ⟨ρ', hρ', -⟩ := Res.bind_eq_ok.1 hv0
    have hup : ∀ m, m0 ≤ m → evalDefs m p'.defs [] = .ok ρ' := fun m hm => by
      have := (evalDefs_le hm p'.defs []).eq (by rw [hρ']; simp)
      rw [this, hρ']
    have hall : ∀ e ∈ es, OutSim s (fun v v' => v.obs = v'.obs) (fun n => eval n ρ e) (fun n => eval n ρ' e) := by
      intro e he i hi
      dsimp only at hi ⊢
      have hi1 : evalDefs (max i n) p.defs [] = .ok ρ := by
        have := (evalDefs_le (Nat.le_max_right i n) p.defs []).eq hd
        rw [this, hρ]
      have hi2 : eval (max i n) ρ e = eval i ρ e := (eval_le (Nat.le_max_left i n) ρ e).eq hi
      obtain ⟨m, hm⟩ := key e (hes e he) (max i n) (by dsimp only; rw [hi1, Res.bind_ok, hi2]; exact hi)
      have hm2 := OutRel.up (R := fun n => (evalDefs n p'.defs []).bind fun ρ => eval n ρ e)
        (fun a b hab => (evalDefs_le hab _ _).bind fun ρ _ => eval_le hab _ _)
        hm (Nat.le_max_left m m0)
      dsimp only at hm2
      rw [hi1, Res.bind_ok, hi2, hup _ (Nat.le_max_right _ _), Res.bind_ok] at hm2
      exact ⟨_, hm2⟩
    obtain ⟨m, hm⟩ := outSim_list hall n hn
    have hm2 := OutRel.up (mono_list ρ' es) hm (Nat.le_max_left m m0)
    refine ⟨max m m0, ?_⟩
    rw [hup _ (Nat.le_max_right _ _), Res.bind_ok, Res.bind_ok]
    exact hm2

/-- Outcomes of a program are matched when those of its nested-let form are. -/
theorem outSim_program {p p' : Program} {Y : List Name}
    (h : ∀ e, (∀ x, Free x e → x ∈ Y) → ∀ k, RelD s k [] (lets (defPairs p.defs) e) [] (lets (defPairs p'.defs) e))
    {es : List Expr} (hes : ∀ e ∈ es, ∀ x, Free x e → x ∈ Y) :
    OutSim s (fun v v' => obsList v = obsList v') (fun n => evalProgram n p es) (fun n => evalProgram n p' es) :=
  outSim_questions (P := fun e => ∀ x, Free x e → x ∈ Y) (fun e he => outSim_lets (h e he)) (by simp [Free]) hes

theorem OutSim.yields {p p' : Program} {es : List Expr}
    (h : OutSim s (fun v v' => obsList v = obsList v') (fun n => evalProgram n p es) (fun n => evalProgram n p' es)) :
    (∀ os, Yields p es os → Yields p' es os) ∧ (s.trap = true → ∀ m, Traps p es m → Traps p' es m) ∧
    (s.panic = true → Panics p es → Panics p' es) := by
  refine ⟨?_, ?_, ?_⟩
  · rintro os ⟨n, vals, hv, rfl⟩
    obtain ⟨m, hm⟩ := h n (by dsimp only; rw [hv]; simp)
    dsimp only at hm
    rw [hv] at hm
    obtain ⟨vals', h1, h2⟩ := hm
    exact ⟨m, vals', h1, h2.symm⟩
  · rintro hs msg ⟨n, hv⟩
    obtain ⟨m, hm⟩ := h n (by dsimp only; rw [hv]; simp)
    dsimp only at hm
    rw [hv] at hm
    exact ⟨m, hm hs⟩
  · rintro hs ⟨n, hv⟩
    obtain ⟨m, hm⟩ := h n (by dsimp only; rw [hv]; simp)
    dsimp only at hm
    rw [hv] at hm
    exact ⟨m, hm hs⟩

end Tic.Core
