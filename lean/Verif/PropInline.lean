import Verif.InlineTerm
/-
C33: inlining ends, and changes no outcome.
-/
namespace Tic.Core

/-- All names bound in the program are below `n`. -/
def NamesBelow (n : Nat) (p : Program) : Prop := ∀ d ∈ p.defs, ∀ y : Nat, y ∈ d.name :: binders d.value → y < n

/-- The programs differ only in the values of their definitions. -/
def OnlyValues (p p' : Program) : Prop :=
  p'.types = p.types ∧ p'.defs.map (fun d => (d.name, d.exportName, d.ty)) = p.defs.map (fun d => (d.name, d.exportName, d.ty))

/-! ### Walking deeper changes nothing -/

theorem goL_mono {g g' : Expr → InlSt → Option (Expr × InlSt)} (h : ∀ e st r, g e st = some r → g' e st = some r) :
    ∀ {es : List Expr} {st : InlSt} {r : List Expr × InlSt}, goL g es st = some r → goL g' es st = some r
  | [], st, r, hr => hr
  | e :: es, st, r, hr => by
    simp only [goL] at hr ⊢
    obtain ⟨r1, h1, h2⟩ := Option.bind_eq_some_iff.1 hr
    obtain ⟨r2, h3, h4⟩ := Option.bind_eq_some_iff.1 h2
    rw [h _ _ _ h1, Option.bind_some, goL_mono h h3]; exact h4

theorem goSub_mono {g g' : Expr → InlSt → Option (Expr × InlSt)} (h : ∀ e st r, g e st = some r → g' e st = some r)
    {e : Expr} {st : InlSt} {r : Expr × InlSt} (hr : goSub g e st = some r) : goSub g' e st = some r := by
  cases e <;> simp only [goSub] at hr ⊢
  all_goals
    obtain ⟨r1, h1, h2⟩ := Option.bind_eq_some_iff.1 hr
    first | rw [h _ _ _ h1] | rw [goL_mono h h1]
    exact h2

theorem inlineGo_succ : ∀ (k : Nat) (e : Expr) (st : InlSt) (r : Expr × InlSt), inlineGo k e st = some r → inlineGo (k + 1) e st = some r
  | 0, e, st, r, h => by simp [inlineGo] at h
  | k + 1, e, st, r, h => by
    have ih := inlineGo_succ k
    by_cases hlet : ∃ n v b, e = .let_ n v b
    · obtain ⟨n, v, b, rfl⟩ := hlet
      rw [inlineGo] at h ⊢
      obtain ⟨r1, h1, h2⟩ := Option.bind_eq_some_iff.1 h
      rw [ih _ _ _ h1, Option.bind_some]
      exact goSub_mono ih h2
    · have hgo : ∀ k, inlineGo (k + 1) e st = goSub (inlineGo k) (inlineNode e st).1 (inlineNode e st).2 := by
        intro k
        cases e <;> first | rfl | exact absurd ⟨_, _, _, rfl⟩ hlet
      rw [hgo] at h ⊢
      exact goSub_mono ih h

theorem inlineDefs_succ {k : Nat} : ∀ {ds : List ValueDef} {st : InlSt} {r : List ValueDef × InlSt}, inlineDefs k ds st = some r → inlineDefs (k + 1) ds st = some r
  | [], st, r, h => h
  | d :: ds, st, r, h => by
    simp only [inlineDefs] at h ⊢
    obtain ⟨r1, h1, h2⟩ := Option.bind_eq_some_iff.1 h
    obtain ⟨r2, h3, h4⟩ := Option.bind_eq_some_iff.1 h2
    rw [inlineGo_succ _ _ _ _ h1, Option.bind_some, inlineDefs_succ h3]; exact h4

theorem inlinePass_le {k k' : Nat} (hk : k ≤ k') {g : Gens} {p : Program} {r : Program × Gens} (h : inlinePass k g p = some r) :
    inlinePass k' g p = some r := by
  induction hk with
  | refl => exact h
  | step _ ih =>
    unfold inlinePass at ih ⊢
    obtain ⟨r1, h1, h2⟩ := Option.map_eq_some_iff.1 ih
    rw [inlineDefs_succ h1]; exact congrArg some h2

/-! ### The pass -/

theorem cnt_defs_pos {ds : List ValueDef} {y : Name} (h : 0 < cnt y (lets (defPairs ds) unit)) : ∃ d ∈ ds, y ∈ d.name :: binders d.value := by
  rw [cnt_lets] at h
  obtain ⟨d, hd, hy⟩ := List.mem_flatMap.1 (List.count_pos_iff.1 h)
  exact ⟨d, hd, hy⟩

theorem inline_pre {p : Program} {g : Gens} (hp : WellNamed p) (hg : NamesBelow g.names p) :
    IPre [] (lets (defPairs p.defs) unit) ⟨g.names, g.tys, []⟩ :=
  ⟨wellNamed_iff.1 hp, (fun _ h => nomatch h), fun y hy => by obtain ⟨d, hd, hy⟩ := cnt_defs_pos hy; exact hg d hd y hy,
    fun _ _ => rfl, fun _ _ => rfl, (fun _ h => nomatch h)⟩

theorem all2_map {α β : Type} {P : α → α → Prop} {f : α → β} (h : ∀ a b, P a b → f b = f a) : ∀ {as bs : List α}, All2 P as bs → bs.map f = as.map f
  | [], [], _ => rfl
  | a :: as, b :: bs, ⟨h1, h2⟩ => by rw [List.map_cons, List.map_cons, h a b h1, all2_map h h2]

/-- C33.  Inlining ends: there is a program it arrives at.  That program defines and exports
the same things, is well named, and every question about its definitions has the same outcome
as before; the names it uses are numbered below the new state of the generator, which only
grows. -/
theorem inline_preserves {p : Program} {g : Gens} (hp : WellNamed p) (hg : NamesBelow g.names p) :
    ∃ p' g', (∃ K, ∀ k, K ≤ k → inlinePass k g p = some (p', g')) ∧
      OnlyValues p p' ∧ WellNamed p' ∧ g.names ≤ g'.names ∧ NamesBelow g'.names p' ∧
      ∀ es, Asks p es → SameOutcomes p p' es := by
  have hpre := inline_pre hp hg
  obtain ⟨W, -, hW⟩ := okW_exists hpre.good fun _ => 0
  have hsome := inlineDefs_T p.defs [] ⟨g.names, g.tys, []⟩ W hpre (fun _ h => nomatch h) hW (Nat.lt_succ_self _)
  obtain ⟨⟨ds', st'⟩, hr⟩ := Option.isSome_iff_exists.1 hsome
  have hrun : inlinePass (wt W (lets (defPairs p.defs) unit) + 1) g p = some ({ p with defs := ds' }, ⟨st'.next, st'.nextTy⟩) := by
    unfold inlinePass; rw [hr]; rfl
  refine ⟨_, _, ⟨_, fun k hk => inlinePass_le hk hrun⟩, ?_⟩
  have hall : ∀ d s, _ := fun d s => inlineDefs_ok (d := d) (s := s) p.defs [] _ _ _ hpre hr
  obtain ⟨h1, h2, -⟩ := hall true lax
  refine ⟨⟨rfl, all2_map (fun a b h => by rw [h]) h2⟩, wellNamed_iff.2 h1.good, h1.le, fun d hd y hy => ?_, fun es hes => ?_⟩
  · have hpos : 0 < cnt y (lets (defPairs ds') unit) := by
      rw [cnt_lets]
      exact List.count_pos_iff.2 (List.mem_flatMap.2 ⟨d, hd, hy⟩)
    by_cases hz : y < st'.next
    · exact hz
    · have := h1.cnew y (by omega); omega
  · have hJ : ∀ d k, JJ d strict (InlSt.get ⟨g.names, g.tys, []⟩) [] k [] [] := fun d k => ⟨(fun _ h => nomatch h), (fun _ h => nomatch h)⟩
    refine sameOutcomes_of ?_ ?_
    · exact outSim_program (s := strict) (p := p) (p' := { p with defs := ds' }) (Y := p.defs.map fun d : ValueDef => d.name) (fun e he k => (hall true strict).2.2 e (fun x hx => List.mem_append_left _ (he x hx)) k [] [] (hJ true k)) hes
    · exact outSim_program (s := strict) (p := { p with defs := ds' }) (p' := p) (Y := p.defs.map fun d : ValueDef => d.name) (fun e he k => (hall false strict).2.2 e (fun x hx => List.mem_append_left _ (he x hx)) k [] [] (hJ false k)) hes

/-! ### A concrete program -/

/-- `inc = \x. let d = 1; x + d; f = \y. inc(inc(y)); c = inc`. -/
def exInl : Program where
  types := []
  defs := [⟨0, none, .fn [.int] .int, .lam [(1, .int)] (.let_ 2 (.int 1) (.op (.name 1) .add (.name 2)))⟩,
    ⟨3, some "f", .fn [.int] .int, .lam [(4, .int)] (.call (.name 0) [.call (.name 0) [.name 4]])⟩,
    ⟨5, some "c", .fn [.int] .int, .name 0⟩]

example : WellNamed exInl := wnB_ok (by decide)
example : NamesBelow 6 exInl := by
  intro d hd y hy
  simp only [exInl, List.mem_cons, List.not_mem_nil, or_false] at hd
  rcases hd with rfl | rfl | rfl <;> simp [binders, bindersL] at hy <;> omega
/-- Both calls of `inc` are replaced by copies with new names; the bare `inc` is not. -/
example : inlinePass 20 ⟨6, 0⟩ exInl = some ({ exInl with defs := [
    ⟨0, none, .fn [.int] .int, .lam [(1, .int)] (.let_ 2 (.int 1) (.op (.name 1) .add (.int 1)))⟩,
    ⟨3, some "f", .fn [.int] .int, .lam [(4, .int)]
      (.call (.lam [(6, .int)] (.let_ 7 (.int 1) (.op (.name 6) .add (.int 1))))
        [.call (.lam [(8, .int)] (.let_ 9 (.int 1) (.op (.name 8) .add (.int 1)))) [.name 4]])⟩,
    ⟨5, some "c", .fn [.int] .int, .name 0⟩] }, ⟨10, 0⟩) := by rfl

end Tic.Core
