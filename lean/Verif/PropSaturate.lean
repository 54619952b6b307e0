import Verif.SatDefs
import Verif.PropInline
/-
C34: making functions take all their arguments at once changes no outcome.
-/
namespace Tic.Core

/-- `es` are definitions of the program. -/
def AsksDefs (p : Program) (es : List Expr) : Prop := ∀ e ∈ es, ∃ d ∈ p.defs, e = .name d.name

/-- The programs define and export the same names; types and values may differ. -/
def SameNames (p p' : Program) : Prop :=
  p'.types = p.types ∧ p'.defs.map (fun d => (d.name, d.exportName)) = p.defs.map (fun d => (d.name, d.exportName))

/-! ### Depths -/

theorem mapSt_congr {σ : Type} {f f' : Expr → σ → Option (Expr × σ)} : ∀ {es : List Expr} {st : σ}, (∀ e ∈ es, ∀ st, f e st = f' e st) → mapSt f es st = mapSt f' es st
  | [], _, _ => rfl
  | e :: es, st, h => by
    simp only [mapSt]
    rw [h e (by simp) st]
    cases f' e st with
    | none => rfl
    | some r => simp only [Option.bind_some]; rw [mapSt_congr fun e he => h e (by simp [he])]

/-- Walking deeper than the size of the expression changes nothing. -/
theorem usesN_stable (m : Rws) : ∀ (n k : Nat) (e : Expr) (g : Fresh), esize e ≤ n → esize e ≤ k → usesN m n e g = usesN m k e g
  | 0, _, e, _, h, _ => absurd (esize_pos e) (by omega)
  | _ + 1, 0, e, _, _, h => absurd (esize_pos e) (by omega)
  | n + 1, k + 1, e, g, hn, hk => by
    rw [usesN, usesN, mapSt_congr fun c hc st => ?_]
    obtain ⟨c', h1, rfl⟩ := List.mem_map.1 hc
    have := mem_children_esize h1
    exact usesN_stable m n k c'.2 st (by omega) (by omega)

theorem mapRw_congr {f f' : Expr → Rws → Expr × Rws} : ∀ {es : List Expr} {m : Rws}, (∀ e ∈ es, ∀ m, f e m = f' e m) → mapRw f es m = mapRw f' es m
  | [], _, _ => rfl
  | e :: es, m, h => by
    simp only [mapRw]
    rw [h e (by simp) m, mapRw_congr fun e he => h e (by simp [he])]

theorem esize_collapseNode (e : Expr) (m : Rws) : esize (collapseNode e m).1 ≤ esize e := by
  unfold collapseNode
  split
  · split
    · rename_i x t v b r t' v' hc
      obtain ⟨vs, g, gs, b, rfl, rfl, -⟩ := checkForRewrite_some hc
      simp only [esize, esize_pis, esize_lams, List.length_cons]; omega
    · exact Nat.le_refl _
  · exact Nat.le_refl _

/-- Walking deeper than the size of the expression changes nothing. -/
theorem collapseN_stable : ∀ (n k : Nat) (e : Expr) (m : Rws), esize e ≤ n → esize e ≤ k → collapseN n e m = collapseN k e m
  | 0, _, e, _, h, _ => absurd (esize_pos e) (by omega)
  | _ + 1, 0, e, _, _, h => absurd (esize_pos e) (by omega)
  | n + 1, k + 1, e, m, hn, hk => by
    simp only [collapseN]
    rw [mapRw_congr fun c hc st => ?_]
    obtain ⟨c', h1, rfl⟩ := List.mem_map.1 hc
    have := mem_children_esize h1
    have := esize_collapseNode e m
    exact collapseN_stable n k c'.2 st (by omega) (by omega)

/-! ### Asking for a definition -/

theorem good_lets_question {q : Expr} (hq : ∀ y, cnt y q = 0) (hs : WellShaped q) : ∀ (ds : List ValueDef) (X : List Name), Good X (lets (defPairs ds) unit) →
    (∀ x, Free x q → x ∈ ds.map (·.name) ++ X) → Good X (lets (defPairs ds) q) ∧ ∀ y, cnt y (lets (defPairs ds) q) = cnt y (lets (defPairs ds) unit)
  | [], X, _, hf => ⟨⟨fun y => by show cnt y q ≤ 1; rw [hq]; omega, fun y _ => hq y, fun x hx => by simpa using hf x hx, hs⟩, fun y => by
      show cnt y q = cnt y unit
      rw [hq]; simp [cnt, unit, binders]⟩
  | d :: ds, X, hg, hf => by
    have hlets : ∀ q, lets (defPairs (d :: ds)) q = .let_ d.name d.value (lets (defPairs ds) q) := fun _ => rfl
    rw [hlets] at hg
    obtain ⟨h1, h2, h3, h4, h5⟩ := good_let.1 hg
    obtain ⟨i1, i2⟩ := good_lets_question hq hs ds (d.name :: X) h2 (fun x hx => by
      have := hf x hx
      simp only [List.map_cons, List.cons_append, List.mem_cons, List.mem_append] at this ⊢
      rcases this with h | h | h <;> simp [h])
    rw [hlets, hlets]
    exact ⟨good_let.2 ⟨h1, i1, h3, h4, fun y => by rw [i2]; exact h5 y⟩, fun y => by rw [cnt_let, cnt_let, i2]⟩

theorem evalDefs_old {n : Nat} {x : Name} : ∀ {ds : List ValueDef} {ρ0 ρ : Env}, evalDefs n ds ρ0 = .ok ρ → x ∉ ds.map (·.name) → lookup x ρ = lookup x ρ0
  | [], _, _, h, _ => by cases h; rfl
  | d :: ds, ρ0, ρ, h, hx => by
    simp only [List.map_cons, List.mem_cons, not_or] at hx
    obtain ⟨v, h1, h2⟩ := Res.bind_eq_ok.1 h
    rw [evalDefs_old h2 hx.2, lookup, if_neg (Ne.symm hx.1)]

theorem eval_recLam {ρ : Env} {v : Val} : ∀ {n : Nat} {e : Expr}, eval n ρ e = .ok v → (recLam e).isSome = true → v.obs = .fn
  | 0, _, h, _ => by cases h
  | n + 1, e, h, hr => by
    obtain ⟨⟨ps, b⟩, hr⟩ := Option.isSome_iff_exists.1 hr
    rcases recLam_cases hr with ⟨ps', rfl, rfl⟩ | ⟨a, e0, rfl, h0⟩
    · rw [eval] at h; cases h; rfl
    · rw [eval] at h; exact eval_recLam h (by rw [h0]; rfl)

theorem evalDefs_fn {n : Nat} {d : ValueDef} : ∀ {ds : List ValueDef} {ρ0 ρ : Env}, evalDefs n ds ρ0 = .ok ρ → (ds.map (·.name)).Nodup → d ∈ ds →
    (recLam d.value).isSome = true → ∃ v, lookup d.name ρ = .ok v ∧ v.obs = .fn
  | [], _, _, _, _, hd, _ => by simp at hd
  | d0 :: ds, ρ0, ρ, h, hn, hd, hr => by
    obtain ⟨v, h1, h2⟩ := Res.bind_eq_ok.1 h
    simp only [List.map_cons, List.nodup_cons] at hn
    rcases List.mem_cons.1 hd with rfl | hd
    · exact ⟨v, by rw [evalDefs_old h2 hn.1, lookup, if_pos rfl], eval_recLam h1 hr⟩
    · exact evalDefs_fn h2 hn.2 hd hr

theorem outSim_fn {s : Mode} {ds ds' : List ValueDef} {x : Name}
    (hb : OutSim s (fun v v' => v.obs = v'.obs) (fun n => (evalDefs n ds []).bind fun ρ => eval n ρ (.bool true)) (fun n => (evalDefs n ds' []).bind fun ρ => eval n ρ (.bool true)))
    (h : ∀ n ρ, evalDefs n ds [] = .ok ρ → ∃ v, lookup x ρ = .ok v ∧ v.obs = .fn)
    (h' : ∀ n ρ, evalDefs n ds' [] = .ok ρ → ∃ v, lookup x ρ = .ok v ∧ v.obs = .fn) :
    OutSim s (fun v v' => v.obs = v'.obs) (fun n => (evalDefs n ds []).bind fun ρ => eval n ρ (.name x)) (fun n => (evalDefs n ds' []).bind fun ρ => eval n ρ (.name x)) := by
  intro n hn
  dsimp only at hn ⊢
  cases hd : evalDefs n ds [] with
  | timeout => rw [hd] at hn; exact absurd rfl hn
  | trap msg =>
    obtain ⟨m, hm⟩ := hb n (by dsimp only; rw [hd]; simp)
    dsimp only at hm
    rw [hd] at hm
    refine ⟨m, fun hs => ?_⟩
    have := hm hs
    cases hd' : evalDefs m ds' [] with
    | trap m' => rw [hd'] at this; cases this; rfl
    | ok ρ' => rw [hd'] at this; cases m <;> simp [eval] at this
    | panic => rw [hd'] at this; simp at this
    | timeout => rw [hd'] at this; simp at this
  | panic =>
    obtain ⟨m, hm⟩ := hb n (by dsimp only; rw [hd]; simp)
    dsimp only at hm
    rw [hd] at hm
    refine ⟨m, fun hs => ?_⟩
    have := hm hs
    cases hd' : evalDefs m ds' [] with
    | trap m' => rw [hd'] at this; cases this
    | ok ρ' => rw [hd'] at this; cases m <;> simp [eval] at this
    | panic => rfl
    | timeout => rw [hd'] at this; simp at this
  | ok ρ =>
    rw [hd, Res.bind_ok] at hn
    cases n with
    | zero => exact absurd rfl hn
    | succ n =>
    obtain ⟨m, hm⟩ := hb (n + 1) (by dsimp only; rw [hd]; simp [eval])
    dsimp only at hm
    rw [hd] at hm
    obtain ⟨v0, hv0, -⟩ := hm
    obtain ⟨ρ', hρ', hv⟩ := Res.bind_eq_ok.1 hv0
    cases m with
    | zero => cases hv
    | succ m =>
    obtain ⟨v, h1, h2⟩ := h _ _ hd
    obtain ⟨v', h1', h2'⟩ := h' _ _ hρ'
    refine ⟨m + 1, ?_⟩
    rw [hρ', Res.bind_ok, Res.bind_ok, eval, eval, h1, h1']
    exact ⟨v', rfl, h2.trans h2'.symm⟩

theorem names_nodup {ds : List ValueDef} (h : (ds.flatMap fun d => d.name :: binders d.value).Nodup) : (ds.map (·.name)).Nodup := by
  induction ds with
  | nil => simp
  | cons d ds ih =>
    rw [List.flatMap_cons, List.nodup_append] at h
    simp only [List.map_cons, List.nodup_cons]
    refine ⟨fun hm => ?_, ih h.2.1⟩
    obtain ⟨d', hd', he⟩ := List.mem_map.1 hm
    exact h.2.2 d.name (by simp) d.name (List.mem_flatMap.2 ⟨d', hd', by simp [he]⟩) rfl

theorem all2_left {α β : Type} {P : α → β → Prop} : ∀ {as : List α} {bs : List β}, All2 P as bs → ∀ a ∈ as, ∃ b ∈ bs, P a b
  | [], [], _, _, h => by simp at h
  | a :: as, b :: bs, ⟨h1, h2⟩, x, h => by
    rcases List.mem_cons.1 h with rfl | h
    · exact ⟨b, by simp, h1⟩
    · obtain ⟨y, hy, hp⟩ := all2_left h2 x h
      exact ⟨y, by simp [hy], hp⟩

/-- C34.  Making functions take all their arguments at once never fails.  The program it
arrives at defines and exports the same names, is well named, and asking for its definitions
has the same outcome as before; the names it uses are numbered below the new state of the
generator, which only grows. -/
theorem saturate_preserves {p : Program} {g : Gens} (hp : WellNamed p) (hg : NamesBelow g.names p) :
    ∃ p' g', saturate g p = some (p', g') ∧ SameNames p p' ∧ WellNamed p' ∧ g.names ≤ g'.names ∧ NamesBelow g'.names p' ∧
      ∀ es, AsksDefs p es → SameOutcomes p p' es := by
  have hgood := wellNamed_iff.1 hp
  obtain ⟨ds', m', g', hr, h⟩ := satDefs_ok p.defs [] [] g hgood (fun _ _ => rfl) (fun _ h => nomatch h)
    (fun y hy => by obtain ⟨d, hd, hy⟩ := cnt_defs_pos hy; exact hg d hd y hy)
  have hwn : WellNamed { p with defs := ds' } := wellNamed_iff.2 h.good
  refine ⟨{ p with defs := ds' }, g', by rw [saturate, hr]; rfl, ⟨rfl, all2_map (fun a b h => by rw [h.1.1, h.1.2]) h.kept⟩, hwn, h.le, fun d hd y hy => ?_, fun es hes => ?_⟩
  · have hpos : 0 < cnt y (lets (defPairs ds') unit) := by
      rw [cnt_lets]
      exact List.count_pos_iff.2 (List.mem_flatMap.2 ⟨d, hd, hy⟩)
    by_cases hz : y < g'.names
    · exact hz
    · have := h.cnew y (by omega); omega
  · have hJ : ∀ d k, JS d strict (lensOf m') [] k [] [] := fun d k => (fun _ h => nomatch h)
    have hrel : ∀ d q q', Good [] (lets (defPairs p.defs) q) → Sat (lensOf m') q q' → ∀ k, RelO d strict k [] (lets (defPairs p.defs) q) [] (lets (defPairs ds') q') :=
      fun d q q' hgq hs k => (sat_ok (h.sat _ (fun _ _ => rfl) q q' hs) hgq).rel k [] [] (hJ d k)
    have hunit : Good [] (lets (defPairs p.defs) (.bool true)) := (good_lets_question (q := .bool true) (fun y => by simp [cnt, binders]) (by rw [wellShaped_iff]; simp [children, NodeOK]) p.defs [] hgood (by simp [Free])).1
    have hsunit : Sat (lensOf m') (.bool true) (.bool true) := .node (e := .bool true) (cs := []) (fun x h => by cases h) (by simp [own]) .nil
    have hname : ∀ d ∈ p.defs, Good [] (lets (defPairs p.defs) (.name d.name)) := fun d hd =>
      (good_lets_question (q := .name d.name) (fun y => by simp [cnt, binders]) (shaped_name _) p.defs [] hgood (fun x hx => by
        simp only [Free] at hx; subst hx; simpa using ⟨d, hd, rfl⟩)).1
    have hsname : ∀ x, lensOf m' x = none → Sat (lensOf m') (.name x) (.name x) := fun x hx =>
      .node (e := .name x) (cs := []) (fun y h => by cases h; exact hx) (by simp [own]) .nil
    have hfn : ∀ d ∈ p.defs, lensOf m' d.name ≠ none → (∀ n ρ, evalDefs n p.defs [] = .ok ρ → ∃ v, lookup d.name ρ = .ok v ∧ v.obs = .fn) ∧
        ∀ n ρ, evalDefs n ds' [] = .ok ρ → ∃ v, lookup d.name ρ = .ok v ∧ v.obs = .fn := fun d hd hne => by
      obtain ⟨d', hd', ⟨hnm, -⟩, hk⟩ := all2_left h.kept d hd
      obtain ⟨h1, h2⟩ := hk hne
      refine ⟨fun n ρ hρ => evalDefs_fn hρ (names_nodup hp.uniq) hd h1, fun n ρ hρ => ?_⟩
      rw [← hnm]
      exact evalDefs_fn hρ (names_nodup hwn.uniq) hd' h2
    refine sameOutcomes_of ?_ ?_
    · refine outSim_questions (s := strict) (p := p) (p' := { p with defs := ds' }) (P := fun e => e = .bool true ∨ ∃ d ∈ p.defs, e = .name d.name) (fun e he => ?_) (.inl rfl) (fun e he => .inr (hes e he))
      have hbase := outSim_lets (s := strict) (fun k => hrel true _ _ hunit hsunit k)
      rcases he with rfl | ⟨d, hd, rfl⟩
      · exact hbase
      · by_cases hne : lensOf m' d.name = none
        · exact outSim_lets (fun k => hrel true _ _ (hname d hd) (hsname _ hne) k)
        · exact outSim_fn hbase (hfn d hd hne).1 (hfn d hd hne).2
    · refine outSim_questions (s := strict) (p := { p with defs := ds' }) (p' := p) (P := fun e => e = .bool true ∨ ∃ d ∈ p.defs, e = .name d.name) (fun e he => ?_) (.inl rfl) (fun e he => .inr (hes e he))
      have hbase := outSim_lets (s := strict) (fun k => hrel false _ _ hunit hsunit k)
      rcases he with rfl | ⟨d, hd, rfl⟩
      · exact hbase
      · by_cases hne : lensOf m' d.name = none
        · exact outSim_lets (fun k => hrel false _ _ (hname d hd) (hsname _ hne) k)
        · exact outSim_fn hbase (hfn d hd hne).2 (hfn d hd hne).1

/-! ### A concrete program -/

/-- `k = Pi a. \x : a. \y : Int. x; h = k [Int] 3; r = letrec f = \m. \n. f(n)(m); k [Int] (1) (h(2))`. -/
def exSat : Program where
  types := []
  defs := [⟨0, none, .abs 0 (.fn [.var 0] (.fn [.int] (.var 0))), .pi 0 (.lam [(1, .var 0)] (.lam [(2, .int)] (.name 1)))⟩,
    ⟨3, some "h", .fn [.int] .int, .call (.piApp (.name 0) .int) [.int 3]⟩,
    ⟨4, some "r", .int, .letrec 5 (.fn [.int] (.fn [.int] .int))
      (.lam [(6, .int)] (.lam [(7, .int)] (.call (.call (.name 5) [.name 7]) [.name 6])))
      (.call (.call (.piApp (.name 0) .int) [.int 1]) [.call (.name 3) [.int 2]])⟩]

example : WellNamed exSat := wnB_ok (by decide)
example : NamesBelow 8 exSat := by
  intro d hd y hy
  simp only [exSat, List.mem_cons, List.not_mem_nil, or_false] at hd
  rcases hd with rfl | rfl | rfl <;> simp [binders, bindersL] at hy <;> omega
/-- `k` and `f` take both arguments at once; their uses are wrapped. -/
example : saturate ⟨8, 1⟩ exSat = some ({ exSat with defs := [
    ⟨0, none, .abs 0 (.fn [.var 0, .int] (.var 0)), .pi 0 (.lam [(1, .var 0), (2, .int)] (.name 1))⟩,
    ⟨3, some "h", .fn [.int] .int, .call (.piApp (.pi 1 (.lam [(9, .var 1)] (.lam [(8, .int)]
      (.call (.piApp (.name 0) (.var 1)) [.name 9, .name 8])))) .int) [.int 3]⟩,
    ⟨4, some "r", .int, .letrec 5 (.fn [.int, .int] .int)
      (.lam [(6, .int), (7, .int)] (.call (.call (.lam [(11, .int)] (.lam [(10, .int)] (.call (.name 5) [.name 11, .name 10]))) [.name 7]) [.name 6]))
      (.call (.call (.piApp (.pi 2 (.lam [(13, .var 2)] (.lam [(12, .int)]
        (.call (.piApp (.name 0) (.var 2)) [.name 13, .name 12])))) .int) [.int 1]) [.call (.name 3) [.int 2]])⟩] }, ⟨14, 3⟩) := by rfl

end Tic.Core
