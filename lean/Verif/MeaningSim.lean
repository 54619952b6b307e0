import Verif.MeaningRel
/-
Runs of the generated code are runs of the source.
-/
namespace Tic.Front
open Tic.Unify (Symbol IrTy)
open Tic.Core

/-- Running generated code for `k` steps does what the expression means. -/
def SimE (M : Sem) (T : Symbol → Option (List Field)) (k : Nat) : Prop :=
  ∀ (e : Ex IrTy) {Δ vs Γ t g g' c σ ρ}, Code M T Δ vs Γ g → Apart Δ Γ (binderSyms e) → HasTy Δ vs Γ e t → genExpr g e = some (g', c) →
    EnvRel M T Γ g σ ρ → Post (eval k ρ c) (fun v => ∃ V, Ev T σ (e.map (overData Δ)) (.ok V) ∧ Rel M T V v) (fun m => Ev T σ (e.map (overData Δ)) (.trap m))

/-- Applying a value for `k` steps does what applying the source value means. -/
def SimA (M : Sem) (T : Symbol → Option (List Field)) (k : Nat) : Prop :=
  ∀ F f A a, Rel M T F f → Rel M T A a → Post (applyFn (eval k) f [a]) (fun v => ∃ V, Ap T F A (.ok V) ∧ Rel M T V v) (fun m => Ap T F A (.trap m))

/-- A call in core. -/
theorem post_call {k ρ f a} {QF QA Q : Val → Prop} {E : String → Prop} (hf : Post (eval k ρ f) QF E)
    (ha : ∀ F, QF F → Post (eval k ρ a) QA E) (h : ∀ F A, QF F → QA A → Post (applyFn (eval k) F [A]) Q E) : Post (eval (k + 1) ρ (.call f [a])) Q E := by
  rw [eval_call]
  refine Post.bind (hf.mono (fun F hF => ?_) fun _ h => h)
  split
  · refine Post.bind ?_
    simp only [evalList]
    refine Post.bind ((ha F hF).mono (fun A hA => ?_) fun _ h => h)
    exact h F A hF hA
  · trivial

/-- The branch taken is the one of the case. -/
theorem cases_find {M T} (hM : Tags M) {b : Bool} {c n br} (hc : M.reg c = some n ∨ M.fold c = some n) : ∀ (cs : List (Case IrTy)) {Δ vs Γ decl args recTy t g g' bs σ ρ},
    Code M T Δ vs Γ g → Apart Δ Γ (casesBinderSyms cs) → HasCases Δ vs Γ decl args recTy cs t → genCases b g cs = some (g', bs) → EnvRel M T Γ g σ ρ →
    findBranch n bs = some br → (if b then M.fold else M.reg) c = some n ∧ ∃ (pvs : List (Symbol × IrTy)) (body : Ex IrTy) (g1 g2 : Gen) (c1 : Expr), findCase c (casesMap (overData Δ) cs) = some (pvs.map (·.1), body.map (overData Δ)) ∧
      br = .mk n (g1.genNames (pvs.map (·.1))).2 c1 ∧ genExpr (g1.genNames (pvs.map (·.1))).1 body = some (g2, c1) ∧
      Code M T Δ vs ((pvs.map fun p => (p.1, mono p.2)).reverse ++ Γ) (g1.genNames (pvs.map (·.1))).1 ∧
      Apart Δ ((pvs.map fun p => (p.1, mono p.2)).reverse ++ Γ) (binderSyms body) ∧ HasTy Δ vs ((pvs.map fun p => (p.1, mono p.2)).reverse ++ Γ) body t ∧ EnvRel M T Γ g1 σ ρ
  | [], Δ, vs, Γ, decl, args, recTy, t, g, g', bs, σ, ρ, hC, ha, h, hg, he, hb => by
    simp only [genCases, Option.some.injEq, Prod.mk.injEq] at hg
    rw [← hg.2] at hb
    cases hb
  | .mk c' pvs body :: cs, Δ, vs, Γ, decl, args, recTy, t, g, g', bs, σ, ρ, hC, ha, h, hg, he, hb => by
    simp only [HasCases] at h
    obtain ⟨-, h1, h2⟩ := h
    simp only [casesBinderSyms] at ha
    simp only [genCases, Option.bind_eq_some_iff, Option.map_eq_some_iff] at hg
    obtain ⟨⟨g1, c1⟩, e1, cn, hcn, ⟨g2, bs2⟩, e2, hg⟩ := hg
    cases hg
    have x1 := ext_genExpr body e1
    obtain ⟨s1, a1⟩ := hC.scope.addAll ha
    have hcn' : (if b then M.fold else M.reg) c' = some cn := by
      simp only [Gen.caseName, Option.map_eq_some_iff] at hcn
      obtain ⟨k, hk, rfl⟩ := hcn
      rw [x1.ctors, (ext_genNames _ g).ctors] at hk
      have := hC.names c' k hk
      cases b
      · exact this.1
      · exact this.2
    have hcn2 : M.reg c' = some cn ∨ M.fold c' = some cn := by
      cases b
      · exact .inl hcn'
      · exact .inr hcn'
    by_cases hn : cn = n
    · subst hn
      have := hM _ _ _ hcn2 hc
      subst this
      simp only [findBranch, Branch.ctor, if_true, Option.some.injEq] at hb
      refine ⟨hcn', pvs, body, g, g1, c1, ?_, hb.symm, e1, ⟨s1, hC.names.ext (ext_genNames _ g), hC.fields⟩, a1.left, h1, he⟩
      simp [casesMap, findCase, Function.comp_def]
    · have hb' : findBranch n bs2 = some br := (if_neg hn).symm.trans hb
      have C2 := (hC.ext (ext_genNames _ g) ha.left.2).ext x1 ha.right.left.2
      have he2 := (he.ext (ext_genNames _ g) fun b hb => (ha.left.2 b hb).1).ext x1 fun b hb => (ha.right.left.2 b hb).1
      obtain ⟨r1, pvs', body', ga, gb, c1', r2, r3⟩ := cases_find hM hc cs C2 ha.right.right h2 e2 he2 hb'
      refine ⟨r1, pvs', body', ga, gb, c1', ?_, r3⟩
      have hne : c' ≠ c := by
        rintro rfl
        rw [r1] at hcn'
        exact hn (Option.some.inj hcn').symm
      simp only [casesMap, findCase]
      rw [if_neg hne]
      exact r2

theorem evalOp_rel {M T} (o : Op) (x y : UInt64) : Rel M T (opValue o x y) (evalOp o x y) := by
  have hne : decide (x ≠ y) = !decide (x = y) := by by_cases h : x = y <;> simp [h]
  cases o <;> simp only [opValue, evalOp, GT.gt, GE.ge, hne] <;> first | exact .int | exact .bool

/-- Expressions, from shorter runs. -/
theorem simE {M T} (hM : Tags M) {k} (ihE : ∀ j, j < k → SimE M T j) (ihA : ∀ j, j < k → SimA M T j) :
    ∀ (e : Ex IrTy) {Δ vs Γ t g g' c σ ρ}, Code M T Δ vs Γ g → Apart Δ Γ (binderSyms e) → HasTy Δ vs Γ e t → genExpr g e = some (g', c) →
    EnvRel M T Γ g σ ρ → Post (eval k ρ c) (fun v => ∃ V, Ev T σ (e.map (overData Δ)) (.ok V) ∧ Rel M T V v) (fun m => Ev T σ (e.map (overData Δ)) (.trap m))
  | .paren e, Δ, vs, Γ, t, g, g', c, σ, ρ, hC, ha, h, hg, he => by
    simp only [HasTy] at h
    simp only [binderSyms] at ha
    simp only [genExpr] at hg
    refine (simE hM ihE ihA e hC ha h hg he).mono ?_ ?_
    · rintro v ⟨V, h1, h2⟩
      exact ⟨V, by simpa only [Ex.map] using .paren h1, h2⟩
    · intro m hm
      simpa only [Ex.map] using .paren hm
  | .name s inst, Δ, vs, Γ, t, g, g', c, σ, ρ, hC, ha, h, hg, he => by
    simp only [HasTy] at h
    obtain ⟨sch, h1, -⟩ := h
    simp only [genExpr, Option.bind_eq_some_iff, Option.map_eq_some_iff] at hg
    obtain ⟨n, hn, ts, -, hg⟩ := hg
    cases hg
    obtain ⟨V, v, n', h2, h3, -, h4, h5⟩ := he s sch h1
    rw [hn] at h3; cases h3
    exact post_piApps (post_name h4 ⟨V, by simpa only [Ex.map] using .name h2, h5⟩)
  | .apply f a, Δ, vs, Γ, t, g, g', c, σ, ρ, hC, ha, h, hg, he => by
    simp only [HasTy] at h
    obtain ⟨u, h1, h2⟩ := h
    simp only [binderSyms] at ha
    simp only [genExpr, Option.bind_eq_some_iff, Option.map_eq_some_iff] at hg
    obtain ⟨⟨g1, c1⟩, e1, ⟨g2, c2⟩, e2, hg⟩ := hg
    cases hg
    have x1 := ext_genExpr f e1
    cases k with
    | zero => trivial
    | succ k =>
    have r1 := ihE k (Nat.lt_succ_self _) f hC ha.left h1 e1 he
    have r2 := ihE k (Nat.lt_succ_self _) a (hC.ext x1 ha.left.2) ha.right h2 e2 (he.ext x1 fun b hb => (ha.left.2 b hb).1)
    simp only [Ex.map]
    refine post_call (r1.mono (fun _ h => h) fun m hm => .applyL hm) (fun F hF => r2.mono (fun _ h => h) fun m hm => .applyR hF.choose_spec.1 hm) ?_
    rintro F A ⟨VF, f1, f2⟩ ⟨VA, a1, a2⟩
    refine (ihA k (Nat.lt_succ_self _) _ _ _ _ f2 a2).mono ?_ fun m hm => .apply f1 a1 hm
    rintro v ⟨V, v1, v2⟩
    exact ⟨V, .apply f1 a1 v1, v2⟩
  | .pipe a f, Δ, vs, Γ, t, g, g', c, σ, ρ, hC, ha, h, hg, he => by
    simp only [HasTy] at h
    obtain ⟨u, h1, h2⟩ := h
    simp only [binderSyms] at ha
    simp only [genExpr, Option.bind_eq_some_iff, Option.map_eq_some_iff] at hg
    obtain ⟨⟨g1, c1⟩, e1, ⟨g2, c2⟩, e2, hg⟩ := hg
    cases hg
    have x1 := ext_genExpr a e1
    cases k with
    | zero => trivial
    | succ k =>
    have r1 := ihE k (Nat.lt_succ_self _) a hC ha.left h1 e1 he
    have r2 := ihE k (Nat.lt_succ_self _) f (hC.ext x1 ha.left.2) ha.right h2 e2 (he.ext x1 fun b hb => (ha.left.2 b hb).1)
    simp only [Ex.map]
    refine post_call (r2.mono (fun _ h => h) fun m hm => .pipeL hm) (fun F hF => r1.mono (fun _ h => h) fun m hm => .pipeR hF.choose_spec.1 hm) ?_
    rintro F A ⟨VF, f1, f2⟩ ⟨VA, a1, a2⟩
    refine (ihA k (Nat.lt_succ_self _) _ _ _ _ f2 a2).mono ?_ fun m hm => .pipe f1 a1 hm
    rintro v ⟨V, v1, v2⟩
    exact ⟨V, .pipe f1 a1 v1, v2⟩
  | .binary o l r, Δ, vs, Γ, t, g, g', c, σ, ρ, hC, ha, h, hg, he => by
    simp only [HasTy] at h
    obtain ⟨h1, h2, -⟩ := h
    simp only [binderSyms] at ha
    simp only [genExpr, Option.bind_eq_some_iff, Option.map_eq_some_iff] at hg
    obtain ⟨⟨g1, c1⟩, e1, ⟨g2, c2⟩, e2, hg⟩ := hg
    cases hg
    have x1 := ext_genExpr l e1
    cases k with
    | zero => trivial
    | succ k =>
    have r1 := ihE k (Nat.lt_succ_self _) l hC ha.left h1 e1 he
    have r2 := ihE k (Nat.lt_succ_self _) r (hC.ext x1 ha.left.2) ha.right h2 e2 (he.ext x1 fun b hb => (ha.left.2 b hb).1)
    simp only [Ex.map]
    rw [eval_op]
    refine Post.bind (r1.mono ?_ fun m hm => .binaryL hm)
    rintro v ⟨V, v1, v2⟩
    cases v2 with
    | @int x =>
      simp only [Val.intoInt, Res.bind_ok]
      refine Post.bind (r2.mono ?_ fun m hm => .binaryR v1 hm)
      rintro w ⟨W, w1, w2⟩
      cases w2 with
      | @int y => exact ⟨_, .binary v1 w1, evalOp_rel o x y⟩
      | _ => trivial
    | _ => trivial
  | .let_ s vars ann ty v rest, Δ, vs, Γ, t, g, g', c, σ, ρ, hC, ha, h, hg, he => by
    simp only [HasTy] at h
    obtain ⟨hann, hnone, hvars, hwf, h1, h2⟩ := h
    simp only [binderSyms] at ha
    simp only [genExpr, Option.bind_eq_some_iff, Option.map_eq_some_iff] at hg
    obtain ⟨⟨g1, c1⟩, e1, tvs, -, ⟨g2, c2⟩, e2, hg⟩ := hg
    cases hg
    have x1 := ext_genExpr v e1
    have hsd := ha.2 s (by simp)
    have hsd' : ∀ b ∈ [s], Γ.find b = none ∧ declOf Δ b = none := by
      intro b hb; simp only [List.mem_singleton] at hb; rw [hb]; exact hsd
    have hvd : ∀ v ∈ vars, declOf Δ v = none ∧ Γ.find v = none := fun v hv' => ⟨(hvars v hv').2, (ha.tail.left.2 v hv').1⟩
    have a2 : Apart Δ ((s, ⟨vars, ty⟩) :: Γ) (vars ++ (binderSyms v ++ binderSyms rest)) := ha.add
    have C0 := hC.ext (ext_genName g s) hsd'
    have C1 : Code M T Δ (vars ++ vs) Γ ((g.genName s).1.freshInst vars) := ⟨C0.scope.vars_append hvd, C0.names.ext (ext_freshInst vars _), C0.fields⟩
    have v1 := (he.ext (ext_genName g s) fun b hb => (hsd' b hb).1).ext (ext_freshInst vars _) fun b hb => (hvd b hb).2
    cases k with
    | zero => trivial
    | succ k =>
    have r1 : ∀ j, j ≤ k → _ := fun j hj => ihE j (Nat.lt_succ_of_le hj) v C1 ha.tail.right.left h1 e1 v1
    simp only [Ex.map]
    rw [eval_let]
    refine Post.bind ((post_pis r1).mono ?_ fun m hm => .letL hm)
    rintro w ⟨W, w1, w2⟩
    have C2 : Code M T Δ vs ((s, ⟨vars, ty⟩) :: Γ) g1 := ((hC.add hsd.2).ext (ext_freshInst vars _) a2.left.2).ext x1 a2.right.left.2
    have v2 : EnvRel M T ((s, ⟨vars, ty⟩) :: Γ) g1 ((s, W) :: σ) ((g.names, w) :: ρ) :=
      (((he.add (s := s) (sch := ⟨vars, ty⟩) w2).ext (ext_freshInst vars _) fun b hb => (a2.left.2 b hb).1).ext x1 fun b hb => (a2.right.left.2 b hb).1)
    refine (ihE k (Nat.lt_succ_self _) rest C2 a2.right.right h2 e2 v2).mono ?_ fun m hm => .let_ w1 hm
    rintro u ⟨U, u1, u2⟩
    exact ⟨U, .let_ w1 u1, u2⟩
  | .match_ d dty cases, Δ, vs, Γ, t, g, g', c, σ, ρ, hC, ha, h, hg, he => by
    simp only [HasTy] at h
    obtain ⟨h1, hw, decl, args, recTy, hd, hlen, hdty, hcov, h2⟩ := h
    simp only [binderSyms] at ha
    simp only [genExpr, Option.bind_eq_some_iff, Option.map_eq_some_iff] at hg
    obtain ⟨⟨g1, c1⟩, e1, b, hb, ⟨g2, c2⟩, e2, hg⟩ := hg
    cases hg
    have x1 := ext_genExpr d e1
    cases k with
    | zero => trivial
    | succ k =>
    have r1 := ihE k (Nat.lt_succ_self _) d hC ha.left h1 e1 he
    simp only [Ex.map]
    rw [eval_mtch]
    refine Post.bind (r1.mono ?_ fun m hm => .matchL hm)
    rintro v ⟨V, v1, v2⟩
    cases v2 with
    | @comp cc n Fs fs q1 q2 q3 =>
      simp only [Val.intoComp, Res.bind_ok, runBranch]
      cases hbr : findBranch n c2 with
      | none => trivial
      | some br =>
        obtain ⟨-, pvs, body, ga, gb, cb, p1, rfl, p3, p4, p5, p6, p7⟩ := cases_find hM q1 cases (hC.ext x1 ha.left.2) ha.right h2 e2
          (he.ext x1 fun b hb => (ha.left.2 b hb).1) hbr
        simp only [Branch.binds, Branch.body, genNames_length, List.length_map]
        split
        · rename_i hl
          have hl' : (pvs.map (·.1)).length = Fs.length := by rw [List.length_map, hl, q2]
          refine (ihE k (Nat.lt_succ_self _) body p4 p5 p6 p3 (p7.addAll hl.symm q2 q3)).mono ?_ fun m hm => .match_ v1 p1 hl' hm
          rintro u ⟨U, u1, u2⟩
          exact ⟨U, .match_ v1 p1 hl' u1, u2⟩
        · trivial
    | _ => trivial
  | .ite a b e, Δ, vs, Γ, t, g, g', c, σ, ρ, hC, ha, h, hg, he => by
    simp only [HasTy] at h
    obtain ⟨h1, h2, h3⟩ := h
    simp only [binderSyms] at ha
    simp only [genExpr, Option.bind_eq_some_iff, Option.map_eq_some_iff] at hg
    obtain ⟨⟨g1, c1⟩, e1, ⟨g2, c2⟩, e2, ⟨g3, c3⟩, e3, hg⟩ := hg
    cases hg
    have x1 := ext_genExpr a e1
    have x2 := ext_genExpr b e2
    have C1 := hC.ext x1 ha.left.2
    have v1 := he.ext x1 fun b hb => (ha.left.2 b hb).1
    cases k with
    | zero => trivial
    | succ k =>
    have r1 := ihE k (Nat.lt_succ_self _) a hC ha.left h1 e1 he
    have r2 := ihE k (Nat.lt_succ_self _) b C1 ha.right.left h2 e2 v1
    have r3 := ihE k (Nat.lt_succ_self _) e (C1.ext x2 ha.right.left.2) ha.right.right h3 e3 (v1.ext x2 fun b hb => (ha.right.left.2 b hb).1)
    simp only [Ex.map]
    rw [eval_ite]
    refine Post.bind (r1.mono ?_ fun m hm => .iteL hm)
    rintro v ⟨V, w1, w2⟩
    cases w2 with
    | @bool x =>
      cases x
      · refine r3.mono ?_ fun m hm => .iteF w1 hm
        rintro u ⟨U, u1, u2⟩
        exact ⟨U, .iteF w1 u1, u2⟩
      · refine r2.mono ?_ fun m hm => .iteT w1 hm
        rintro u ⟨U, u1, u2⟩
        exact ⟨U, .iteT w1 u1, u2⟩
    | _ => trivial
  | .bool b, Δ, vs, Γ, t, g, g', c, σ, ρ, hC, ha, h, hg, he => by
    simp only [genExpr, Option.some.injEq, Prod.mk.injEq] at hg
    rw [← hg.2]
    cases k with
    | zero => trivial
    | succ k => exact ⟨.bool b, by simpa only [Ex.map] using .bool, .bool⟩
  | .number b, Δ, vs, Γ, t, g, g', c, σ, ρ, hC, ha, h, hg, he => by
    simp only [genExpr, Option.some.injEq, Prod.mk.injEq] at hg
    rw [← hg.2]
    cases k with
    | zero => trivial
    | succ k => exact ⟨.int b, by simpa only [Ex.map] using .number, .int⟩
  | .str b, Δ, vs, Γ, t, g, g', c, σ, ρ, hC, ha, h, hg, he => by
    simp only [genExpr, Option.some.injEq, Prod.mk.injEq] at hg
    rw [← hg.2]
    cases k with
    | zero => trivial
    | succ k => exact ⟨.str b, by simpa only [Ex.map] using .str, .str⟩
  | .lambda true p pty fty body, Δ, vs, Γ, t, g, g', c, σ, ρ, hC, ha, h, hg, he => by
    simp only [HasTy] at h
    obtain ⟨rfl, hw, a, b, rfl, hf, rfl, h1⟩ := h
    rw [WfTy] at hw
    simp only [binderSyms] at ha
    simp only [genExpr, genTy, Option.bind_eq_some_iff, Option.map_eq_some_iff] at hg
    obtain ⟨ft, ⟨ta, t1, tb, t2, rfl⟩, hg⟩ := hg
    simp only [Option.bind_eq_some_iff, Option.map_eq_some_iff] at hg
    obtain ⟨⟨g1, c1⟩, e1, ⟨g2, c2⟩, e2, hg⟩ := hg
    cases hg
    cases k with
    | zero => trivial
    | succ k =>
    have hev : eval (k + 1) ρ (.letrec (g.genName p).1.fresh.1.fresh.2 (.fn [ta] tb) (.lam [((g.genName p).1.fresh.2, ta)] (.let_ (g.genName p).2 c2 c1)) (.name (g.genName p).1.fresh.1.fresh.2)) =
        eval k ((g.names + 1 + 1, .rclo ρ (g.names + 1 + 1) [g.names + 1] (.let_ g.names c2 c1)) :: ρ) (.name (g.names + 1 + 1)) := rfl
    rw [hev]
    refine post_name (v := .rclo ρ (g.names + 1 + 1) [g.names + 1] (.let_ g.names c2 c1)) (by simp [lookup])
      ⟨.foldFn (overData Δ (.fn a b)) σ p (body.map (overData Δ)), ?_, ?_⟩ k
    · simpa only [Ex.map] using .fold
    · obtain ⟨V, v, ks, k1, k2⟩ := he.choose
      exact Rel.foldFn hC ha hw.1 hf h1 t1 e1 e2 k1 k2
  | .lambda false p pty fty body, Δ, vs, Γ, t, g, g', c, σ, ρ, hC, ha, h, hg, he => by
    simp only [HasTy] at h
    obtain ⟨rfl, hw, b, rfl, h1⟩ := h
    simp only [binderSyms] at ha
    simp only [genExpr, Option.bind_eq_some_iff, Option.map_eq_some_iff] at hg
    obtain ⟨⟨g1, c1⟩, e1, ⟨g2, c2⟩, e2, hg⟩ := hg
    cases hg
    cases k with
    | zero => trivial
    | succ k =>
    obtain ⟨V, v, ks, k1, k2⟩ := he.choose
    exact ⟨.fn σ p (body.map (overData Δ)), by simpa only [Ex.map] using .lambda, Rel.fn hC ha h1 e1 k1 k2⟩
  | .hole text ty, Δ, vs, Γ, t, g, g', c, σ, ρ, hC, ha, h, hg, he => by
    simp only [genExpr, Option.map_eq_some_iff] at hg
    obtain ⟨ty', -, hg⟩ := hg
    cases hg
    cases k with
    | zero => trivial
    | succ k =>
    show Ev T σ _ _
    simpa only [Ex.map] using .hole

end Tic.Front
