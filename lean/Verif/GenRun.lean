import Verif.GenSound
/-
The fundamental lemma: the code generated for a well-typed expression runs to a value of its type,
or to a hole.
-/
namespace Tic.Front
open Tic.Unify (Symbol IrTy)
open Tic.Core

theorem mapOpt_get {α β : Type} {f : α → Option β} : ∀ {xs ys}, mapOpt f xs = some ys → ∀ x ∈ xs, ∃ y ∈ ys, f x = some y
  | x :: xs, ys, h, z, hz => by
    simp only [mapOpt, Option.bind_eq_some_iff, Option.map_eq_some_iff] at h
    obtain ⟨y', h1, ys', h2, rfl⟩ := h
    rcases List.mem_cons.mp hz with rfl | hz
    · exact ⟨y', by simp, h1⟩
    · obtain ⟨y, h3, h4⟩ := mapOpt_get h2 z hz
      exact ⟨y, by simp [h3], h4⟩

/-- A fold over a declared type: by induction over the value. -/
theorem fold_runs {M : Sem} {Δ : List TypeDecl} (F : Fix M Δ) {g g1 g2 : Gen} {d : TypeDecl} {args : List IrTy} {tn : Name} {tas : List Ty} {out : Ty}
    {b : IrTy} {η : Symbol → VSet} {ρ : Env} {fold temp real : Name} {rf body : Expr} (hd : declOf Δ d.sym = some d) (hl : args.length = d.vars.length)
    (hG : GenOK Δ g) (hA : Agrees M g) (hn : g.symNames d.sym = some tn) (hg1 : g1.typeCtors = g.typeCtors) (hgf : g1.ctorFields = g.ctorFields)
    (hp : foldParam fold temp (.named tn tas) out g1 = some (g2, rf)) (hlt : fold < g1.names) (hft : fold ≠ temp)
    (hbody : ∀ w x y, interp M (tyEnv M Δ) η (.folded (.named d.sym args) b) w →
      RunsTo M.H (fun n => eval n ((real, w) :: (fold, x) :: (temp, y) :: ρ) body) (interp M (tyEnv M Δ) η b)) :
    Arrow M.H (interp M (tyEnv M Δ) η (.named d.sym args)) (interp M (tyEnv M Δ) η b) (.rclo ρ fold [temp] (.let_ real rf body)) := by
  refine ⟨rfl, fun arg harg => ?_⟩
  have hδ := tyEnv_some (M := M) F.decls F.vars hd
  simp only [interp, hδ] at harg hbody
  simp only [foldParam, Option.bind_eq_some_iff, Option.map_eq_some_iff] at hp
  obtain ⟨cs, hcs, ⟨g3, bs⟩, hbs, hp⟩ := hp
  cases hp
  rw [hg1] at hcs
  have hsym := hG.typeCtors_sym hd hn hcs
  obtain ⟨tn', cs', q1, q2, q3⟩ := hG.name _ d hd
  rw [hn] at q1; cases q1
  rw [hcs] at q2; cases q2
  generalize hv : Val.rclo ρ fold [temp] (.let_ real (.mtch (.name temp) bs) body) = clo
  induction harg with
  | @mk c nn fields fs h1 h2 h3 h4 h5 ih =>
    obtain ⟨fs0, hc, rfl⟩ := mem_declSig h1
    obtain ⟨k, hk, hkc⟩ := mapOpt_get q3 c (List.mem_map.mpr ⟨_, hc, rfl⟩)
    obtain ⟨k', h6, h7, h8⟩ := hG.ctor _ d hd _ hc
    simp only at h6 h7 h8
    rw [hkc] at h6; cases h6
    have hA' := hA c k hkc
    rw [h2] at hA'
    have hreg : nn = k.regular := by simpa using hA'.1
    subst hreg
    obtain ⟨ns, n1, n2, n3, n4⟩ := foldBranches_find F.reg hbs
      (fun c' hc' => by
        obtain ⟨x, -, hx, hy, -⟩ := hsym c' hc'
        rw [hy]
        exact (hA _ _ hx).1) (fun _ _ => hlt) k hk fs0 (by rw [hgf, h7]; exact h8) (fun c' hc' he => by
          obtain ⟨x, -, hx, hy, -⟩ := hsym c' hc'
          rw [← hy, he, h7, hkc] at hx
          cases hx
          rfl)
    have hfs : fs.length = fs0.length := by simpa using h3
    have hstep : RunsTo M.H (fun n => eval n ((fold, clo) :: (temp, .comp k.regular fs) :: ρ) (.let_ real (.mtch (.name temp) bs) body)) (interp M (tyEnv M Δ) η b) := by
      refine runs_let (S := Lay M.fold (declSig M (tyEnv M Δ) d (interps M (tyEnv M Δ) η args)) (interp M (tyEnv M Δ) η b)) ?_ fun w hw => hbody w _ _ hw
      refine runs_mtch (S := fun v => v = .comp k.regular fs) (runs_name (v := .comp k.regular fs) (by simp [lookup, hft]) rfl) ?_
      rintro v rfl
      refine ⟨_, _, rfl, ?_⟩
      have hlen : ns.length = fs.length := by rw [n2, hfs]
      simp only [runBranch, n4, Branch.binds, Branch.body, hlen, if_true]
      refine runs_con (Ss := (fs0.map (fieldSem M (tyEnv M Δ) (bindVars d.vars (interps M (tyEnv M Δ) η args) fun _ _ => False))).map fun S => S.getD (interp M (tyEnv M Δ) η b))
        (by simp [n2]) (by simp; exact ((F.decls.field hd).2 _ hc).1) ?_ ?_
      · intro i e S he hS
        simp only [List.getElem?_map, List.getElem?_zip_eq_some, Option.map_eq_some_iff] at he hS
        obtain ⟨⟨f, x⟩, ⟨hf, hx⟩, rfl⟩ := he
        obtain ⟨S', ⟨f', hf', rfl⟩, rfl⟩ := hS
        simp only at hf hx
        rw [hf] at hf'; cases hf'
        have hi : i < fs.length := by
          have := (List.getElem?_eq_some_iff.mp hf).1
          omega
        have hfi : fs[i]? = some fs[i] := List.getElem?_eq_getElem hi
        have hlook : lookup x (bindAll ((fold, clo) :: (temp, .comp k.regular fs) :: ρ) ns fs) = .ok fs[i] := lookup_bindAll_in n1 hx hfi
        cases f with
        | ty t =>
          simp only [foldField]
          exact runs_name hlook (h4 i _ _ (by simp [hf, fieldSem]) hfi)
        | rec_ =>
          simp only [foldField, fieldSem, Option.getD_none]
          refine runs_call (A := fun v => v = fs[i]) (runs_name (v := clo) (by rw [lookup_bindAll_out n3]; simp [lookup]) ?_) (runs_name hlook rfl)
          refine ⟨by rw [← hv]; rfl, ?_⟩
          rintro a rfl
          exact ih i _ (by simp [hf, fieldSem]) hfi
      · intro ws hl hws
        refine ⟨c, k.folded, _, ws, rfl, h1, hA'.2, by simpa using hl, fun i S w hS hw => ?_⟩
        exact hws i _ w (by rw [List.getElem?_map, hS]; rfl) hw
    have happ : (fun n => applyFn (eval n) clo [.comp k.regular fs]) = fun n => eval n ((fold, clo) :: (temp, .comp k.regular fs) :: ρ) (.let_ real (.mtch (.name temp) bs) body) := by
      funext m
      rw [← hv]
      simp [applyFn, bindAll]
    rw [happ]
    exact hstep

mutual
/-- The code generated for an expression of type `t` runs to a value of `t`, or to a hole. -/
theorem gen_sound {M : Sem} {Δ : List TypeDecl} (F : Fix M Δ) : ∀ (e : Ex IrTy) {vs Γ t g g' c}, ScopeOK Δ vs Γ g → Agrees M g →
    Apart Δ Γ (binderSyms e) → PlainLets e → (∀ x ∈ holes e, M.H ("encountered " ++ x)) → HasTy Δ vs Γ e t → genExpr g e = some (g', c) →
    ∀ {η ρ}, ValsOK M Δ vs η Γ g ρ → RunsTo M.H (fun n => eval n ρ c) (interp M (tyEnv M Δ) η t)
  | .name s inst, vs, Γ, t, g, g', c, hs, hA, ha, hp, hh, h, hg, η, ρ, hv => by
    simp only [HasTy] at h
    obtain ⟨sch, h1, h2, h3, rfl⟩ := h
    simp only [genExpr, Option.bind_eq_some_iff, Option.map_eq_some_iff] at hg
    obtain ⟨n, hn, ts, -, hg⟩ := hg
    cases hg
    obtain ⟨w1, w2, w3, n', v, w4, -, w5, w6⟩ := hv s sch h1
    rw [hn] at w4; cases w4
    refine runs_piApps (runs_name w5 ?_)
    rcases w2 with w2 | w2
    · have := w6 [] (by simp [w2])
      simp only [w2, bindVars] at this
      simpa [w2, substTy_nil] using this
    · rw [interp_subst (fun v hv => tyEnv_none.mpr (w3 v hv)) w2]
      exact w6 _ (by rw [interps_length, h2])
  | .apply f a, vs, Γ, t, g, g', c, hs, hA, ha, hp, hh, h, hg, η, ρ, hv => by
    simp only [HasTy] at h
    obtain ⟨u, h1, h2⟩ := h
    simp only [binderSyms] at ha
    simp only [PlainLets] at hp
    simp only [holes, List.mem_append] at hh
    simp only [genExpr, Option.bind_eq_some_iff, Option.map_eq_some_iff] at hg
    obtain ⟨⟨g1, c1⟩, e1, ⟨g2, c2⟩, e2, hg⟩ := hg
    cases hg
    have x1 := ext_genExpr f e1
    have r1 := gen_sound F f hs hA ha.left hp.1 (fun x hx => hh x (.inl hx)) h1 e1 hv
    have r2 := gen_sound F a (hs.ext x1 ha.left.2) (hA.ext x1) ha.right hp.2 (fun x hx => hh x (.inr hx)) h2 e2
      (hv.ext x1 fun b hb => (ha.left.2 b hb).1)
    exact runs_call (by simpa only [interp] using r1) r2
  | .binary o l r, vs, Γ, t, g, g', c, hs, hA, ha, hp, hh, h, hg, η, ρ, hv => by
    simp only [HasTy] at h
    obtain ⟨h1, h2, rfl⟩ := h
    simp only [binderSyms] at ha
    simp only [PlainLets] at hp
    simp only [holes, List.mem_append] at hh
    simp only [genExpr, Option.bind_eq_some_iff, Option.map_eq_some_iff] at hg
    obtain ⟨⟨g1, c1⟩, e1, ⟨g2, c2⟩, e2, hg⟩ := hg
    cases hg
    have x1 := ext_genExpr l e1
    have r1 := gen_sound F l hs hA ha.left hp.1 (fun x hx => hh x (.inl hx)) h1 e1 hv
    have r2 := gen_sound F r (hs.ext x1 ha.left.2) (hA.ext x1) ha.right hp.2 (fun x hx => hh x (.inr hx)) h2 e2
      (hv.ext x1 fun b hb => (ha.left.2 b hb).1)
    simp only [interp] at r1 r2
    refine runs_op r1 r2 fun x y => ?_
    cases o <;> simp [opTy, interp, evalOp, Classical.em]
  | .pipe l r, vs, Γ, t, g, g', c, hs, hA, ha, hp, hh, h, hg, η, ρ, hv => by
    simp only [HasTy] at h
    obtain ⟨u, h1, h2⟩ := h
    simp only [binderSyms] at ha
    simp only [PlainLets] at hp
    simp only [holes, List.mem_append] at hh
    simp only [genExpr, Option.bind_eq_some_iff, Option.map_eq_some_iff] at hg
    obtain ⟨⟨g1, c1⟩, e1, ⟨g2, c2⟩, e2, hg⟩ := hg
    cases hg
    have x1 := ext_genExpr l e1
    have r1 := gen_sound F l hs hA ha.left hp.1 (fun x hx => hh x (.inl hx)) h1 e1 hv
    have r2 := gen_sound F r (hs.ext x1 ha.left.2) (hA.ext x1) ha.right hp.2 (fun x hx => hh x (.inr hx)) h2 e2
      (hv.ext x1 fun b hb => (ha.left.2 b hb).1)
    exact runs_call (by simpa only [interp] using r2) r1
  | .let_ s vars ann ty v rest, vs, Γ, t, g, g', c, hs, hA, ha, hp, hh, h, hg, η, ρ, hv => by
    simp only [HasTy] at h
    obtain ⟨hann, hnone, hvars, hwf, h1, h2⟩ := h
    simp only [binderSyms] at ha
    simp only [PlainLets] at hp
    simp only [holes, List.mem_append] at hh
    simp only [genExpr, Option.bind_eq_some_iff, Option.map_eq_some_iff] at hg
    obtain ⟨⟨g1, c1⟩, e1, tvs, -, ⟨g2, c2⟩, e2, hg⟩ := hg
    cases hg
    have x1 := ext_genExpr v e1
    have hsd := ha.2 s (by simp)
    have hsd' : ∀ b ∈ [s], Γ.find b = none ∧ declOf Δ b = none := by
      intro b hb; simp only [List.mem_singleton] at hb; rw [hb]; exact hsd
    have hvd : ∀ v ∈ vars, declOf Δ v = none ∧ Γ.find v = none := fun v hv' => ⟨(hvars v hv').2, (ha.tail.left.2 v hv').1⟩
    have s1 := (hs.ext (ext_genName g s) hsd').vars_append hvd
    have v1 := (hv.ext (ext_genName g s) fun b hb => (hsd' b hb).1).ext (ext_freshInst vars _) fun b hb => (hvd b hb).2
    have r1 : ∀ i : { Ss : List VSet // Ss.length = vars.length },
        RunsTo M.H (fun n => eval n ρ c1) (interp M (tyEnv M Δ) (bindVars vars i.1 η) ty) := fun i =>
      gen_sound F v s1 ((hA.ext (ext_genName g s)).ext (ext_freshInst vars _)) ha.tail.right.left hp.2.1 (fun x hx => hh x (.inl hx)) h1 e1
        (v1.tyvars (fun x hx => (hvars x hx).1) i.1)
    haveI : Inhabited { Ss : List VSet // Ss.length = vars.length } := ⟨⟨List.replicate vars.length fun _ => False, by simp⟩⟩
    have r2 := runs_pis (vs := tvs) (RunsTo.all (monoR_eval ρ c1) r1)
    have a2 : Apart Δ ((s, ⟨vars, ty⟩) :: Γ) (vars ++ (binderSyms v ++ binderSyms rest)) := ha.add
    refine runs_let r2 fun w hw => ?_
    have hadd := hv.add (s := s) (sch := ⟨vars, ty⟩) (v := w) hwf (by
      cases ann with
      | none => exact .inl (hnone rfl)
      | some a =>
        rw [hann a rfl]
        exact .inr (hp.1 a rfl)) (fun x hx => (hvars x hx).2) (fun Ss hl => hw ⟨Ss, hl⟩)
    exact gen_sound F rest (((hs.add hsd.2).ext (ext_freshInst vars _) a2.left.2).ext x1 a2.right.left.2)
      (((hA.ext (ext_genName g s)).ext (ext_freshInst vars _)).ext x1) a2.right.right hp.2.2 (fun x hx => hh x (.inr hx)) h2 e2
      ((hadd.ext (ext_freshInst vars _) fun b hb => (a2.left.2 b hb).1).ext x1 fun b hb => (a2.right.left.2 b hb).1)
  | .match_ d dty cases, vs, Γ, t, g, g', c, hs, hA, ha, hp, hh, h, hg, η, ρ, hv => by
    simp only [HasTy] at h
    obtain ⟨h1, hw, decl, args, recTy, hd, hlen, hdty, hcov, h2⟩ := h
    simp only [binderSyms] at ha
    simp only [PlainLets] at hp
    simp only [holes, List.mem_append] at hh
    simp only [genExpr, Option.bind_eq_some_iff, Option.map_eq_some_iff] at hg
    obtain ⟨⟨g1, c1⟩, e1, b, hb, ⟨g2, c2⟩, e2, hg⟩ := hg
    cases hg
    have x1 := ext_genExpr d e1
    have r1 := gen_sound F d hs hA ha.left hp.1 (fun x hx => hh x (.inl hx)) h1 e1 hv
    have s1 := hs.ext x1 ha.left.2
    have v1 := hv.ext x1 fun b hb => (ha.left.2 b hb).1
    have hδ := tyEnv_some (M := M) F.decls F.vars hd
    have hlay : ∀ v, interp M (tyEnv M Δ) η dty v → Lay (if b then M.fold else M.reg)
        (declSig M (tyEnv M Δ) decl (interps M (tyEnv M Δ) η args)) (interp M (tyEnv M Δ) η recTy) v := by
      rcases hdty with ⟨rfl, rfl⟩ | rfl
      · simp only [foldedMatch, Option.some.injEq] at hb
        subst hb
        simp only [interp, hδ, Bool.false_eq_true, if_false]
        exact fun v hv => mu_lay.mp hv
      · simp only [foldedMatch, Option.some.injEq] at hb
        subst hb
        simp only [interp, hδ, if_true]
        exact fun v hv => hv
    have hwa : WfTys Δ vs args ∧ WfTy Δ vs recTy := by
      rcases hdty with ⟨rfl, rfl⟩ | rfl
      · refine ⟨?_, hw⟩
        simp only [WfTy] at hw
        exact hw.2.2
      · rw [WfTy, WfTy] at hw
        exact ⟨hw.1.2.2, hw.2⟩
    refine runs_mtch r1 fun v hvv => ?_
    obtain ⟨k, n, fields, fs, rfl, q1, q2, q3, q4⟩ := hlay v hvv
    obtain ⟨fs0, hc, rfl⟩ := mem_declSig q1
    refine ⟨n, fs, rfl, ?_⟩
    obtain ⟨kc, hk1, hk2⟩ := hcov _ hc
    refine genCases_sound F cases s1 (hA.ext x1) ha.right hp.2 (fun x hx => hh x (.inr hx)) hd hlen hwa.1 hwa.2 h2 e2 v1 hc
      ⟨kc, hk1, hk2⟩ q2 (by simpa using q3) fun i f v hf hfv => ?_
    have := q4 i _ v (by rw [List.getElem?_map, hf]; rfl) hfv
    rwa [fieldSem_ty F hd hlen hc (List.mem_of_getElem? hf)] at this
  | .ite a b e, vs, Γ, t, g, g', c, hs, hA, ha, hp, hh, h, hg, η, ρ, hv => by
    simp only [HasTy] at h
    obtain ⟨h1, h2, h3⟩ := h
    simp only [binderSyms] at ha
    simp only [PlainLets] at hp
    simp only [holes, List.mem_append] at hh
    simp only [genExpr, Option.bind_eq_some_iff, Option.map_eq_some_iff] at hg
    obtain ⟨⟨g1, c1⟩, e1, ⟨g2, c2⟩, e2, ⟨g3, c3⟩, e3, hg⟩ := hg
    cases hg
    have x1 := ext_genExpr a e1
    have x2 := ext_genExpr b e2
    have s1 := hs.ext x1 ha.left.2
    have v1 := hv.ext x1 fun b hb => (ha.left.2 b hb).1
    have r1 := gen_sound F a hs hA ha.left hp.1 (fun x hx => hh x (.inl hx)) h1 e1 hv
    have r2 := gen_sound F b s1 (hA.ext x1) ha.right.left hp.2.1 (fun x hx => hh x (.inr (.inl hx))) h2 e2 v1
    have r3 := gen_sound F e (s1.ext x2 ha.right.left.2) ((hA.ext x1).ext x2) ha.right.right hp.2.2 (fun x hx => hh x (.inr (.inr hx))) h3 e3
      (v1.ext x2 fun b hb => (ha.right.left.2 b hb).1)
    simp only [interp] at r1
    exact runs_ite r1 r2 r3
  | .bool b, vs, Γ, t, g, g', c, hs, hA, ha, hp, hh, h, hg, η, ρ, hv => by
    simp only [HasTy] at h
    subst h
    simp only [genExpr, Option.some.injEq, Prod.mk.injEq] at hg
    rw [← hg.2]
    exact RunsTo.step (RunsTo.ok (v := .bool b) rfl ⟨b, rfl⟩)
  | .number i, vs, Γ, t, g, g', c, hs, hA, ha, hp, hh, h, hg, η, ρ, hv => by
    simp only [HasTy] at h
    subst h
    simp only [genExpr, Option.some.injEq, Prod.mk.injEq] at hg
    rw [← hg.2]
    exact RunsTo.step (RunsTo.ok (v := .int i) rfl ⟨i, rfl⟩)
  | .str b, vs, Γ, t, g, g', c, hs, hA, ha, hp, hh, h, hg, η, ρ, hv => by
    simp only [HasTy] at h
    subst h
    simp only [genExpr, Option.some.injEq, Prod.mk.injEq] at hg
    rw [← hg.2]
    exact RunsTo.step (RunsTo.ok (v := .str b) rfl ⟨b, rfl⟩)
  | .lambda true p pty fty body, vs, Γ, t, g, g', c, hs, hA, ha, hp, hh, h, hg, η, ρ, hv => by
    simp only [HasTy] at h
    obtain ⟨rfl, hw, a, b, rfl, hf, rfl, h1⟩ := h
    have hw' := hw
    rw [WfTy] at hw'
    simp only [binderSyms] at ha
    simp only [PlainLets] at hp
    simp only [holes] at hh
    have hsd := ha.2 p (by simp)
    simp only [genExpr, genTy, Option.bind_eq_some_iff, Option.map_eq_some_iff] at hg
    obtain ⟨ft, ⟨ta, t1, tb, t2, rfl⟩, hg⟩ := hg
    simp only [Option.bind_eq_some_iff, Option.map_eq_some_iff] at hg
    obtain ⟨⟨g1, c1⟩, e1, ⟨g2, c2⟩, e2, hg⟩ := hg
    cases hg
    have s1 : ScopeOK Δ vs ((p, mono (.folded a b)) :: Γ) (g.genName p).1.fresh.1.fresh.1 :=
      ((hs.add hsd.2).ext (ext_fresh _) (by simp)).ext (ext_fresh _) (by simp)
    have A1 : Agrees M (g.genName p).1.fresh.1.fresh.1 := ((hA.ext (ext_genName g p)).ext (ext_fresh _)).ext (ext_fresh _)
    have hbody : ∀ w x y, interp M (tyEnv M Δ) η (.folded a b) w →
        RunsTo M.H (fun n => eval n ((g.names, w) :: (g.names + 1 + 1, x) :: (g.names + 1, y) :: ρ) c1) (interp M (tyEnv M Δ) η b) := by
      intro w x y hw2
      have v1 := (((hv.junk (n := g.names + 1) (x := y) (Nat.le_succ _)).junk (n := g.names + 1 + 1) (x := x) (Nat.le_succ_of_le (Nat.le_succ _))).one (s := p) hw hw2)
      exact gen_sound F body s1 A1 ha.add hp hh h1 e1 ((v1.ext (ext_fresh _) (by simp)).ext (ext_fresh _) (by simp))
    refine RunsTo.step ?_
    have hev : ∀ n, eval (n + 1) ρ (.letrec (g.genName p).1.fresh.1.fresh.2 (.fn [ta] tb) (.lam [((g.genName p).1.fresh.2, ta)] (.let_ (g.genName p).2 c2 c1)) (.name (g.genName p).1.fresh.1.fresh.2)) =
        eval n ((g.names + 1 + 1, .rclo ρ (g.names + 1 + 1) [g.names + 1] (.let_ g.names c2 c1)) :: ρ) (.name (g.names + 1 + 1)) := fun n => rfl
    simp only [hev]
    refine runs_name (v := .rclo ρ (g.names + 1 + 1) [g.names + 1] (.let_ g.names c2 c1)) (by simp [lookup]) ?_
    rw [interp]
    have x1 := ext_genExpr body e1
    by_cases hnm : ∃ n as, ta = .named n as
    · obtain ⟨tn, tas, rfl⟩ := hnm
      obtain ⟨s, as, d, rfl, hd, hn⟩ := genTy_named hs hw'.1 hf t1
      have hds := declOf_sym hd
      subst hds
      have hwl := hw'.1
      simp only [WfTy] at hwl
      refine fold_runs F (g := g) (g1 := g1) hd (by rw [hwl.2.1]; simp [arity, hd]) hs.gen hA hn x1.typeCtors x1.fields e2
        (Nat.lt_of_lt_of_le (Nat.lt_succ_self _) x1.names) ?_ hbody
      exact (Nat.succ_ne_self _)
    · have hc2 : c2 = .name (g.names + 1) := by
        unfold foldParam at e2
        split at e2
        · exact absurd ⟨_, _, rfl⟩ hnm
        · cases e2; rfl
      subst hc2
      have hfa : interp M (tyEnv M Δ) η (.folded a b) = interp M (tyEnv M Δ) η a := by
        cases a with
        | named s as =>
          have hδ : tyEnv M Δ s = none := by
            rw [tyEnv_none]
            cases hd : declOf Δ s with
            | none => rfl
            | some d =>
              simp only [genTy, hs.gen.notVar s d hd, Option.bind_eq_some_iff, Option.map_eq_some_iff] at t1
              obtain ⟨m, -, ts, -, h⟩ := t1
              exact absurd ⟨m, ts, h.symm⟩ hnm
          simp only [interp, hδ]
        | folded => cases hf
        | _ => simp only [interp]
      refine ⟨rfl, fun arg harg => ?_⟩
      simp only [applyFn, List.length_singleton, if_true, bindAll]
      refine runs_let (S := interp M (tyEnv M Δ) η (.folded a b)) (runs_name (v := arg) (by simp [lookup]) (by rw [hfa]; exact harg)) fun w hw2 => hbody w _ _ hw2
  | .lambda false p pty fty body, vs, Γ, t, g, g', c, hs, hA, ha, hp, hh, h, hg, η, ρ, hv => by
    simp only [HasTy] at h
    obtain ⟨rfl, hw, b, rfl, h1⟩ := h
    simp only [binderSyms] at ha
    simp only [PlainLets] at hp
    simp only [holes] at hh
    have hsd := ha.2 p (by simp)
    simp only [genExpr, Option.bind_eq_some_iff, Option.map_eq_some_iff] at hg
    obtain ⟨⟨g1, c1⟩, e1, ⟨g2, c2⟩, e2, hg⟩ := hg
    cases hg
    refine RunsTo.step (RunsTo.ok (v := .clo ρ [g.names] c1) rfl ?_)
    rw [interp]
    refine arrow_clo fun a haa => ?_
    exact gen_sound F body (hs.add hsd.2) (hA.ext (ext_genName g p)) ha.add hp hh h1 e1 (hv.one hw haa)
  | .paren e, vs, Γ, t, g, g', c, hs, hA, ha, hp, hh, h, hg, η, ρ, hv => by
    simp only [HasTy] at h
    simp only [binderSyms] at ha
    simp only [PlainLets] at hp
    simp only [holes] at hh
    simp only [genExpr] at hg
    exact gen_sound F e hs hA ha hp hh h hg hv
  | .hole text ty, vs, Γ, t, g, g', c, hs, hA, ha, hp, hh, h, hg, η, ρ, hv => by
    simp only [genExpr, Option.map_eq_some_iff] at hg
    obtain ⟨ty', -, hg⟩ := hg
    cases hg
    exact ⟨1, .inr ⟨_, rfl, hh text (by simp [holes])⟩⟩
/-- ... for the cases of a match: the branch for the constructor is found and runs. -/
theorem genCases_sound {M : Sem} {Δ : List TypeDecl} (F : Fix M Δ) : ∀ (cs : List (Case IrTy)) {vs Γ t g g' bs b decl args recTy}, ScopeOK Δ vs Γ g → Agrees M g →
    Apart Δ Γ (casesBinderSyms cs) → PlainLetsCases cs → (∀ x ∈ holesCases cs, M.H ("encountered " ++ x)) →
    declOf Δ decl.sym = some decl → args.length = decl.vars.length → WfTys Δ vs args → WfTy Δ vs recTy →
    HasCases Δ vs Γ decl args recTy cs t → genCases b g cs = some (g', bs) →
    ∀ {η ρ}, ValsOK M Δ vs η Γ g ρ → ∀ {c fields n fs}, (c, fields) ∈ decl.ctors → (∃ k ∈ cs, k.ctor = c) →
    (if b then M.fold else M.reg) c = some n → fs.length = fields.length →
    (∀ (i : Nat) f v, fields[i]? = some f → fs[i]? = some v → interp M (tyEnv M Δ) η (fieldTy decl.vars args recTy f) v) →
    RunsTo M.H (fun m => runBranch (eval m) ρ bs n fs) (interp M (tyEnv M Δ) η t)
  | [], _, _, _, _, _, _, _, _, _, _, _, _, _, _, _, _, _, _, _, _, _, _, _, _, _, _, _, _, _, hk, _, _, _ => by
    obtain ⟨_, h, _⟩ := hk
    cases h
  | .mk c' pvs body :: cs, vs, Γ, t, g, g', bs, b, decl, args, recTy, hs, hA, ha, hp, hh, hd, hlen, hwa, hwr, h, hg, η, ρ, hv, c, fields, n, fs, hc, hk, hn, hl, hf => by
    simp only [HasCases] at h
    obtain ⟨⟨fields', hc', hpv⟩, h1, h2⟩ := h
    simp only [casesBinderSyms] at ha
    simp only [PlainLetsCases] at hp
    simp only [holesCases, List.mem_append] at hh
    simp only [genCases, Option.bind_eq_some_iff, Option.map_eq_some_iff] at hg
    obtain ⟨⟨g1, c1⟩, e1, cn, hcn, ⟨g2, bs2⟩, e2, hg⟩ := hg
    cases hg
    have x1 := ext_genExpr body e1
    obtain ⟨s1, a1⟩ := hs.addAll ha
    have hcn' : (if b then M.fold else M.reg) c' = some cn := by
      simp only [Gen.caseName, Option.map_eq_some_iff] at hcn
      obtain ⟨k, hk, rfl⟩ := hcn
      rw [x1.ctors, (ext_genNames _ g).ctors] at hk
      have := hA c' k hk
      cases b
      · exact this.1
      · exact this.2
    by_cases hcc : c' = c
    · subst hcc
      rw [hn] at hcn'
      cases hcn'
      have := ctor_unique (F.decls.field hd).1 hc hc'
      subst this
      have hpl : pvs.length = fields.length := by
        have := congrArg List.length hpv
        simpa using this
      simp only [runBranch, findBranch, Branch.ctor, if_true, Branch.binds, Branch.body, genNames_length, List.length_map, hpl, hl]
      refine gen_sound F body s1 (hA.ext (ext_genNames _ g)) a1.left hp.1 (fun x hx => hh x (.inl hx)) h1 e1 (hv.addAll (by rw [hl, hpl]) ?_)
      intro i p v hpi hvi
      have hi := (List.getElem?_eq_some_iff.mp hpi).1
      have hfi : fields[i]? = some (fields[i]'(by omega)) := List.getElem?_eq_getElem (by omega)
      have hpt : p.2 = fieldTy decl.vars args recTy (fields[i]'(by omega)) := by
        have := congrArg (fun l => l[i]?) hpv
        simp only [List.getElem?_map, hpi, hfi, Option.map_some, Option.some.injEq] at this
        exact this
      rw [hpt]
      exact ⟨wfTy_field F hd hlen hc (List.mem_of_getElem? hfi) hwa hwr, hf i _ v hfi hvi⟩
    · have hne : cn ≠ n := by
        rintro rfl
        cases b
        · exact hcc (F.reg _ _ _ hcn' hn)
        · exact hcc (F.fold _ _ _ hcn' hn)
      have hb : ∀ m, runBranch (eval m) ρ (.mk cn (g.genNames (pvs.map (·.1))).2 c1 :: bs2) n fs = runBranch (eval m) ρ bs2 n fs := by
        intro m
        have : findBranch n (.mk cn (g.genNames (pvs.map (·.1))).2 c1 :: bs2) = findBranch n bs2 := if_neg hne
        simp only [runBranch, this]
      simp only [hb]
      have s2 := (hs.ext (ext_genNames _ g) ha.left.2).ext x1 ha.right.left.2
      refine genCases_sound F cs s2 ((hA.ext (ext_genNames _ g)).ext x1) ha.right.right hp.2 (fun x hx => hh x (.inr hx)) hd hlen hwa hwr h2 e2
        ((hv.ext (ext_genNames _ g) fun b hb => (ha.left.2 b hb).1).ext x1 fun b hb => (ha.right.left.2 b hb).1) hc ?_ hn hl hf
      obtain ⟨k, hk1, hk2⟩ := hk
      rcases List.mem_cons.mp hk1 with rfl | hk1
      · exact absurd hk2 hcc
      · exact ⟨k, hk1, hk2⟩
end

end Tic.Front
