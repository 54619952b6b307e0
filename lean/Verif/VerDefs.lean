import Verif.VerTypes
/-
Verifying generated programs: definitions.
-/
namespace Tic.Front
open Tic.Unify (Symbol IrTy)
open Tic.Core

theorem check_absTys {T : Ty} : ∀ {ws : List TyVar} {st : VSt}, ws.Nodup → (∀ w ∈ ws, w ∉ st.definedTy) → Pre st → checkTy (st.withTys ws) T = some (st.withTys ws) →
    ∃ st1, checkTy st (absTys ws T) = some st1 ∧ ∀ a, a ∈ st1.definedTy ↔ a ∈ ws ∨ a ∈ st.definedTy
  | [], st, _, _, _, h => ⟨st, h, by simp⟩
  | w :: ws, st, hn, hf, hp, h => by
    have hn := List.nodup_cons.mp hn
    have hp1 : Pre { st with definedTy := w :: st.definedTy, inScopeTy := w :: st.inScopeTy } :=
      ⟨hp.sub, fun a ha => by simp only [List.mem_cons] at ha ⊢; exact ha.imp_right (hp.subTy a)⟩
    obtain ⟨st1, h1, h2⟩ := check_absTys (T := T) (ws := ws) (st := { st with definedTy := w :: st.definedTy, inScopeTy := w :: st.inScopeTy }) hn.2
      (fun x hx => by
        simp only [List.mem_cons, not_or]
        exact ⟨fun (e : x = w) => hn.1 (e ▸ hx), hf x (by simp [hx])⟩) hp1 h
    have hc := (checkTy_chk (L := 0) hp1 h1).1
    have hw : w ∈ st1.inScopeTy := by rw [hc.inScopeTy]; simp
    refine ⟨{ st1 with inScopeTy := st1.inScopeTy.filter (fun v => v != w) }, ?_, fun a => ?_⟩
    · show checkTy st (.abs w (absTys ws T)) = some _
      simp only [checkTy, VSt.enterTy, if_neg (hf w (by simp)), Option.bind_some, h1, VSt.exitTy, if_pos hw]
    · show a ∈ st1.definedTy ↔ _
      rw [h2 a]
      simp only [List.mem_cons]
      constructor
      · rintro (h | h | h) <;> simp [h]
      · rintro ((h | h) | h) <;> simp [h]

/-- Checking the type of a definition. -/
theorem def_ty {T : Ty} {ws : List TyVar} {st : VSt} (hn : ws.Nodup) (hf : ∀ w ∈ ws, w ∉ st.definedTy) (hp : Pre st) (h : checkTy (st.withTys ws) T = some (st.withTys ws)) :
    ∃ st1, checkTy st (absTys ws T) = some st1 ∧ SMove st st1 ∧ Pre st1 ∧ st1.defined = st.defined ∧ st1.inScopeTy = st.inScopeTy ∧ ∀ a, a ∈ st1.definedTy ↔ a ∈ ws ∨ a ∈ st.definedTy := by
  obtain ⟨st1, h1, h2⟩ := check_absTys hn hf hp h
  obtain ⟨c1, c2, c3⟩ := checkTy_chk (L := 0) hp h1
  exact ⟨st1, h1, c1.move, c1.pre hp, c3, c1.inScopeTy, h2⟩

theorem fitsP_absTys {T T' : Ty} : ∀ {vs vs' : List TyVar} {ps}, vs.length = vs'.length → fitsP ps (absTys vs T) (absTys vs' T') = fitsP ((vs.zip vs').reverse ++ ps) T T'
  | [], [], ps, _ => rfl
  | v :: vs, v' :: vs', ps, h => by
    show fitsP ps (.abs v (absTys vs T)) (.abs v' (absTys vs' T')) = _
    rw [fitsP, fitsP_absTys (by simpa using h)]
    simp

theorem fits_scheme {Δ : List TypeDecl} {vars : List Symbol} {h h' : Gen} {vs vs' : List TyVar} {t : IrTy} {T T' : Ty} (ho : Older Δ [] h h') (h1 : mapOpt h.tyVars vars = some vs)
    (h2 : mapOpt h'.tyVars vars = some vs') (hp : Plain t) (hw : WfTy Δ vars t) (hT : genTy h t = some T) (hT' : genTy h' t = some T') : fits (absTys vs T) (absTys vs' T') = true := by
  have hl : vs.length = vs'.length := by rw [mapOpt_tyVars_length h1, mapOpt_tyVars_length h2]
  unfold fits
  rw [fitsP_absTys hl, fits_gen ho (fun v hv => ?_) hp hw hT hT']
  · rfl
  · obtain ⟨i, hi⟩ := List.getElem?_of_mem hv
    obtain ⟨a, ha, ha'⟩ := mapOpt_idx h1 hi
    obtain ⟨b, hb, hb'⟩ := mapOpt_idx h2 hi
    exact ⟨a, b, ha', hb', by simpa using mem_zip_get ha hb⟩

theorem checkDefs_one {L : Nat} {st st1 st2 : VSt} {e : ValueDef} {T : Ty} {ds : List ValueDef} (h1 : checkTy st e.ty = some st1) (h2 : checkExpr L st1 e.value = some (T, st2))
    (h3 : fits T e.ty = true) (h4 : e.name < L) (h5 : e.name ∉ st2.defined) : checkDefs L st (e :: ds) = checkDefs L (st2.bind e.name T) ds := by
  simp only [checkDefs, h1, h2, Option.bind_some, h3, if_true, enter_some h4 h5]
  rfl

theorem checkDefs_append {L : Nat} : ∀ {ds ds' : List ValueDef} {st : VSt}, checkDefs L st (ds ++ ds') = (checkDefs L st ds).bind fun st => checkDefs L st ds'
  | [], ds', st => rfl
  | d :: ds, ds', st => by
    simp only [List.cons_append, checkDefs, Option.bind_assoc]
    congr 1; funext st1
    congr 1; funext r
    split
    · simp only [Option.bind_assoc, checkDefs_append]
    · rfl

theorem checkTyDefs_append {L : Nat} : ∀ {ds ds' : List TyDef} {st : VSt}, checkTyDefs L st (ds ++ ds') = (checkTyDefs L st ds).bind fun st => checkTyDefs L st ds'
  | [], ds', st => rfl
  | d :: ds, ds', st => by
    simp only [List.cons_append, checkTyDefs, Option.bind_assoc, checkTyDefs_append]

/-- A chain of functions around an expression that the verifier accepts without a change. -/
theorem check_lams {L : Nat} {body : Expr} {R : Ty} : ∀ {ps : List (Name × Ty)} {st : VSt}, Pre st → (ps.map (·.1)).Nodup → (∀ p ∈ ps, p.1 < L ∧ p.1 ∉ st.defined) →
    (∀ p ∈ ps, ∀ st1, SMove st st1 → Pre st1 → checkTy st1 p.2 = some st1) →
    (∀ st1, SMove st st1 → Pre st1 → (∀ p ∈ ps, p.1 ∈ st1.inScope ∧ vget p.1 st1.types = some p.2) → checkExpr L st1 body = some (R, st1)) →
    ∃ st2, checkExpr L st (lams ps body) = some ((ps.map (·.2)).foldr (fun t u => .fn [t] u) R, st2) ∧ (∀ n ∈ st2.defined, n ∈ st.defined ∨ n ∈ ps.map (·.1)) ∧ st2.definedTy = st.definedTy
  | [], st, hp, _, _, _, hb => ⟨st, hb st (.refl st) hp (by simp), fun _ h => .inl h, rfl⟩
  | p :: ps, st, hp, hn, hf, ht, hb => by
    obtain ⟨n, t⟩ := p
    obtain ⟨f1, f2⟩ := hf (n, t) (by simp)
    simp only [List.map_cons] at hn
    have hn := List.nodup_cons.mp hn
    have hm := bind_move (T := t) f2
    have hsub : ∀ x ∈ st.defined, x ∈ (st.bind n t).defined := fun x hx => List.mem_cons_of_mem _ hx
    have hp1 := bind_pre (n := n) (T := t) hp
    obtain ⟨st2, c1, c2, c3⟩ := check_lams (L := L) (body := body) (R := R) (ps := ps) (st := st.bind n t) hp1 hn.2
      (fun q hq => ⟨(hf q (by simp [hq])).1, by
        simp only [VSt.bind, List.mem_cons, not_or]
        exact ⟨fun (e : q.1 = n) => hn.1 (e ▸ List.mem_map_of_mem hq), (hf q (by simp [hq])).2⟩⟩)
      (fun q hq st1 m p' => ht q (by simp [hq]) st1 (hm.trans hsub m) p')
      (fun st1 m p' hall => hb st1 (hm.trans hsub m) p' (by
        intro q hq
        rcases List.mem_cons.mp hq with rfl | hq
        · exact ⟨m.scope n (by simp [VSt.bind]), by rw [m.types n (by simp [VSt.bind])]; simp [VSt.bind, vget_cons]⟩
        · exact hall q hq))
    have hck := ht (n, t) (by simp) { st with defined := n :: st.defined, inScope := n :: st.inScope } enter_move (enter_pre hp)
    have hc := (checkExpr_chk hp1 c1).1
    obtain ⟨st3, x1, x2, x3⟩ := exits_some (ns := [n]) (st := st2) (by simp) (by
      intro x hx
      rw [List.mem_singleton] at hx
      subst hx
      rw [hc.inScope]
      simp [VSt.bind])
    refine ⟨st3, ?_, ?_, x3.trans c3⟩
    · show checkExpr L st (.lam [(n, t)] (lams ps body)) = _
      simp only [checkExpr, enterPs, enter_some f1 f2, Option.bind_some, hck]
      rw [show VSt.setTy _ n t = st.bind n t from rfl, c1, Option.bind_some, show ([(n, t)].map (·.1)) = [n] from rfl, x1]
      rfl
    · intro x hx
      rw [x2] at hx
      rcases c2 x hx with hx | hx
      · simp only [VSt.bind, List.mem_cons] at hx
        rcases hx with rfl | hx
        · exact .inr (by simp)
        · exact .inl hx
      · exact .inr (List.mem_cons_of_mem _ hx)

theorem findTy_id : ∀ {vars : List Symbol} {s}, s ∈ vars → findTy (vars.zip (vars.map fun v => .named v [])) s = some (.named s [])
  | v :: vars, s, h => by
    simp only [List.map_cons, List.zip_cons_cons, findTy]
    split
    · rename_i e; subst e; rfl
    · rename_i e
      exact findTy_id ((List.mem_cons.mp h).resolve_left fun e' => e e'.symm)

mutual
/-- Replacing type variables by themselves. -/
theorem substTy_id {Δ : List TypeDecl} {vars vs : List Symbol} (hv : ∀ v ∈ vars, declOf Δ v = none) : ∀ {t : IrTy}, WfTy Δ vs t → substTy (vars.zip (vars.map fun v => .named v [])) t = t
  | .int, _ | .bool, _ | .str, _ | .error, _ | .infer, _ => by simp [substTy]
  | .fn a b, h => by simp only [WfTy] at h; simp only [substTy, substTy_id hv h.1, substTy_id hv h.2]
  | .folded a b, h => by simp only [WfTy] at h; simp only [substTy, substTy_id hv h.1, substTy_id hv h.2]
  | .named s args, h => by
    simp only [WfTy] at h
    by_cases hs : s ∈ vars
    · simp only [substTy, findTy_id hs]
      have : args.length = 0 := by rw [h.2.1]; simp [arity, hv s hs]
      rw [List.length_eq_zero_iff.mp this]
    · simp only [substTy, findTy_zip_none hs, substTys_id hv h.2.2]
theorem substTys_id {Δ : List TypeDecl} {vars vs : List Symbol} (hv : ∀ v ∈ vars, declOf Δ v = none) : ∀ {ts : List IrTy}, WfTys Δ vs ts → substTys (vars.zip (vars.map fun v => .named v [])) ts = ts
  | [], _ => rfl
  | t :: ts, h => by simp only [WfTys] at h; simp only [substTys, substTy_id hv h.1, substTys_id hv h.2]
end

theorem VScope.sub {Δ vs Γ Γ' g st} (h : VScope Δ vs Γ g st) (hΓ : ∀ x sc, Γ'.find x = some sc → Γ.find x = some sc) : VScope Δ vs Γ' g st :=
  ⟨h.pre, h.gen, h.vars, h.decl, fun s sch hs => h.ctx s sch (hΓ s sch hs)⟩

theorem VScope.shiftC {Δ vs Γ g st g' st'} (h : VScope Δ vs Γ g st) (ho : Older Δ vs g g') (hg : GenOK Δ g') (hc : ∀ s d, declOf Δ s = some d → ∀ c ∈ d.ctors, g'.ctors c.1 = g.ctors c.1)
    (hs : ∀ s sch, Γ.find s = some sch → g'.symNames s = g.symNames s) (hm : SMove st st') (hp : Pre st') : VScope Δ vs Γ g' st' := by
  refine ⟨hp, hg, fun v hv => ?_, fun s d hd => ?_, fun s sch hf => ?_⟩
  · obtain ⟨h1, w, h2, h3⟩ := h.vars v hv
    exact ⟨h1, w, by rw [← (ho.ty v hv).1]; exact h2, hm.scopeTy w h3⟩
  · obtain ⟨n, m, h1⟩ := h.decl s d hd
    exact ⟨n, m, h1.move (by rw [declOf_sym hd]; exact hd) (ho.sub (fun _ _ h => h) (by simp)) (hc s d hd) hm⟩
  · obtain ⟨n, T, h1, h2, h3, h4⟩ := h.ctx s sch hf
    exact ⟨n, T, by rw [hs s sch hf]; exact h1, hm.scope n h2, by rw [hm.types n (h.pre.sub n h2)]; exact h3, h4.move ho (fun _ h => h) hm⟩

end Tic.Front
