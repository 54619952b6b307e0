import Verif.VerScope
/-
Verifying generated types, instances and scopes.
-/
namespace Tic.Front
open Tic.Unify (Symbol IrTy)
open Tic.Core

mutual
theorem tyEq_refl : ∀ t : Ty, tyEq t t = true
  | .bool | .int | .string | .var _ => by simp [tyEq]
  | .named _ ts => by simp [tyEq, tysEq_refl ts]
  | .fn ps out => by simp [tyEq, tysEq_refl ps, tyEq_refl out]
  | .abs _ t => by simp [tyEq, tyEq_refl t]
theorem tysEq_refl : ∀ ts : List Ty, tysEq ts ts = true
  | [] => by simp [tysEq]
  | t :: ts => by simp [tysEq, tyEq_refl t, tysEq_refl ts]
end

mutual
theorem fitsP_refl : ∀ (t : Ty) (ps : List (TyVar × TyVar)), ∃ qs, fitsP ps t t = some qs
  | .bool, ps | .int, ps | .string, ps | .var _, ps => by simp [fitsP]
  | .named _ ts, ps => by simp only [fitsP, and_self, if_true]; exact fitsL_refl ts ps
  | .fn as out, ps => by
    obtain ⟨qs, h1⟩ := fitsL_refl as ps
    obtain ⟨rs, h2⟩ := fitsP_refl out qs
    exact ⟨rs, by simp [fitsP, h1, h2]⟩
  | .abs _ t, ps => by simp only [fitsP]; exact fitsP_refl t _
theorem fitsL_refl : ∀ (ts : List Ty) (ps : List (TyVar × TyVar)), ∃ qs, fitsL ps ts ts = some qs
  | [], ps => ⟨ps, by simp [fitsL]⟩
  | t :: ts, ps => by
    obtain ⟨qs, h1⟩ := fitsP_refl t ps
    obtain ⟨rs, h2⟩ := fitsL_refl ts qs
    exact ⟨rs, by simp [fitsL, h1, h2]⟩
end

theorem fits_refl (t : Ty) : fits t t = true := by
  obtain ⟨qs, h⟩ := fitsP_refl t []
  simp [fits, h]

mutual
/-- The same written type generated twice, with different type variables. -/
theorem fits_gen {Δ : List TypeDecl} {vs : List Symbol} {h h' : Gen} (ho : Older Δ [] h h') {ps : List (TyVar × TyVar)}
    (hv : ∀ v ∈ vs, ∃ a b, h.tyVars v = some a ∧ h'.tyVars v = some b ∧ (a, b) ∈ ps) :
    ∀ {t T T'}, Plain t → WfTy Δ vs t → genTy h t = some T → genTy h' t = some T' → fitsP ps T T' = some ps
  | .int, T, T', _, _, h1, h2 | .bool, T, T', _, _, h1, h2 | .str, T, T', _, _, h1, h2 => by
    simp only [genTy, Option.some.injEq] at h1 h2
    subst h1; subst h2
    simp [fitsP]
  | .named s args, T, T', hp, hw, h1, h2 => by
    simp only [Plain] at hp
    simp only [WfTy] at hw
    obtain ⟨hs, -, hw⟩ := hw
    rcases hs with hs | hs
    · obtain ⟨a, b, e1, e2, e3⟩ := hv s hs
      simp only [genTy, e1, e2] at h1 h2
      split at h1
      · rename_i he
        rw [if_pos he] at h2
        cases h1; cases h2
        simp [fitsP, e3]
      · cases h1
    · obtain ⟨d, hd⟩ := Option.isSome_iff_exists.mp hs
      obtain ⟨e1, e2, e3, -⟩ := ho.decl s d hd
      simp only [genTy, e1, e2, e3, Option.bind_eq_some_iff, Option.map_eq_some_iff] at h1 h2
      obtain ⟨n, f1, ts, f2, rfl⟩ := h1
      obtain ⟨n', f3, ts', f4, rfl⟩ := h2
      rw [f1] at f3; cases f3
      obtain ⟨f5, f6⟩ := fitss_gen ho hv hp hw f2 f4
      simp [fitsP, f5, f6]
  | .fn a b, T, T', hp, hw, h1, h2 => by
    simp only [Plain] at hp
    simp only [WfTy] at hw
    simp only [genTy, Option.bind_eq_some_iff, Option.map_eq_some_iff] at h1 h2
    obtain ⟨A, f1, B, f2, rfl⟩ := h1
    obtain ⟨A', f3, B', f4, rfl⟩ := h2
    simp [fitsP, fitsL, fits_gen ho hv hp.1 hw.1 f1 f3, fits_gen ho hv hp.2 hw.2 f2 f4]
  | .folded .., T, T', hp, _, _, _ | .error, T, T', hp, _, _, _ | .infer, T, T', hp, _, _, _ => by simp [Plain] at hp
theorem fitss_gen {Δ : List TypeDecl} {vs : List Symbol} {h h' : Gen} (ho : Older Δ [] h h') {ps : List (TyVar × TyVar)}
    (hv : ∀ v ∈ vs, ∃ a b, h.tyVars v = some a ∧ h'.tyVars v = some b ∧ (a, b) ∈ ps) :
    ∀ {ts Ts Ts'}, Plains ts → WfTys Δ vs ts → genTys h ts = some Ts → genTys h' ts = some Ts' → Ts.length = Ts'.length ∧ fitsL ps Ts Ts' = some ps
  | [], Ts, Ts', _, _, h1, h2 => by
    simp only [genTys, Option.some.injEq] at h1 h2
    subst h1; subst h2
    simp [fitsL]
  | t :: ts, Ts, Ts', hp, hw, h1, h2 => by
    simp only [Plains] at hp
    simp only [WfTys] at hw
    simp only [genTys, Option.bind_eq_some_iff, Option.map_eq_some_iff] at h1 h2
    obtain ⟨A, f1, B, f2, rfl⟩ := h1
    obtain ⟨A', f3, B', f4, rfl⟩ := h2
    obtain ⟨f5, f6⟩ := fitss_gen ho hv hp.2 hw.2 f2 f4
    simp [fitsL, fits_gen ho hv hp.1 hw.1 f1 f3, f5, f6]
end

theorem genTys_length {g : Gen} : ∀ {ts Ts}, genTys g ts = some Ts → Ts.length = ts.length
  | [], Ts, h => by simp only [genTys, Option.some.injEq] at h; subst h; rfl
  | t :: ts, Ts, h => by
    simp only [genTys, Option.bind_eq_some_iff, Option.map_eq_some_iff] at h
    obtain ⟨A, _, B, hb, rfl⟩ := h
    simp [genTys_length hb]

theorem checkTys_append {st : VSt} : ∀ {ts us : List Ty}, checkTys st ts = some st → checkTys st us = some st → (∀ t ∈ ts, checkTy st t = some st) → checkTys st (ts ++ us) = some st
  | [], us, _, h, _ => h
  | t :: ts, us, h1, h2, h3 => by
    simp only [List.cons_append, checkTys, h3 t (by simp), Option.bind_some] at h1 ⊢
    exact checkTys_append h1 h2 fun t ht => h3 t (by simp [ht])

theorem checkTys_all {st : VSt} : ∀ {ts : List Ty}, (∀ t ∈ ts, checkTy st t = some st) → checkTys st ts = some st
  | [], _ => rfl
  | t :: ts, h => by
    simp only [checkTys, h t (by simp), Option.bind_some]
    exact checkTys_all fun t ht => h t (by simp [ht])

mutual
/-- The verifier accepts generated types. -/
theorem checkTy_gen {Δ : List TypeDecl} {vs Γ g st} (hs : VScope Δ vs Γ g st) : ∀ {t T}, WfTy Δ vs t → genTy g t = some T → checkTy st T = some st
  | .int, T, _, h | .bool, T, _, h | .str, T, _, h => by simp only [genTy, Option.some.injEq] at h; subst h; simp [checkTy]
  | .named s args, T, hw, h => by
    simp only [WfTy] at hw
    obtain ⟨h1, h2, h3⟩ := hw
    by_cases hv : s ∈ vs
    · obtain ⟨-, w, e1, e2⟩ := hs.vars s hv
      simp only [genTy, e1] at h
      split at h
      · cases h; simp [checkTy, e2]
      · cases h
    · obtain ⟨d, hd⟩ := Option.isSome_iff_exists.mp (h1.resolve_left hv)
      obtain ⟨n, m, D⟩ := hs.decl s d hd
      have hn := D.name
      rw [declOf_sym hd] at hn
      simp only [genTy, hs.gen.notVar s d hd, hn, Option.bind_some, Option.map_eq_some_iff] at h
      obtain ⟨ts, e1, rfl⟩ := h
      have hl : d.vars.length = ts.length := by rw [genTys_length e1, h2]; simp [arity, hd]
      simp only [checkTy, if_pos D.scope.1, D.kind, Option.bind_some, if_pos hl]
      exact checkTys_all (checkTys_gen hs h3 e1)
  | .fn a b, T, hw, h => by
    simp only [WfTy] at hw
    simp only [genTy, Option.bind_eq_some_iff, Option.map_eq_some_iff] at h
    obtain ⟨A, e1, B, e2, rfl⟩ := h
    simp [checkTy, checkTys, checkTy_gen hs hw.1 e1, checkTy_gen hs hw.2 e2]
  | .folded (.named s args) b, T, hw, h => by
    simp only [WfTy] at hw
    obtain ⟨⟨h1, h2, h3⟩, hb⟩ := hw
    by_cases hv : s ∈ vs
    · obtain ⟨-, w, e1, e2⟩ := hs.vars s hv
      simp only [genTy, e1] at h
      split at h
      · cases h; simp [checkTy, e2]
      · cases h
    · obtain ⟨d, hd⟩ := Option.isSome_iff_exists.mp (h1.resolve_left hv)
      obtain ⟨n, m, D⟩ := hs.decl s d hd
      have hn := D.folded
      rw [declOf_sym hd] at hn
      simp only [genTy, hs.gen.notVar s d hd, hn, Option.bind_some, Option.bind_eq_some_iff, Option.map_eq_some_iff] at h
      obtain ⟨B, e2, ts, e1, rfl⟩ := h
      have hl : d.vars.length + 1 = (ts ++ [B]).length := by rw [List.length_append, genTys_length e1, h2]; simp [arity, hd]
      simp only [checkTy, if_pos D.scope.2, D.kindF, Option.bind_some, if_pos hl]
      refine checkTys_all fun t ht => ?_
      rcases List.mem_append.mp ht with ht | ht
      · exact checkTys_gen hs h3 e1 t ht
      · rw [List.mem_singleton.mp ht]; exact checkTy_gen hs hb e2
  | .folded .int _, T, _, h | .folded .bool _, T, _, h | .folded .str _, T, _, h => by simp only [genTy, Option.some.injEq] at h; subst h; simp [checkTy]
  | .folded (.fn a b) _, T, hw, h => by
    rw [WfTy] at hw
    have h : genTy g (.fn a b) = some T := by simpa only [genTy] using h
    exact checkTy_gen hs hw.1 h
  | .folded (.folded a b) _, T, hw, h => by
    rw [WfTy] at hw
    have h : genTy g (.folded a b) = some T := by simpa only [genTy] using h
    exact checkTy_gen hs hw.1 h
  | .error, T, hw, _ | .infer, T, hw, _ | .folded .error _, T, hw, _ | .folded .infer _, T, hw, _ => by simp [WfTy] at hw
theorem checkTys_gen {Δ : List TypeDecl} {vs Γ g st} (hs : VScope Δ vs Γ g st) : ∀ {ts Ts}, WfTys Δ vs ts → genTys g ts = some Ts → ∀ T ∈ Ts, checkTy st T = some st
  | [], Ts, _, h => by simp only [genTys, Option.some.injEq] at h; subst h; simp
  | t :: ts, Ts, hw, h => by
    simp only [WfTys] at hw
    simp only [genTys, Option.bind_eq_some_iff, Option.map_eq_some_iff] at h
    obtain ⟨A, e1, B, e2, rfl⟩ := h
    intro T hT
    rcases List.mem_cons.mp hT with rfl | hT
    · exact checkTy_gen hs hw.1 e1
    · exact checkTys_gen hs hw.2 e2 T hT
end

/-- Type arguments in scope do not mention type variables that have left their scope. -/
theorem Entry.absent {Δ vs Γ g st vars ws h Δ₀ vs₀} (he : Entry Δ vs g st vars ws h Δ₀ vs₀) (hs : VScope Δ vs' Γ g st) {us : List Ty}
    (hu : ∀ u ∈ us, checkTy st u = some st) : ∀ u ∈ us, ∀ w ∈ ws, w ∉ tfv u :=
  fun u hus w hw hx => (he.gone w hw).2 (checkTy_tfv hs.pre (hu u hus) w hx)

theorem Entry.inst {Δ vs Γ g st vars ws h Δ₀ vs₀ vs' inst us t T} (he : Entry Δ vs g st vars ws h Δ₀ vs₀) (hs : VScope Δ vs' Γ g st) (hvs : ∀ v ∈ vs, v ∈ vs')
    (hp : Plain t) (hw : WfTy Δ₀ (vars ++ vs₀) t) (hi : WfTys Δ vs' inst) (hl : inst.length = vars.length) (hus : genTys g inst = some us) (ht : genTy h t = some T) :
    genTy g (substTy (vars.zip inst) t) = some (replaceAll ws us T) := by
  have hn : ∀ x, declOf Δ x = none → declOf Δ₀ x = none := fun x hx => by
    cases hd : declOf Δ₀ x with
    | none => rfl
    | some d => rw [he.sub x d hd] at hx; cases hx
  refine inst_ty hp hw he.older (fun x hx => ⟨(he.off x hx).1, hn x (he.off x hx).2⟩) (fun x hx => hn x (hs.vars x (hvs x (he.subv x hx))).1) he.vars hus hl he.nodup
    (he.absent hs (checkTys_gen hs hi hus)) (fun v hv w hw hws => ?_) ht
  obtain ⟨-, w', e1, e2⟩ := hs.vars v (hvs v (he.subv v hv))
  rw [hw] at e1; cases e1
  exact (he.gone w hws).2 e2

theorem wf_inst {Δ : List TypeDecl} {vs vars : List Symbol} {inst : List IrTy} (hl : inst.length = vars.length) (hi : WfTys Δ vs inst) {t : IrTy}
    (hw : WfTy Δ (vars ++ vs) t) : WfTy Δ vs (substTy (vars.zip inst) t) := by
  have main : (∀ t, WfTy Δ (vars ++ vs) t → WfTy Δ vs (substTy (vars.zip inst) t)) := by
    intro t
    induction t using IrTy.rec (motive_2 := fun ts => WfTys Δ (vars ++ vs) ts → WfTys Δ vs (substTys (vars.zip inst) ts)) with
    | nil => simp [substTys, WfTys]
    | cons t ts ih1 ih2 h => simp only [WfTys, substTys] at h ⊢; exact ⟨ih1 h.1, ih2 h.2⟩
    | named s args ih =>
      intro h
      simp only [WfTy] at h
      obtain ⟨h1, h2, h3⟩ := h
      simp only [substTy]
      rcases findTy_zip_or (vs := vs) (s := s) hl.symm with ⟨u, h4, h5⟩ | ⟨h4, h5⟩
      · rw [h4]; exact wfTys_mem hi h5
      · rw [h4]
        simp only [WfTy]
        exact ⟨h1.imp_left fun h => (List.mem_append.mp h).resolve_left h5, by rw [substTys_length, h2], ih h3⟩
    | fn a b ih1 ih2 => intro h; simp only [WfTy, substTy] at h ⊢; exact ⟨ih1 h.1, ih2 h.2⟩
    | folded a b ih1 ih2 => intro h; simp only [WfTy, substTy] at h ⊢; exact ⟨ih1 h.1, ih2 h.2⟩
    | _ => intro h; simp_all [WfTy, substTy]
  exact main t hw

theorem wf_sub {Δ Δ₀ : List TypeDecl} {vs vs₀ : List Symbol} (hd : ∀ s d, declOf Δ₀ s = some d → declOf Δ s = some d) (hv : ∀ v ∈ vs₀, v ∈ vs)
    (hn : ∀ v ∈ vs₀, declOf Δ v = none) {t : IrTy} (h : WfTy Δ₀ vs₀ t) : WfTy Δ vs t := by
  have main : ∀ t, WfTy Δ₀ vs₀ t → WfTy Δ vs t := by
    intro t
    induction t using IrTy.rec (motive_2 := fun ts => WfTys Δ₀ vs₀ ts → WfTys Δ vs ts) with
    | nil => simp [WfTys]
    | cons t ts ih1 ih2 h => simp only [WfTys] at h ⊢; exact ⟨ih1 h.1, ih2 h.2⟩
    | named s args ih =>
      intro h
      simp only [WfTy] at h ⊢
      obtain ⟨h1, h2, h3⟩ := h
      refine ⟨?_, ?_, ih h3⟩
      · rcases h1 with h1 | h1
        · exact .inl (hv s h1)
        · obtain ⟨d, hd'⟩ := Option.isSome_iff_exists.mp h1
          exact .inr (by simp [hd s d hd'])
      · rw [h2]
        cases hd' : declOf Δ₀ s with
        | some d => simp [arity, hd', hd s d hd']
        | none =>
          have hs : s ∈ vs₀ := h1.resolve_right (by simp [hd'])
          simp [arity, hd', hn s hs]
    | fn a b ih1 ih2 => intro h; simp only [WfTy] at h ⊢; exact ⟨ih1 h.1, ih2 h.2⟩
    | folded a b ih1 ih2 => intro h; simp only [WfTy] at h ⊢; exact ⟨ih1 h.1, ih2 h.2⟩
    | _ => intro h; simp_all [WfTy]
  exact main t h

end Tic.Front
