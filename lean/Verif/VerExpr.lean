import Verif.VerSteps
/-
Verifying generated code: every well-typed expression is generated as code of its type.
-/
namespace Tic.Core

/-- The state after entering type variables. -/
def VSt.withTys : VSt → List TyVar → VSt
  | st, [] => st
  | st, w :: ws => VSt.withTys { st with definedTy := w :: st.definedTy, inScopeTy := w :: st.inScopeTy } ws

end Tic.Core

namespace Tic.Front
open Tic.Unify (Symbol IrTy)
open Tic.Core

/-! ### Order of checking -/

theorem Used.join {g g' st st' st''} (h : Used g g' st st') (h' : Used g g' st' st'') : Used g g' st st'' :=
  ⟨fun n hn => (h'.names n hn).elim (h.names n) .inr, fun n hn => (h'.tys n hn).elim (h.tys n) .inr⟩

theorem Room.mid {L g g' a b st} (h : Room L g g' st) (l : Le g a) (l' : Le b g') : Room L a b st :=
  ⟨Nat.le_trans l'.names h.limit, fun n h1 h2 => h.names n (Nat.le_trans l.names h1) (Nat.lt_of_lt_of_le h2 l'.names),
   fun n h1 h2 => h.tys n (Nat.le_trans l.tys h1) (Nat.lt_of_lt_of_le h2 l'.tys)⟩

theorem Room.up {L a b x y st st'} (h : Room L a b st) (u : Used x y st st') (l : Le y a) : Room L a b st' :=
  ⟨h.limit, fun n h1 h2 hn => (u.names n hn).elim (h.names n h1 h2) fun ⟨_, h4⟩ => Nat.not_le_of_lt h4 (Nat.le_trans l.names h1),
   fun n h1 h2 hn => (u.tys n hn).elim (h.tys n h1 h2) fun ⟨_, h4⟩ => Nat.not_le_of_lt h4 (Nat.le_trans l.tys h1)⟩

theorem Room.down {L a b x y st st'} (h : Room L a b st) (u : Used x y st st') (l : Le b x) : Room L a b st' :=
  ⟨h.limit, fun n h1 h2 hn => (u.names n hn).elim (h.names n h1 h2) fun ⟨h3, _⟩ => Nat.not_le_of_lt h2 (Nat.le_trans l.names h3),
   fun n h1 h2 hn => (u.tys n hn).elim (h.tys n h1 h2) fun ⟨h3, _⟩ => Nat.not_le_of_lt h2 (Nat.le_trans l.tys h3)⟩

/-! ### Type variables -/

theorem withTys_spec : ∀ (ws : List TyVar) (st : VSt), (st.withTys ws).defined = st.defined ∧ (st.withTys ws).inScope = st.inScope ∧ (st.withTys ws).types = st.types ∧
    (st.withTys ws).kinds = st.kinds ∧ (st.withTys ws).ctors = st.ctors ∧ (∀ a, a ∈ (st.withTys ws).definedTy ↔ a ∈ ws ∨ a ∈ st.definedTy) ∧
    (∀ a, a ∈ (st.withTys ws).inScopeTy ↔ a ∈ ws ∨ a ∈ st.inScopeTy)
  | [], st => by simp [VSt.withTys]
  | w :: ws, st => by
    obtain ⟨h1, h2, h3, h4, h5, h6, h7⟩ := withTys_spec ws { st with definedTy := w :: st.definedTy, inScopeTy := w :: st.inScopeTy }
    refine ⟨h1, h2, h3, h4, h5, fun a => ?_, fun a => ?_⟩
    · simp only [VSt.withTys, h6, List.mem_cons]
      constructor
      · rintro (h | h | h) <;> simp [h]
      · rintro ((h | h) | h) <;> simp [h]
    · simp only [VSt.withTys, h7, List.mem_cons]
      constructor
      · rintro (h | h | h) <;> simp [h]
      · rintro ((h | h) | h) <;> simp [h]

theorem withTys_pre {ws st} (h : Pre st) : Pre (VSt.withTys st ws) := by
  obtain ⟨h1, h2, -, -, -, h6, h7⟩ := withTys_spec ws st
  exact ⟨fun x hx => by rw [h1]; exact h.sub x (h2 ▸ hx), fun a ha => (h6 a).mpr (((h7 a).mp ha).imp_right (h.subTy a))⟩

theorem withTys_move {ws st} (hf : ∀ w ∈ ws, w ∉ st.definedTy) : SMove st (VSt.withTys st ws) := by
  obtain ⟨h1, h2, h3, h4, h5, h6, h7⟩ := withTys_spec ws st
  exact ⟨fun x hx => h2 ▸ hx, fun x _ => by rw [h3], fun _ _ h => by rw [h4]; exact h, fun _ _ h => by rw [h5]; exact h,
    fun a ha => (h6 a).mpr (.inr ha), fun a ha => (h7 a).mpr (.inr ha), fun a ha h => ((h7 a).mp h).resolve_left fun hw => hf a hw ha⟩

theorem check_pis {L : Nat} {e : Expr} {T : Ty} {st1 : VSt} : ∀ {ws : List TyVar} {st : VSt}, ws.Nodup → (∀ w ∈ ws, w ∉ st.definedTy) → Pre st →
    checkExpr L (st.withTys ws) e = some (T, st1) →
    ∃ st2, checkExpr L st (pis ws e) = some (absTys ws T, st2) ∧ st2.defined = st1.defined ∧ st2.definedTy = st1.definedTy
  | [], st, _, _, _, h => ⟨st1, h, rfl, rfl⟩
  | w :: ws, st, hn, hf, hp, h => by
    have hn := List.nodup_cons.mp hn
    obtain ⟨st2, h1, h2, h3⟩ := check_pis (ws := ws) (st := { st with definedTy := w :: st.definedTy, inScopeTy := w :: st.inScopeTy }) hn.2
      (fun x hx => by
        simp only [List.mem_cons, not_or]
        exact ⟨fun (e : x = w) => hn.1 (e ▸ hx), hf x (by simp [hx])⟩)
      ⟨hp.sub, fun a ha => by simp only [List.mem_cons] at ha ⊢; exact ha.imp_right (hp.subTy a)⟩ h
    have hc := (checkExpr_chk (L := L) (st := { st with definedTy := w :: st.definedTy, inScopeTy := w :: st.inScopeTy }) ⟨hp.sub, fun a ha => by simp only [List.mem_cons] at ha ⊢; exact ha.imp_right (hp.subTy a)⟩ h1).1
    have hw : w ∈ st2.inScopeTy := by rw [hc.inScopeTy]; simp
    refine ⟨{ st2 with inScopeTy := st2.inScopeTy.filter (fun v => v != w) }, ?_, h2, h3⟩
    show checkExpr L st (.pi w (pis ws e)) = some (.abs w (absTys ws T), _)
    simp only [checkExpr, VSt.enterTy, if_neg (hf w (by simp)), Option.bind_some, h1, VSt.exitTy, if_pos hw]

theorem freshInst_vars : ∀ {vars : List Symbol} {g : Gen}, vars.Nodup →
    mapOpt (g.freshInst vars).tyVars vars = some (List.range' g.tys vars.length) ∧ (g.freshInst vars).tys = g.tys + vars.length
  | [], g, _ => ⟨rfl, rfl⟩
  | s :: ss, g, hn => by
    have hn := List.nodup_cons.mp hn
    obtain ⟨h1, h2⟩ := freshInst_vars (g := { g with tys := g.tys + 1, tyVars := setAt g.tyVars s g.tys }) hn.2
    have h3 := (ext_freshInst ss { g with tys := g.tys + 1, tyVars := setAt g.tyVars s g.tys }).ty s hn.1
    simp only [Gen.freshInst, mapOpt, List.length_cons, List.range'_succ]
    refine ⟨?_, by rw [h2]; exact (Nat.add_assoc (g.tys : Nat) 1 ss.length).trans (congrArg _ (Nat.add_comm 1 ss.length))⟩
    rw [h3, h1]
    simp [setAt]

/-- Entering type variables. -/
theorem VScope.types {Δ vs Γ g st vars} (h : VScope Δ vs Γ g st) (hn : vars.Nodup) (hv : ∀ x ∈ vars, Γ.find x = none ∧ declOf Δ x = none ∧ x ∉ vs)
    (hf : ∀ w ∈ List.range' g.tys vars.length, w ∉ st.definedTy) : VScope Δ (vars ++ vs) Γ (g.freshInst vars) (st.withTys (List.range' g.tys vars.length)) := by
  have h1 := h.move (ext_freshInst vars g) hv (withTys_move hf) (withTys_pre h.pre)
  obtain ⟨-, -, -, -, -, -, h7⟩ := withTys_spec (List.range' g.tys vars.length) st
  refine ⟨h1.pre, h1.gen, fun v hvs => ?_, h1.decl, fun s sch hs => ?_⟩
  · by_cases hx : v ∈ vars
    · obtain ⟨w, hw, e⟩ := mapOpt_get (freshInst_vars (g := g) hn).1 v hx
      exact ⟨(hv v hx).2.1, w, e, (h7 w).mpr (.inl hw)⟩
    · exact h1.vars v ((List.mem_append.mp hvs).resolve_left hx)
  · obtain ⟨n, T, e1, e2, e3, e4⟩ := h1.ctx s sch hs
    exact ⟨n, T, e1, e2, e3, e4.move (.refl h1.gen fun v hv => (h1.scope.vars v hv).1) (fun v hv => by simp [hv]) (Chk.refl (L := 0) _).move⟩

/-! ### Folds -/

theorem mapOpt_idx {α β : Type} {f : α → Option β} : ∀ {xs ys}, mapOpt f xs = some ys → ∀ {i : Nat} {x}, xs[i]? = some x → ∃ y, ys[i]? = some y ∧ f x = some y
  | [], ys, h, i, x, hx => by simp at hx
  | x' :: xs, ys, h, i, x, hx => by
    simp only [mapOpt, Option.bind_eq_some_iff, Option.map_eq_some_iff] at h
    obtain ⟨y, h1, ys, h2, rfl⟩ := h
    cases i with
    | zero => simp only [List.getElem?_cons_zero, Option.some.injEq] at hx; subst hx; exact ⟨y, by simp, h1⟩
    | succ i => exact mapOpt_idx h2 (by simpa using hx)

theorem fold_fields {L : Nat} {st : VSt} {fold : Name} {pty out : Ty} {vars : List TyVar} {tys : List Ty} (hf : fold ∈ st.inScope) (ht : vget fold st.types = some (.fn [pty] out)) :
    ∀ {fields : List Field} {ns : List Name} {ts : List Ty}, fields.length = ns.length → ts.length = ns.length →
    (∀ (i : Nat) f n t, fields[i]? = some f → ns[i]? = some n → ts[i]? = some t → n ∈ st.inScope ∧
      ((f = .rec_ ∧ vget n st.types = some pty ∧ replaceAll vars tys t = out) ∨ (f ≠ .rec_ ∧ vget n st.types = some (replaceAll vars tys t)))) →
    checkFields L vars tys st ts ((fields.zip ns).map fun p => foldField fold p.1 p.2) = some st
  | [], [], [], _, _, _ => rfl
  | f :: fields, n :: ns, t :: ts, h1, h2, h => by
    obtain ⟨hn, h3⟩ := h 0 f n t (by simp) (by simp) (by simp)
    have ih := fold_fields (L := L) (vars := vars) (tys := tys) hf ht (fields := fields) (ns := ns) (ts := ts) (by simpa using h1) (by simpa using h2)
      fun i f n t e1 e2 e3 => h (i + 1) f n t (by simpa using e1) (by simpa using e2) (by simpa using e3)
    simp only [List.zip_cons_cons, List.map_cons, checkFields]
    rcases h3 with ⟨rfl, e1, e2⟩ | ⟨hne, e1⟩
    · simp only [foldField, checkExpr, if_pos hf, ht, Option.bind_some, List.length_cons, List.length_nil, if_true, checkArgs, if_pos hn, e1, fits_refl, e2]
      exact ih
    · cases f with
      | rec_ => exact absurd rfl hne
      | ty u =>
        simp only [foldField, checkExpr, if_pos hn, e1, Option.bind_some, fits_refl, if_true]
        exact ih

theorem joinTy_same {acc : Option Ty} {T : Ty} (h : acc = none ∨ acc = some T) : joinTy acc T = some T := by
  rcases h with rfl | rfl
  · rfl
  · simp [joinTy, tyEq_refl]

theorem freshes_names : ∀ (n : Nat) (g : Gen), (g.freshes n).1.names = g.names + n
  | 0, g => rfl
  | n + 1, g => by
    simp only [Gen.freshes]
    rw [freshes_names n]
    exact (Nat.add_assoc (g.names : Nat) 1 n).trans (congrArg _ (Nat.add_comm 1 n))

theorem check_foldBranches {L : Nat} {g₀ : Gen} {cts : List (Name × Core.Ctor)} {fold : Name} {pty out : Ty} {n m : Name} {us : List Ty} {vars : List Symbol} {args : List IrTy} {whole b : IrTy}
    (hp : genTy g₀ whole = some pty) (hb : genTy g₀ b = some out) :
    ∀ {cs : List Ctor} {g g' : Gen} {bs : List Branch} {st : VSt} {acc : Option Ty}, Pre st → st.ctors = cts → g.ctorFields = g₀.ctorFields →
    fold ∈ st.inScope → vget fold st.types = some (.fn [pty] out) →
    (∀ c ∈ cs, ∃ fields, g₀.ctorFields c.sym = some fields ∧ CaseV g₀ { ctors := cts } false n us c fields (fieldTy vars args whole) ∧
      CaseV g₀ { ctors := cts } true m (us ++ [out]) c fields (fieldTy vars args b)) →
    foldBranches fold us out g cs = some (g', bs) → Room L g g' st → (acc = none ∨ acc = some (.named m (us ++ [out]))) →
    ∃ r st', checkBranches L n us st acc bs = some (r, st') ∧ Used g g' st st' ∧ (cs = [] ∧ r = acc ∨ r = some (.named m (us ++ [out])))
  | [], g, g', bs, st, acc, _, _, _, _, _, _, h, _, _ => by
    simp only [foldBranches] at h; cases h
    exact ⟨acc, st, rfl, .refl _ _, .inl ⟨rfl, rfl⟩⟩
  | c :: cs, g, g', bs, st, acc, hpre, hct, hgf, hfs, hft, hcs, h, hr, ha => by
    obtain ⟨fields, e1, ⟨ws, ts, e2, e3, e4⟩, ⟨ws', ts', e5, e6, e7⟩⟩ := hcs c (by simp)
    simp only [foldBranches, hgf, e1, Option.bind_some, Option.map_eq_some_iff] at h
    obtain ⟨⟨g2, bs2⟩, h2, h⟩ := h
    cases h
    have lf := le_freshes fields.length g
    have lb := le_foldBranches h2
    have hns : (g.freshes fields.length).2 = List.range' g.names fields.length := freshes_range _ _
    have hnn : (g.freshes fields.length).1.names = g.names + fields.length := freshes_names _ _
    have hmem : ∀ x ∈ (g.freshes fields.length).2, g.names ≤ x ∧ x < (g.freshes fields.length).1.names := fun x hx => by
      rw [hns, List.mem_range'_1] at hx
      rw [hnn]
      exact hx
    have hnlen : (g.freshes fields.length).2.length = fields.length := by rw [hns]; simp
    have htl : ts.length = fields.length := by have := mapOpt_tyVars_length e4; simpa using this
    have htl' : ts'.length = fields.length := by have := mapOpt_tyVars_length e7; simpa using this
    have hnd : (g.freshes fields.length).2.Nodup := by rw [hns]; exact List.nodup_range'
    obtain ⟨st1, f1, f2, f3, f4, f5⟩ := enterBinds_fresh (L := L) (vars := ws) (args := us) (ns := (g.freshes fields.length).2) (fs := ts) (st := st) hnd
      (fun x hx => ⟨Nat.lt_of_lt_of_le (hmem x hx).2 (Nat.le_trans lb.names hr.limit), hr.names x (hmem x hx).1 (Nat.lt_of_lt_of_le (hmem x hx).2 lb.names)⟩)
      (by rw [hnlen, htl])
    have hE := enterBinds_spec (L := L) (by rw [hnlen, htl]) f1 hpre
    have hfn : fold ∉ (g.freshes fields.length).2 := fun hx =>
      hr.names fold (hmem _ hx).1 (Nat.lt_of_lt_of_le (hmem _ hx).2 lb.names) (hpre.sub _ hfs)
    have hck : checkFields L ws' (us ++ [out]) st1 ts' ((fields.zip (g.freshes fields.length).2).map fun p => foldField fold p.1 p.2) = some st1 := by
      refine fold_fields (pty := pty) (out := out) (by rw [hE.inScope]; simp [hfs]) (by rw [f5 _ hfn]; exact hft) hnlen.symm (by rw [htl', hnlen]) ?_
      intro i f x t i1 i2 i3
      refine ⟨by rw [hE.inScope]; simp [List.mem_of_getElem? i2], ?_⟩
      obtain ⟨y, i4, i5⟩ := mapOpt_idx e4 i1
      obtain ⟨y', i6, i7⟩ := mapOpt_idx e7 i1
      simp only [List.getElem?_map, Option.map_eq_some_iff] at i4 i6
      obtain ⟨t0, i8, rfl⟩ := i4
      obtain ⟨t0', i9, rfl⟩ := i6
      rw [i3] at i9; cases i9
      have i10 := f2 i x t0 i2 i8
      cases f with
      | rec_ =>
        simp only [fieldTy, hp, hb, Option.some.injEq] at i5 i7
        exact .inl ⟨rfl, by rw [i10, i5], i7.symm⟩
      | ty u =>
        simp only [fieldTy] at i5 i7
        rw [i5, Option.some.injEq] at i7
        exact .inr ⟨by simp, by rw [i10, i7]⟩
    obtain ⟨st2, x1, x2, x3⟩ := exits_some (st := st1) hnd fun x hx => by rw [hE.inScope]; simp [hx]
    have hC := hE.leave hpre (Chk.refl st1) x1
    have u1 : Used g (g.freshes fields.length).1 st st2 := by
      refine ⟨fun x hx => ?_, fun x hx => ?_⟩
      · rw [x2] at hx
        exact (f3 x hx).imp_right (hmem x)
      · rw [x3, f4] at hx
        exact .inl hx
    obtain ⟨r, st', y1, y2, y3⟩ := check_foldBranches hp hb (cs := cs) (st := st2) (acc := some (.named m (us ++ [out]))) (hC.pre hpre) (hC.ctors.trans hct)
      ((ext_freshes _ g).fields.trans hgf) (by rw [hC.inScope]; exact hfs) (by rw [hC.types _ (hpre.sub _ hfs)]; exact hft)
      (fun c' hc' => hcs c' (by simp [hc'])) h2 (hr.right lf u1) (.inr rfl)
    refine ⟨r, st', ?_, u1.trans lf lb y2, ?_⟩
    · have e2' : vget c.regular st.ctors = some ⟨n, ws, ts⟩ := by rw [hct]; exact e2
      have e5' : vget c.folded st1.ctors = some ⟨m, ws', ts'⟩ := by rw [hE.ctors, hct]; exact e5
      have hcond : True ∧ ws.length = us.length ∧ ts.length = (g.freshes fields.length).2.length := ⟨trivial, e3, by rw [htl, hnlen]⟩
      have hcond2 : ws'.length = (us ++ [out]).length ∧ ts'.length = ((fields.zip (g.freshes fields.length).2).map fun p => foldField fold p.1 p.2).length :=
        ⟨e6, by simp [htl', hnlen]⟩
      simp only [checkBranches, e2', Option.bind_some, if_pos hcond, f1, checkExpr, e5', if_pos hcond2, hck, joinTy_same ha, x1]
      exact y1
    · rcases y3 with ⟨-, rfl⟩ | h
      · exact .inr rfl
      · exact .inr h

end Tic.Front
