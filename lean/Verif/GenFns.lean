import Verif.GenRun
/-
The functions the generator itself writes: constructors and built-in functions have their types.
-/
namespace Tic.Front
open Tic.Unify (Symbol IrTy)
open Tic.Core

/-- Functions of several arguments, one at a time. -/
def arrows (H : String → Prop) (Ss : List VSet) (T : VSet) : VSet := Ss.foldr (Arrow H) T

theorem runs_lams {H : String → Prop} {T : VSet} {body : Expr} : ∀ {ps : List (Name × Ty)} {Ss : List VSet} {ρ : Env}, ps.length = Ss.length →
    (∀ vs : List Val, vs.length = Ss.length → (∀ (i : Nat) S v, Ss[i]? = some S → vs[i]? = some v → S v) →
      RunsTo H (fun n => eval n (bindAll ρ (ps.map (·.1)) vs) body) T) →
    RunsTo H (fun n => eval n ρ (lams ps body)) (arrows H Ss T)
  | [], [], ρ, _, h => by simpa [lams, arrows, bindAll] using h [] rfl (by simp)
  | p :: ps, S :: Ss, ρ, hl, h => by
    refine RunsTo.step (RunsTo.ok (v := .clo ρ [p.1] (lams ps body)) (by simp only [Nat.zero_add]; rfl) ?_)
    refine arrow_clo fun a ha => ?_
    refine runs_lams (ps := ps) (Ss := Ss) (by simpa using hl) fun vs hv hi => ?_
    have := h (a :: vs) (by simp [hv]) (fun i S' v h1 h2 => by
      cases i with
      | zero => simp at h1 h2; subst h1; subst h2; exact ha
      | succ i => exact hi i S' v (by simpa using h1) (by simpa using h2))
    simpa [bindAll] using this

theorem map_fst_zip {α β : Type} : ∀ {xs : List α} {ys : List β}, xs.length = ys.length → (xs.zip ys).map (·.1) = xs
  | [], [], _ => rfl
  | x :: xs, y :: ys, h => by simp [map_fst_zip (xs := xs) (ys := ys) (by simpa using h)]

/-- The meaning of a constructor's type. -/
theorem interp_ctorTy {M : Sem} {δ : TyEnv} {η : Symbol → VSet} {s vars} : ∀ {fields : List Field},
    interp M δ η (ctorTy ⟨s, vars, fields⟩) =
      arrows M.H (fields.map fun f => (fieldSem M δ η f).getD (interp M δ η (.named s (vars.map fun v => .named v []))))
        (interp M δ η (.named s (vars.map fun v => .named v [])))
  | [] => rfl
  | f :: fields => by
    have ih := interp_ctorTy (M := M) (δ := δ) (η := η) (s := s) (vars := vars) (fields := fields)
    simp only [ctorTy, List.foldr_cons, interp, arrows, List.map_cons] at ih ⊢
    rw [ih]
    cases f <;> simp [fieldSem, interp]

theorem interps_vars {M : Sem} {δ : TyEnv} {η : Symbol → VSet} : ∀ {vars : List Symbol}, (∀ v ∈ vars, δ v = none) →
    interps M δ η (vars.map fun v => .named v []) = vars.map η
  | [], _ => rfl
  | v :: vs, h => by
    simp only [List.map_cons, interps, interp, h v (by simp)]
    rw [interps_vars fun x hx => h x (by simp [hx])]

theorem bindVars_self {η : Symbol → VSet} {s} : ∀ {vars : List Symbol} {η'}, s ∈ vars → bindVars vars (vars.map η) η' s = η s
  | v :: vs, η', h => by
    simp only [List.map_cons, bindVars]
    split
    · rename_i e; rw [e]
    · rename_i e
      exact bindVars_self ((List.mem_cons.mp h).resolve_left fun e' => e e'.symm)

/-- A generated constructor function has the type of the constructor. -/
theorem runs_ctor {M : Sem} {Δ : List TypeDecl} (F : Fix M Δ) {d : TypeDecl} (hd : declOf Δ d.sym = some d) {c fields cn}
    (hc : (c, fields) ∈ d.ctors) (hr : M.reg c = some cn) {ps : List Name} (hn : ps.Nodup) {ts tys : List Ty} (hps : ps.length = fields.length)
    (hts : ts.length = fields.length) (η : Symbol → VSet) (ρ : Env) :
    RunsTo M.H (fun n => eval n ρ ((ps.zip ts).foldr (fun p e => .lam [p] e) (.con cn tys (ps.map .name))))
      (interp M (tyEnv M Δ) η (ctorTy ⟨d.sym, d.vars, fields⟩)) := by
  rw [interp_ctorTy]
  have hv : ∀ v ∈ d.vars, tyEnv M Δ v = none := fun v h => tyEnv_none.mpr (F.vars d (declOf_mem hd) v h)
  refine runs_lams (ps := ps.zip ts) (by simp [hps, hts]) fun vs hl hi => ?_
  rw [map_fst_zip (by rw [hps, hts])]
  have hfl := ((F.decls.field hd).2 _ hc).1
  refine runs_con (Ss := fields.map fun f => (fieldSem M (tyEnv M Δ) η f).getD (interp M (tyEnv M Δ) η (.named d.sym (d.vars.map fun v => .named v []))))
    (by simp [hps]) (by simpa using hfl) ?_ ?_
  · intro i e S he hS
    simp only [List.getElem?_map, Option.map_eq_some_iff] at he
    obtain ⟨x, hx, rfl⟩ := he
    have hlt : i < vs.length := by
      rw [hl]; exact (List.getElem?_eq_some_iff.mp hS).1
    exact runs_name (lookup_bindAll_in hn hx (List.getElem?_eq_getElem hlt)) (hi i S _ hS (List.getElem?_eq_getElem hlt))
  · intro ws hwl hwi
    rw [show interp M (tyEnv M Δ) η (.named d.sym (d.vars.map fun v => .named v [])) =
      Mu M.reg (declSig M (tyEnv M Δ) d (interps M (tyEnv M Δ) η (d.vars.map fun v => .named v []))) by
        simp only [interp, tyEnv_some F.decls F.vars hd]] at hwi ⊢
    refine mu_lay.mpr ⟨c, cn, fields.map (fieldSem M (tyEnv M Δ) η), ws, rfl, ?_, hr, by simpa using hwl, ?_⟩
    · rw [interps_vars hv]
      simp only [declSig, List.mem_map]
      refine ⟨(c, fields), hc, ?_⟩
      simp only [Prod.mk.injEq, true_and]
      refine List.map_congr_left fun f hf => ?_
      cases f with
      | rec_ => rfl
      | ty t =>
        simp only [fieldSem, Option.some.injEq]
        refine interp_congr t fun s hs => ⟨rfl, fun hnone => ?_⟩
        rcases F.decls.syms hd _ hc t hf s hs with h | h
        · exact bindVars_self h
        · rw [tyEnv_none.mp hnone] at h; cases h
    · intro i S v hS hv
      simp only [List.getElem?_map, Option.map_eq_some_iff] at hS
      obtain ⟨f, hf, rfl⟩ := hS
      exact hwi i _ v (by simp [hf]) hv

/-! ### Built-in functions -/

theorem runs_names {H : String → Prop} {ρ : Env} {i : Intrinsic} {T : VSet} {x} {v : Val} (h : ∀ n, evalIntr (eval (n + 1) ρ) i x = .ok v) (hv : T v) :
    RunsTo H (fun n => eval n ρ (.intr i x)) T :=
  ⟨2, .inl ⟨v, h 0, hv⟩⟩

theorem eval_name_in {n : Nat} {ρ : Env} {x v} (h : lookup x ρ = .ok v) : eval (n + 1) ρ (.name x) = .ok v := by rw [eval_name]; exact h

/-- A built-in function on strings. -/
theorem runs_intrFn {H : String → Prop} {g : Gen} {i : Intrinsic} {tys : List Ty} {Ss : List VSet} {T : VSet} {ρ : Env} (hl : tys.length = Ss.length)
    (h : ∀ (ρ : Env) (xs : List Expr) (vs : List Val), vs.length = Ss.length → xs.length = Ss.length →
      (∀ (i : Nat) S v, Ss[i]? = some S → vs[i]? = some v → S v) →
      (∀ (i : Nat) x v, xs[i]? = some x → vs[i]? = some v → ∀ n, eval (n + 1) ρ x = .ok v) →
      ∃ w, T w ∧ ∀ n, evalIntr (eval (n + 1) ρ) i xs = .ok w) :
    RunsTo H (fun n => eval n ρ (intrFn g i tys).2) (arrows H Ss T) := by
  have hlen : (g.freshes tys.length).2.length = tys.length := by rw [freshes_range]; simp
  simp only [intrFn]
  refine runs_lams (by rw [List.length_zip, hlen, Nat.min_self, hl]) fun vs hvl hvi => ?_
  rw [map_fst_zip hlen]
  obtain ⟨w, hw, he⟩ := h (bindAll ρ (g.freshes tys.length).2 vs) ((g.freshes tys.length).2.map .name) vs hvl (by rw [List.length_map, hlen, hl]) hvi (fun i x v hx hv n => by
    simp only [List.getElem?_map, Option.map_eq_some_iff] at hx
    obtain ⟨y, hy, rfl⟩ := hx
    exact eval_name_in (lookup_bindAll_in (by rw [freshes_range]; exact List.nodup_range') hy hv))
  exact runs_names he hw

theorem runs_callN {H : String → Prop} {ρ : Env} {f : Expr} {fv : Val} {es : List Expr} {Ss : List VSet} {B : VSet} (hf : RunsTo H (fun n => eval n ρ f) (· = fv))
    (hfn : fv.isFn = true) (hl : es.length = Ss.length)
    (hes : ∀ (i : Nat) e S, es[i]? = some e → Ss[i]? = some S → RunsTo H (fun n => eval n ρ e) S)
    (happ : ∀ ws : List Val, ws.length = Ss.length → (∀ (i : Nat) S w, Ss[i]? = some S → ws[i]? = some w → S w) →
      RunsTo H (fun n => applyFn (eval n) fv ws) B) : RunsTo H (fun n => eval n ρ (.call f es)) B := by
  refine RunsTo.step ?_
  simp only [eval_call]
  refine RunsTo.bind (k := fun fv n => if fv.isFn then (evalList (eval n ρ) es).bind fun vs => applyFn (eval n) fv vs else .panic)
    (monoR_eval ρ f) (fun fv => ?_) hf fun w hw => ?_
  · split
    · exact (monoR_evalList ρ es).bind fun vs => monoR_applyFn fv vs
    · exact monoR_const _
  · subst hw
    simp only [hfn, if_true]
    exact RunsTo.bind (k := fun vs n => applyFn (eval n) w vs) (monoR_evalList ρ es) (fun vs => monoR_applyFn w vs)
      (runs_list hl hes) fun ws hws => happ ws hws.1 hws.2

theorem runs_ite_eq {H : String → Prop} {B : VSet} {ρ c t e} {b : Bool} (hc : RunsTo H (fun n => eval n ρ c) (· = .bool b))
    (h : RunsTo H (fun n => if b then eval n ρ t else eval n ρ e) B) : RunsTo H (fun n => eval n ρ (.ite c t e)) B := by
  refine RunsTo.step ?_
  simp only [eval_ite]
  refine RunsTo.bind (k := fun v n => v.intoBool.bind fun b => if b then eval n ρ t else eval n ρ e) (monoR_eval ρ c) (fun v => ?_) hc ?_
  · refine (monoR_const v.intoBool).bind (k := fun b n => if b then eval n ρ t else eval n ρ e) fun b => ?_
    cases b
    · exact monoR_eval ρ e
    · exact monoR_eval ρ t
  · rintro v rfl
    simpa [Val.intoBool] using h

theorem runs_op_eq {H : String → Prop} {ρ x o} {k j : UInt64} (hx : lookup x ρ = .ok (.int k)) :
    RunsTo H (fun n => eval n ρ (.op (.name x) o (.int j))) (· = evalOp o k j) := by
  refine ⟨2, .inl ⟨_, ?_, rfl⟩⟩
  show eval 2 ρ _ = _
  rw [eval_op, eval_name_in hx]
  rfl

/-- The function `iterate` has the type `int -> (a -> a) -> a -> a`. -/
theorem runs_iterate {H : String → Prop} (g : Gen) (ρ : Env) (A : VSet) :
    RunsTo H (fun n => eval n ρ (iterateFn g).2) (Arrow H (fun v => ∃ x, v = .int x) (Arrow H (Arrow H A A) (Arrow H A A))) := by
  refine RunsTo.step ?_
  simp only [iterateFn, eval_pi]
  generalize hg : g.names = m
  refine RunsTo.step (RunsTo.ok (by simp only [Nat.zero_add]; rfl) (arrow_clo ?_))
  rintro _ ⟨k, rfl⟩
  refine RunsTo.step (RunsTo.ok (by simp only [Nat.zero_add]; rfl) (arrow_clo fun fv hf => ?_))
  refine RunsTo.step (RunsTo.ok (by simp only [Nat.zero_add]; rfl) (arrow_clo fun xv hx => ?_))
  refine RunsTo.step ?_
  simp only [eval_letrec, recLam, stripPis, List.map_cons, List.map_nil]
  have go : ∀ (j : Nat) (k : UInt64) (x : Val), k.toNat = j → A x → ∀ ρ0 : Env, lookup (m + 1) ρ0 = .ok fv →
      RunsTo H (fun n => applyFn (eval n) (.rclo ρ0 (m + 3) [m + 4, m + 5]
          (.ite (.op (.name (m + 4)) .lessEq (.int 0)) (.name (m + 5))
            (.call (.name (m + 3)) [.op (.name (m + 4)) .subtract (.int 1), .call (.name (m + 1)) [.name (m + 5)]]))) [.int k, x]) A := by
    intro j
    induction j with
    | zero =>
      intro k x hk hA ρ0 h0
      simp only [applyFn, List.length_cons, List.length_nil, if_true, bindAll]
      have hk0 : k ≤ 0 := UInt64.le_iff_toNat_le.mpr (by simp [hk])
      refine runs_ite_eq (b := true) ((runs_op_eq (k := k) (by simp [lookup])).imp fun v hv => ?_) ?_
      · rw [hv]; simp [evalOp, hk0]
      · exact runs_name (by simp [lookup]) hA
    | succ j ih =>
      intro k x hk hA ρ0 h0
      simp only [applyFn, List.length_cons, List.length_nil, if_true, bindAll]
      have hk0 : ¬ k ≤ 0 := fun h => by
        have := UInt64.le_iff_toNat_le.mp h
        rw [hk] at this; simp at this
      have hk1 : (k - 1).toNat = j := by
        rw [UInt64.toNat_sub_of_le]
        · rw [hk]; rfl
        · refine UInt64.le_iff_toNat_le.mpr ?_
          rw [hk]; simp
      refine runs_ite_eq (b := false) ((runs_op_eq (k := k) (by simp [lookup])).imp fun v hv => ?_) ?_
      · rw [hv]; simp [evalOp]; simpa using hk0
      · refine runs_callN (Ss := [(· = .int (k - 1)), A]) (runs_name (by simp [lookup]; rfl) rfl) rfl rfl ?_ ?_
        · intro i e S h1 h2
          match i, h1, h2 with
          | 0, h1, h2 => cases h1; cases h2; exact runs_op_eq (k := k) (by simp [lookup])
          | 1, h1, h2 =>
            cases h1; cases h2
            exact runs_call (A := A) (runs_name (by simp [lookup]; exact h0) hf) (runs_name (by simp [lookup]) hA)
        · intro ws hl hi
          match ws, hl with
          | [a, b], _ =>
            cases hi 0 _ _ rfl rfl
            exact ih (k - 1) b hk1 (hi 1 _ _ rfl rfl) ρ0 h0
  refine runs_callN (Ss := [(· = .int k), A]) (runs_name (by simp [lookup]; rfl) rfl) rfl rfl ?_ ?_
  · intro i e S h1 h2
    match i, h1, h2 with
    | 0, h1, h2 => cases h1; cases h2; exact runs_name (by simp [lookup]) rfl
    | 1, h1, h2 => cases h1; cases h2; exact runs_name (by simp [lookup]) hx
  · intro ws hl hi
    match ws, hl with
    | [a, b], _ =>
      cases hi 0 _ _ rfl rfl
      exact go _ k b rfl (hi 1 _ _ rfl rfl) _ (by simp [lookup])

/-- Built-in functions have their types. -/
theorem runs_builtin {M : Sem} {δ : TyEnv} {η : Symbol → VSet} {vars t} (g : Gen) (b : Builtin) (ρ : Env) (hb : builtinTy vars b = some t)
    (hv : ∀ v ∈ vars, δ v = none) : RunsTo M.H (fun n => eval n ρ (genBuiltin g b).2) (interp M δ η t) := by
  cases b with
  | iterate =>
    match vars, hb, hv with
    | [a], hb, hv =>
      simp only [builtinTy, Option.some.injEq] at hb
      subst hb
      have := runs_iterate (H := M.H) g ρ (η a)
      simpa only [interp, hv a (by simp), genBuiltin] using this
  | stringLength =>
    cases hb
    have := runs_intrFn (H := M.H) (g := g) (i := .stringLen) (tys := [.string]) (Ss := [fun v => ∃ x, v = .str x]) (T := fun v => ∃ x, v = .int x)
      (ρ := ρ) rfl (fun ρ xs vs hvl hxl hv hx => by
        match xs, vs, hxl, hvl with
        | [x], [v], _, _ =>
          obtain ⟨a, rfl⟩ := hv 0 _ _ rfl rfl
          exact ⟨_, ⟨_, rfl⟩, fun n => by simp only [evalIntr, hx 0 _ _ rfl rfl n, Res.bind_ok, Val.intoStr]; rfl⟩)
    simpa only [interp, genBuiltin, arrows, List.foldr] using this
  | stringConcat =>
    cases hb
    have := runs_intrFn (H := M.H) (g := g) (i := .stringConcat) (tys := [.string, .string]) (Ss := [fun v => ∃ x, v = .str x, fun v => ∃ x, v = .str x])
      (T := fun v => ∃ x, v = .str x) (ρ := ρ) rfl (fun ρ xs vs hvl hxl hv hx => by
        match xs, vs, hxl, hvl with
        | [x, y], [v, w], _, _ =>
          obtain ⟨a, rfl⟩ := hv 0 _ _ rfl rfl
          obtain ⟨b, rfl⟩ := hv 1 _ _ rfl rfl
          exact ⟨_, ⟨_, rfl⟩, fun n => by simp only [evalIntr, hx 0 _ _ rfl rfl n, hx 1 _ _ rfl rfl n, Res.bind_ok, Val.intoStr]; rfl⟩)
    simpa only [interp, genBuiltin, arrows, List.foldr] using this
  | stringCharAt =>
    cases hb
    have := runs_intrFn (H := M.H) (g := g) (i := .stringCharAt) (tys := [.int, .string]) (Ss := [fun v => ∃ x, v = .int x, fun v => ∃ x, v = .str x])
      (T := fun v => ∃ x, v = .int x) (ρ := ρ) rfl (fun ρ xs vs hvl hxl hv hx => by
        match xs, vs, hxl, hvl with
        | [x, y], [v, w], _, _ =>
          obtain ⟨a, rfl⟩ := hv 0 _ _ rfl rfl
          obtain ⟨b, rfl⟩ := hv 1 _ _ rfl rfl
          exact ⟨_, ⟨_, rfl⟩, fun n => by simp only [evalIntr, hx 0 _ _ rfl rfl n, hx 1 _ _ rfl rfl n, Res.bind_ok, Val.intoStr, Val.intoInt]; rfl⟩)
    simpa only [interp, genBuiltin, arrows, List.foldr] using this
  | stringSubstring =>
    cases hb
    have := runs_intrFn (H := M.H) (g := g) (i := .stringSubstring) (tys := [.int, .int, .string])
      (Ss := [fun v => ∃ x, v = .int x, fun v => ∃ x, v = .int x, fun v => ∃ x, v = .str x])
      (T := fun v => ∃ x, v = .str x) (ρ := ρ) rfl (fun ρ xs vs hvl hxl hv hx => by
        match xs, vs, hxl, hvl with
        | [x, y, z], [v, w, u], _, _ =>
          obtain ⟨a, rfl⟩ := hv 0 _ _ rfl rfl
          obtain ⟨b, rfl⟩ := hv 1 _ _ rfl rfl
          obtain ⟨c, rfl⟩ := hv 2 _ _ rfl rfl
          exact ⟨_, ⟨_, rfl⟩, fun n => by
            simp only [evalIntr, hx 0 _ _ rfl rfl n, hx 1 _ _ rfl rfl n, hx 2 _ _ rfl rfl n, Res.bind_ok, Val.intoStr, Val.intoInt]; rfl⟩)
    simpa only [interp, genBuiltin, arrows, List.foldr] using this
  | stringFromChar =>
    cases hb
    have := runs_intrFn (H := M.H) (g := g) (i := .stringFromChar) (tys := [.int]) (Ss := [fun v => ∃ x, v = .int x]) (T := fun v => ∃ x, v = .str x)
      (ρ := ρ) rfl (fun ρ xs vs hvl hxl hv hx => by
        match xs, vs, hxl, hvl with
        | [x], [v], _, _ =>
          obtain ⟨a, rfl⟩ := hv 0 _ _ rfl rfl
          exact ⟨_, ⟨_, rfl⟩, fun n => by simp only [evalIntr, hx 0 _ _ rfl rfl n, Res.bind_ok, Val.intoInt]; rfl⟩)
    simpa only [interp, genBuiltin, arrows, List.foldr] using this
  | intToString =>
    cases hb
    have := runs_intrFn (H := M.H) (g := g) (i := .intToString) (tys := [.int]) (Ss := [fun v => ∃ x, v = .int x]) (T := fun v => ∃ x, v = .str x)
      (ρ := ρ) rfl (fun ρ xs vs hvl hxl hv hx => by
        match xs, vs, hxl, hvl with
        | [x], [v], _, _ =>
          obtain ⟨a, rfl⟩ := hv 0 _ _ rfl rfl
          exact ⟨_, ⟨_, rfl⟩, fun n => by simp only [evalIntr, hx 0 _ _ rfl rfl n, Res.bind_ok, Val.intoInt]; rfl⟩)
    simpa only [interp, genBuiltin, arrows, List.foldr] using this

end Tic.Front
