import Verif.LambdaSim
import Verif.WnCheck
/-
C07: the tree-walking and the closure-compiling evaluator agree.
-/
namespace Tic.Core

section
variable (ord : Expr → List Name → List Name)

/-- Values of the two evaluators that behave alike.  Closures: the compiled body is the compilation of
the body, and captured and known values are related to what the environment holds. -/
inductive VRel : Val → LVal → Prop
  | int (x : UInt64) : VRel (.int x) (.int x)
  | bool (b : Bool) : VRel (.bool b) (.bool b)
  | str (s : List UInt8) : VRel (.str s) (.str s)
  | comp {t : Name} {fs : List Val} {ws : List LVal} (len : fs.length = ws.length)
      (rel : ∀ (i : Nat) v w, fs[i]? = some v → ws[i]? = some w → VRel v w) : VRel (.comp t fs) (.comp t ws)
  | clo {ρ : Env} {ps : List Name} {b : Expr} {caps : List LVal} {code : LCode} {G : List (Name × LVal)}
      {cn : List Name} (len : caps.length = cn.length) (nodup : (cn ++ ps).Nodup)
      (new : ∀ p ∈ ps, p ∉ gkeys G) (good : Good ((cn ++ ps) ++ gkeys G) b) (args : ArgsOK b)
      (comp : compileL ord G b (rof (cn ++ ps)) = some (code, rof (cn ++ ps)))
      (bound : ∀ x ∈ cn ++ gkeys G, ∃ v, lookup x ρ = .ok v)
      (local_ : ∀ (i : Nat) x w v, cn[i]? = some x → caps[i]? = some w → lookup x ρ = .ok v → VRel v w)
      (known : ∀ x w v, assoc x G = some w → lookup x ρ = .ok v → VRel v w) :
      VRel (.clo ρ ps b) (.clo caps code)
  | rclo {ρ : Env} {n : Name} {ps : List Name} {b : Expr} {caps : List LVal} {code : LCode}
      {G : List (Name × LVal)}
      {cn : List Name} (len : caps.length = cn.length) (nodup : (cn ++ ps ++ [n]).Nodup)
      (new : ∀ p ∈ ps ++ [n], p ∉ gkeys G) (good : Good ((cn ++ ps ++ [n]) ++ gkeys G) b) (args : ArgsOK b)
      (comp : compileL ord G b (rof (cn ++ ps ++ [n])) = some (code, rof (cn ++ ps ++ [n])))
      (bound : ∀ x ∈ cn ++ gkeys G, ∃ v, lookup x ρ = .ok v)
      (local_ : ∀ (i : Nat) x w v, cn[i]? = some x → caps[i]? = some w → lookup x ρ = .ok v → VRel v w)
      (known : ∀ x w v, assoc x G = some w → lookup x ρ = .ok v → VRel v w) :
      VRel (.rclo ρ n ps b) (.rclo caps code)

/-- Lists of related values. -/
def VRelL (vs : List Val) (ws : List LVal) : Prop :=
  vs.length = ws.length ∧ ∀ (i : Nat) v w, vs[i]? = some v → ws[i]? = some w → VRel ord v w

/-- The environment of the tree-walking evaluator and the frame of the other one agree. -/
structure Conf (G : List (Name × LVal)) (st : List Name) (ρ : Env) (fr : List LVal) : Prop where
  nodup : st.Nodup
  len : fr.length = st.length
  bound : ∀ x ∈ st ++ gkeys G, ∃ v, lookup x ρ = .ok v
  local_ : ∀ (i : Nat) x w v, st[i]? = some x → fr[i]? = some w → lookup x ρ = .ok v → VRel ord v w
  known : ∀ x w v, assoc x G = some w → lookup x ρ = .ok v → VRel ord v w

end

section
variable {ord : Expr → List Name → List Name}

theorem VRelL.nil : VRelL ord [] [] := ⟨rfl, fun _ _ _ h => by simp at h⟩

theorem VRelL.cons {v w vs ws} (h : VRel ord v w) (h' : VRelL ord vs ws) : VRelL ord (v :: vs) (w :: ws) := by
  refine ⟨by simp [h'.1], fun i a b ha hb => ?_⟩
  cases i with
  | zero =>
    simp only [List.getElem?_cons_zero, Option.some.injEq] at ha hb
    exact ha ▸ hb ▸ h
  | succ i =>
    simp only [List.getElem?_cons_succ] at ha hb
    exact h'.2 i a b ha hb

theorem VRelL.head {v w vs ws} (h : VRelL ord (v :: vs) (w :: ws)) : VRel ord v w := h.2 0 v w rfl rfl
theorem VRelL.tail {v w vs ws} (h : VRelL ord (v :: vs) (w :: ws)) : VRelL ord vs ws :=
  ⟨by simpa using h.1, fun i a b ha hb => h.2 (i + 1) a b (by simpa using ha) (by simpa using hb)⟩

theorem VRel.obs {v : Val} {w : LVal} (h : VRel ord v w) : v.obs = w.obs := by
  induction h with
  | int x => rfl
  | bool b => rfl
  | str s => rfl
  | @comp t fs ws len rel ih =>
    rw [Val.obs, LVal.obs]
    congr 1
    clear rel
    induction fs generalizing ws with
    | nil =>
      cases ws with
      | nil => rfl
      | cons => simp at len
    | cons f fs ihf =>
      cases ws with
      | nil => simp at len
      | cons w ws =>
        rw [obsList, lobsList, ih 0 f w rfl rfl,
          ihf (by simpa using len) (fun i a b ha hb => ih (i + 1) a b (by simpa using ha) (by simpa using hb))]
  | clo => rw [Val.obs, LVal.obs]
  | rclo => rw [Val.obs, LVal.obs]

theorem VRelL.obs : ∀ {vs : List Val} {ws : List LVal}, VRelL ord vs ws → obsList vs = lobsList ws
  | [], [], _ => rfl
  | [], _ :: _, h => absurd h.1 (by simp)
  | _ :: _, [], h => absurd h.1 (by simp)
  | v :: vs, w :: ws, h => by rw [obsList, lobsList, h.head.obs, VRelL.obs h.tail]

theorem Conf.push1 {G st ρ fr} (h : Conf ord G st ρ fr) {x : Name} (hx : x ∉ st ++ gkeys G) {v w}
    (hv : VRel ord v w) : Conf ord G (st ++ [x]) ((x, v) :: ρ) (fr ++ [w]) := by
  have hne : ∀ y ∈ st ++ gkeys G, lookup y ((x, v) :: ρ) = lookup y ρ := by
    intro y hy
    rw [lookup, if_neg (fun (e : x = y) => hx (by rw [e]; exact hy))]
  refine ⟨nodup_push (G := G) h.nodup (by simp) (by simpa using hx), by simp [h.len], ?_, ?_, ?_⟩
  · intro y hy
    by_cases e : x = y
    · exact ⟨v, by rw [lookup, if_pos e]⟩
    · have hy' : y ∈ st ++ gkeys G := by
        simp only [List.mem_append, List.mem_singleton] at hy ⊢
        rcases hy with (h | h) | h
        · exact .inl h
        · exact absurd h.symm e
        · exact .inr h
      obtain ⟨u, hu⟩ := h.bound y hy'
      exact ⟨u, by rw [hne y hy', hu]⟩
  · intro i y w' v' hy hw hl
    by_cases hi : i < st.length
    · rw [List.getElem?_append_left hi] at hy
      rw [List.getElem?_append_left (by rw [h.len]; exact hi)] at hw
      rw [hne y (List.mem_append_left _ (List.mem_of_getElem? hy))] at hl
      exact h.local_ i y w' v' hy hw hl
    · have hi' : i = st.length := by
        by_cases h0 : i = st.length
        · exact h0
        · rw [List.getElem?_eq_none (by simp; omega)] at hy; cases hy
      subst hi'
      rw [List.getElem?_append_right (Nat.le_refl _), Nat.sub_self] at hy
      rw [List.getElem?_append_right (by rw [h.len]; exact Nat.le_refl _), h.len, Nat.sub_self] at hw
      simp only [List.getElem?_cons_zero, Option.some.injEq] at hy hw
      rw [lookup, if_pos hy] at hl
      cases hl
      exact hw ▸ hv
  · intro y w' v' hy hl
    rw [hne y (List.mem_append_right _ (assoc_isSome.2 ⟨w', hy⟩))] at hl
    exact h.known y w' v' hy hl

theorem Conf.push {G} : ∀ {xs : List Name} {st ρ fr} {vs : List Val} {ws : List LVal}, Conf ord G st ρ fr →
    xs.Nodup → (∀ x ∈ xs, x ∉ st ++ gkeys G) → xs.length = vs.length → VRelL ord vs ws →
    Conf ord G (st ++ xs) (bindAll ρ xs vs) (fr ++ ws)
  | [], st, ρ, fr, [], [], h, _, _, _, _ => by simpa [bindAll] using h
  | [], _, _, _, [], _ :: _, _, _, _, _, h => absurd h.1 (by simp)
  | [], _, _, _, _ :: _, _, _, _, _, h, _ => by simp at h
  | _ :: _, _, _, _, [], _, _, _, _, h, _ => by simp at h
  | _ :: _, _, _, _, _ :: _, [], _, _, _, _, h => absurd h.1 (by simp)
  | x :: xs, st, ρ, fr, v :: vs, w :: ws, h, hn, hd, hl, hv => by
    have h1 := h.push1 (hd x (by simp)) hv.head
    have h2 := Conf.push (xs := xs) h1 (List.nodup_cons.1 hn).2 (fun y hy => by
      have hy1 := hd y (by simp [hy])
      have hy2 : y ≠ x := fun e => (List.nodup_cons.1 hn).1 (e ▸ hy)
      simp only [List.mem_append, List.mem_singleton, not_or] at hy1 ⊢
      exact ⟨⟨hy1.1, hy2⟩, hy1.2⟩) (by simpa using hl) hv.tail
    rw [List.append_assoc, List.append_assoc] at h2
    simpa [bindAll] using h2

/-! ## Simulation of outcomes -/

/-- The frame `fr` on top of the stack `pre`. -/
def cenv (pre fr : List LVal) : CEnv := ⟨pre ++ fr, pre.length⟩

/-- `m` does what `r` says and leaves the stack as it was; nothing is claimed when `r` is a panic. -/
def Sim {α β : Type} (P : α → β → Prop) (r : Res α) (m : LM β) (s : CEnv) : Prop :=
  match r with
  | .ok v => ∃ w, m s = (.ok w, s) ∧ P v w
  | .trap t => m s = (.trap t, s)
  | .timeout => (m s).1 = .timeout
  | .panic => True

theorem Sim.bind {α β γ δ : Type} {P : α → β → Prop} {Q : γ → δ → Prop} {r : Res α} {m : LM β}
    {f : α → Res γ} {g : β → LM δ} {s : CEnv} (h : Sim P r m s)
    (hf : ∀ v w, r = .ok v → P v w → Sim Q (f v) (g w) s) : Sim Q (r.bind f) (m.bind g) s := by
  cases r with
  | ok v =>
    obtain ⟨w, h1, h2⟩ := h
    have := hf v w rfl h2
    have e : (m.bind g) s = g w s := by rw [LM.bind, h1]
    simp only [Res.bind]
    unfold Sim at this ⊢
    rw [e]
    exact this
  | trap t =>
    simp only [Sim, Res.bind] at h ⊢
    rw [LM.bind, h]
  | timeout =>
    simp only [Sim, Res.bind] at h ⊢
    rw [LM.bind]
    cases hm : m s with
    | mk a b => rw [hm] at h; simp only at h; subst h; rfl
  | panic => trivial

theorem Sim.ok {α β : Type} {P : α → β → Prop} {v : α} {w : β} {s : CEnv} (h : P v w) :
    Sim P (.ok v) (LM.lift (.ok w)) s := ⟨w, rfl, h⟩

theorem Sim.int {v w s} (h : VRel ord v w) : Sim Eq v.intoInt (LM.lift w.intoInt) s := by
  cases h <;> first | exact trivial | exact ⟨_, rfl, rfl⟩
theorem Sim.bool {v w s} (h : VRel ord v w) : Sim Eq v.intoBool (LM.lift w.intoBool) s := by
  cases h <;> first | exact trivial | exact ⟨_, rfl, rfl⟩
theorem Sim.str {v w s} (h : VRel ord v w) : Sim Eq v.intoStr (LM.lift w.intoStr) s := by
  cases h <;> first | exact trivial | exact ⟨_, rfl, rfl⟩
theorem Sim.comp {v w s} (h : VRel ord v w) :
    Sim (fun a b => a.1 = b.1 ∧ VRelL ord a.2 b.2) v.intoComp (LM.lift w.intoComp) s := by
  cases h with
  | comp len rel => exact ⟨_, rfl, rfl, len, rel⟩
  | _ => trivial

theorem VRel.isFn {v w} (h : VRel ord v w) : v.isFn = w.isFn := by cases h <;> rfl

theorem addAll_eq (ws : List LVal) : ∀ (pre fr : List LVal), (cenv pre fr).addAll ws = cenv pre (fr ++ ws) := by
  induction ws with
  | nil => intro pre fr; simp [CEnv.addAll]
  | cons w ws ih =>
    intro pre fr
    have : (cenv pre fr).add w = cenv pre (fr ++ [w]) := by simp [CEnv.add, cenv]
    have := ih pre (fr ++ [w])
    simp only [CEnv.addAll, List.foldl_cons] at this ⊢
    rw [‹(cenv pre fr).add w = _›, this]
    simp

theorem removeAll_eq (ws : List LVal) : ∀ (pre fr us : List LVal), us.length = ws.length →
    (cenv pre (fr ++ us)).removeAll ws = cenv pre fr := by
  induction ws with
  | nil =>
    intro pre fr us h
    cases us with
    | nil => simp [CEnv.removeAll]
    | cons => simp at h
  | cons w ws ih =>
    intro pre fr us h
    have hus : us ≠ [] := by intro e; simp [e] at h
    obtain ⟨us', u, rfl⟩ : ∃ us' u, us = us' ++ [u] :=
      ⟨us.dropLast, us.getLast hus, (List.dropLast_concat_getLast hus).symm⟩
    have : (cenv pre (fr ++ (us' ++ [u]))).remove = cenv pre (fr ++ us') := by
      simp only [CEnv.remove, cenv]
      rw [← List.append_assoc, ← List.append_assoc, List.dropLast_concat, List.append_assoc]
    have h2 := ih pre fr us' (by simp at h; omega)
    simp only [CEnv.removeAll, List.foldl_cons] at h2 ⊢
    rw [this]
    exact h2

theorem Sim.withVals {α : Type} {P : α → LVal → Prop} {r : Res α} {m : LM LVal} {pre fr ws : List LVal}
    (h : Sim P r m (cenv pre (fr ++ ws))) : Sim P r (withVals ws m) (cenv pre fr) := by
  unfold Sim at h ⊢
  simp only [Tic.Core.withVals, addAll_eq]
  split at h
  · obtain ⟨w, h1, h2⟩ := h
    exact ⟨w, by rw [h1, removeAll_eq ws pre fr ws rfl], h2⟩
  · rw [h, removeAll_eq ws pre fr ws rfl]
  · exact h
  · trivial

theorem Sim.inFrame {α : Type} {P : α → LVal → Prop} {r : Res α} {m : LM LVal} {pre fr : List LVal}
    (h : Sim P r m (cenv (pre ++ fr) [])) : Sim P r (inFrame m) (cenv pre fr) := by
  have e : ({ cenv pre fr with frameStart := (cenv pre fr).names.length } : CEnv) = cenv (pre ++ fr) [] := by
    simp [cenv]
  have e2 : ({ cenv (pre ++ fr) [] with frameStart := (cenv pre fr).frameStart } : CEnv) = cenv pre fr := by
    simp [cenv]
  unfold Sim at h ⊢
  simp only [Tic.Core.inFrame, e]
  split at h
  · obtain ⟨w, h1, h2⟩ := h
    exact ⟨w, by rw [h1, e2], h2⟩
  · rw [h, e2]
  · exact h
  · trivial

theorem capture_ok {G st ρ fr} (h : Conf ord G st ρ fr) (pre : List LVal) : ∀ {cn : List Name} {slots : List Nat},
    slots.length = cn.length → (∀ (i : Nat) c, cn[i]? = some c → ∃ j, slots[i]? = some j ∧ st[j]? = some c) →
    ∃ caps, capture (cenv pre fr) slots = .ok caps ∧ caps.length = cn.length ∧
      ∀ (i : Nat) x w v, cn[i]? = some x → caps[i]? = some w → lookup x ρ = .ok v → VRel ord v w
  | [], [], _, _ => ⟨[], rfl, rfl, fun _ _ _ _ h => by simp at h⟩
  | [], _ :: _, h, _ => by simp at h
  | _ :: _, [], h, _ => by simp at h
  | c :: cn, j :: slots, hl, hs => by
    obtain ⟨caps, h1, h2, h3⟩ := capture_ok h pre (cn := cn) (slots := slots) (by simpa using hl)
      (fun i d hd => by simpa using hs (i + 1) d (by simpa using hd))
    obtain ⟨j', hj1, hj2⟩ := hs 0 c rfl
    simp only [List.getElem?_cons_zero, Option.some.injEq] at hj1
    subst hj1
    have hlt : j < fr.length := by
      rw [h.len]
      exact (List.getElem?_eq_some_iff.1 hj2).1
    have hfr : fr[j]? = some fr[j] := List.getElem?_eq_getElem hlt
    refine ⟨fr[j] :: caps, ?_, by simp [h2], ?_⟩
    · rw [capture, CEnv.lookup, cenv]
      simp only
      rw [List.getElem?_append_right (by omega), Nat.add_sub_cancel_left, hfr]
      simp only [Res.bind]
      rw [← cenv, h1]
    · intro i x w v hx hw hlk
      cases i with
      | zero =>
        simp only [List.getElem?_cons_zero, Option.some.injEq] at hx hw
        subst hx hw
        exact h.local_ j c _ v hj2 hfr hlk
      | succ i =>
        simp only [List.getElem?_cons_succ] at hx hw
        exact h3 i x w v hx hw hlk

section
variable (hord : ∀ e l, (ord e l).Perm l)

/-- What the main theorem says at depth `n`. -/
def SimAt (ord : Expr → List Name → List Name) (n : Nat) : Prop :=
  ∀ (G : List (Name × LVal)) (st : List Name) (ρ : Env) (fr pre : List LVal) (e : Expr) (code : LCode),
    Conf ord G st ρ fr → Good (st ++ gkeys G) e → ArgsOK e →
    compileL ord G e (rof st) = some (code, rof st) →
    Sim (VRel ord) (eval n ρ e) (run n code) (cenv pre fr)

theorem sim_list {n : Nat} (hS : SimAt ord n) {G st ρ fr} (hc : Conf ord G st ρ fr) (pre : List LVal) :
    ∀ {es : List Expr} {codes : List LCode}, (∀ e ∈ es, Good (st ++ gkeys G) e ∧ ArgsOK e ∧ Compiles ord G e st) →
    compileLs ord G es (rof st) = some (codes, rof st) →
    Sim (VRelL ord) (evalList (eval n ρ) es) (runList (run n) codes) (cenv pre fr)
  | [], codes, _, h => by
    rw [compileLs] at h
    cases h
    exact .ok .nil
  | e :: es, codes, hes, h => by
    obtain ⟨hg, ha, c, hcc⟩ := hes e (by simp)
    obtain ⟨cs, hcs⟩ := compileLs_ok (es := es) (fun e he => (hes e (by simp [he])).2.2)
    rw [compileLs, hcc] at h
    simp only [Option.bind_some, hcs, Option.map_some, Option.some.injEq, Prod.mk.injEq, and_true] at h
    subst h
    rw [evalList, runList]
    refine (hS G st ρ fr pre e c hc hg ha hcc).bind fun v w _ hv => ?_
    refine (sim_list hS hc pre (fun e he => hes e (by simp [he])) hcs).bind fun vs ws _ hvs => ?_
    exact .ok (hvs.cons hv)

theorem compileLn_inv {G st} : ∀ {k : Nat} {es : List Expr} {codes : List LCode},
    k ≤ es.length → (∀ e ∈ es, Compiles ord G e st) →
    compileLn ord G k es (rof st) = some (codes, rof st) →
    codes.length = k ∧ ∀ (i : Nat) c e, codes[i]? = some c → es[i]? = some e →
      compileL ord G e (rof st) = some (c, rof st)
  | 0, es, codes, _, _, h => by
    rw [compileLn] at h
    cases h
    exact ⟨rfl, fun _ _ _ h => by simp at h⟩
  | k + 1, [], _, h, _, _ => by simp at h
  | k + 1, e :: es, codes, hk, hes, h => by
    obtain ⟨c, hcc⟩ := hes e (by simp)
    obtain ⟨cs, hcs⟩ := compileLn_ok (k := k) (es := es) (by simpa using hk) (fun e he => hes e (by simp [he]))
    rw [compileLn, hcc] at h
    simp only [Option.bind_some, hcs, Option.map_some, Option.some.injEq, Prod.mk.injEq, and_true] at h
    subst h
    obtain ⟨h1, h2⟩ := compileLn_inv (k := k) (es := es) (by simpa using hk) (fun e he => hes e (by simp [he])) hcs
    refine ⟨by simp [h1], fun i c' e' hc' he' => ?_⟩
    cases i with
    | zero =>
      simp only [List.getElem?_cons_zero, Option.some.injEq] at hc' he'
      subst hc' he'
      exact hcc
    | succ i =>
      simp only [List.getElem?_cons_succ] at hc' he'
      exact h2 i c' e' hc' he'

/-- intrinsics -/
theorem sim_intr {ev : Expr → Res Val} {rn : LCode → LM LVal} {s : CEnv} (i : Intrinsic) {xs : List Expr}
    {cs : List LCode} (hl : cs.length = i.arity) (hk : i.arity ≤ xs.length)
    (h : ∀ (j : Nat) c e, cs[j]? = some c → xs[j]? = some e → Sim (VRel ord) (ev e) (rn c) s) :
    Sim (VRel ord) (evalIntr ev i xs) (runIntr rn i cs) s := by
  cases i with
  | stringLen =>
    match xs, cs, hl, hk with
    | x :: _, [c], _, _ =>
      refine (h 0 c x rfl rfl).bind fun v w _ hv => (Sim.str hv).bind fun a b _ hab => ?_
      subst hab; exact .ok (.int _)
  | stringConcat =>
    match xs, cs, hl, hk with
    | x :: y :: _, [c, d], _, _ =>
      refine (h 0 c x rfl rfl).bind fun v w _ hv => (Sim.str hv).bind fun a b _ hab => ?_
      subst hab
      refine (h 1 d y rfl rfl).bind fun v w _ hv => (Sim.str hv).bind fun a b _ hab => ?_
      subst hab; exact .ok (.str _)
  | stringCharAt =>
    match xs, cs, hl, hk with
    | x :: y :: _, [c, d], _, _ =>
      refine (h 0 c x rfl rfl).bind fun v w _ hv => (Sim.int hv).bind fun a b _ hab => ?_
      subst hab
      refine (h 1 d y rfl rfl).bind fun v w _ hv => (Sim.str hv).bind fun a b _ hab => ?_
      subst hab; exact .ok (.int _)
  | stringSubstring =>
    match xs, cs, hl, hk with
    | x :: y :: z :: _, [c, d, e], _, _ =>
      refine (h 0 c x rfl rfl).bind fun v w _ hv => (Sim.int hv).bind fun a b _ hab => ?_
      subst hab
      refine (h 1 d y rfl rfl).bind fun v w _ hv => (Sim.int hv).bind fun a b _ hab => ?_
      subst hab
      refine (h 2 e z rfl rfl).bind fun v w _ hv => (Sim.str hv).bind fun a b _ hab => ?_
      subst hab; exact .ok (.str _)
  | stringFromChar =>
    match xs, cs, hl, hk with
    | x :: _, [c], _, _ =>
      refine (h 0 c x rfl rfl).bind fun v w _ hv => (Sim.int hv).bind fun a b _ hab => ?_
      subst hab; exact .ok (.str _)
  | intToString =>
    match xs, cs, hl, hk with
    | x :: _, [c], _, _ =>
      refine (h 0 c x rfl rfl).bind fun v w _ hv => (Sim.int hv).bind fun a b _ hab => ?_
      subst hab; exact .ok (.str _)

theorem lop_rel (o : Op) (a b : UInt64) : VRel ord (evalOp o a b) (lop o a b) := by
  cases o <;> first | exact .int _ | exact .bool _

/-- calling related functions with related arguments -/
theorem sim_call {n : Nat} (hS : SimAt ord n) {fv fw vs ws} (hf : VRel ord fv fw) (hvs : VRelL ord vs ws)
    (pre fr : List LVal) :
    Sim (VRel ord) (applyFn (eval n) fv vs) (callFn (run n) fw ws) (cenv pre fr) := by
  cases hf with
  | int x => trivial
  | bool b => trivial
  | str s => trivial
  | comp _ _ => trivial
  | @clo ρ ps b caps code G cn len nodup new good args comp bound local_ known =>
    simp only [applyFn, callFn]
    split
    · rename_i hl
      refine .inFrame (.withVals (.withVals ?_))
      rw [List.nil_append]
      have hcn : cn.Nodup := (List.nodup_append.1 nodup).1
      have c0 : Conf ord G cn ρ caps := ⟨hcn, len, bound, local_, known⟩
      have c1 := c0.push (List.nodup_append.1 nodup).2.1 (fun x hx hx' => by
        rcases List.mem_append.1 hx' with h | h
        · exact (List.nodup_append.1 nodup).2.2 x h x hx rfl
        · exact new x hx h) hl hvs
      exact hS G _ _ _ (pre ++ fr) b code c1 good args comp
    · trivial
  | @rclo ρ n' ps b caps code G cn len nodup new good args comp bound local_ known =>
    simp only [applyFn, callFn]
    split
    · rename_i hl
      refine .inFrame (.withVals (.withVals (.withVals ?_)))
      rw [List.nil_append]
      have hnd := (List.nodup_append.1 nodup).1
      have hcn : cn.Nodup := (List.nodup_append.1 hnd).1
      have c0 : Conf ord G cn ρ caps := ⟨hcn, len, bound, local_, known⟩
      have c1 := c0.push (List.nodup_append.1 hnd).2.1 (fun x hx hx' => by
        rcases List.mem_append.1 hx' with h | h
        · exact (List.nodup_append.1 hnd).2.2 x h x hx rfl
        · exact new x (by simp [hx]) h) hl hvs
      have c2 := c1.push1 (x := n') (fun hx => by
        rcases List.mem_append.1 hx with h | h
        · exact (List.nodup_append.1 nodup).2.2 n' h n' (by simp) rfl
        · exact new n' (by simp) h)
        (VRel.rclo len nodup new good args comp bound local_ known)
      exact hS G _ _ _ (pre ++ fr) b code c2 good args comp
    · trivial

theorem findCode_ok {G st} : ∀ {bs : List Branch} {codes : List (Name × LCode)},
    (∀ b ∈ bs, (st ++ b.binds).Nodup ∧ Compiles ord G b.body (st ++ b.binds)) →
    compileLb ord G bs (rof st) = some (codes, rof st) → ∀ (c : Name) (b : Branch),
    findBranch c bs = some b → b ∈ bs ∧ ∃ code, findCode c codes = some code ∧
      compileL ord G b.body (rof (st ++ b.binds)) = some (code, rof (st ++ b.binds))
  | [], _, _, _, _, _, h => by cases h
  | .mk d ns e :: bs, codes, hbs, h, c, b, hf => by
    obtain ⟨hn, code, hcc⟩ := hbs (.mk d ns e) (by simp)
    obtain ⟨cs, hcs⟩ := compileLb_ok (bs := bs) (ord := ord) (G := G) (fun e he => hbs e (by simp [he]))
    simp only [Branch.binds, Branch.body] at hn hcc
    rw [compileLb, rof_append, hcc] at h
    simp only [Option.bind_some] at h
    rw [rof_removeAll _ hn] at h
    simp only [Option.bind_some, hcs, Option.map_some, Option.some.injEq, Prod.mk.injEq, and_true] at h
    subst h
    rw [findBranch] at hf
    by_cases hd : d = c
    · rw [if_pos (by simpa [Branch.ctor] using hd)] at hf
      cases hf
      exact ⟨by simp, code, by rw [findCode, if_pos hd], hcc⟩
    · rw [if_neg (by simpa [Branch.ctor] using hd)] at hf
      obtain ⟨h1, code', h2, h3⟩ := findCode_ok (fun e he => hbs e (by simp [he])) hcs c b hf
      exact ⟨by simp [h1], code', by rw [findCode, if_neg hd, h2], h3⟩

include hord in
/-- **The simulation.** -/
theorem sim : ∀ n, SimAt ord n := by
  intro n
  induction n with
  | zero => intro G st ρ fr pre e code _ _ _ _; rfl
  | succ n hS =>
    intro G st ρ fr pre e code hc hg ha hcode
    have hn := hc.nodup
    have sub : ∀ c, c ∈ children e → (st ++ c.1).Nodup → Good ((st ++ c.1) ++ gkeys G) c.2 ∧ ArgsOK c.2 ∧
        Compiles ord G c.2 (st ++ c.1) := fun c hc' hnd =>
      ⟨good_push (hg.child hc'), ha.child hc', compile_ok hord _ _ hnd (ha.child hc') (good_push (hg.child hc'))⟩
    have sub' : ∀ c, ([], c) ∈ children e → Good (st ++ gkeys G) c ∧ ArgsOK c ∧ Compiles ord G c st := fun c hc' => by
      simpa using sub ([], c) hc' (by simpa using hn)
    cases e with
    | bool b => rw [compileL] at hcode; cases hcode; exact .ok (.bool b)
    | int i => rw [compileL] at hcode; cases hcode; exact .ok (.int i)
    | str s => rw [compileL] at hcode; cases hcode; exact .ok (.str s)
    | trap m t => rw [compileL] at hcode; cases hcode; rfl
    | name x =>
      have hx := hg.scope x rfl
      obtain ⟨v, hv⟩ := hc.bound x hx
      rw [compileL] at hcode
      rw [eval_name, hv]
      cases hG : assoc x G with
      | some w =>
        rw [hG] at hcode
        cases hcode
        exact ⟨w, rfl, hc.known x w v hG hv⟩
      | none =>
        rw [hG] at hcode
        simp only at hcode
        rcases List.mem_append.1 hx with hx | hx
        · obtain ⟨i, hi⟩ := List.mem_iff_getElem?.1 hx
          rw [rof_assoc hn hi] at hcode
          cases hcode
          have hlt : i < fr.length := by rw [hc.len]; exact (List.getElem?_eq_some_iff.1 hi).1
          have hfr : fr[i]? = some fr[i] := List.getElem?_eq_getElem hlt
          refine ⟨fr[i], ?_, hc.local_ i x _ v hi hfr hv⟩
          simp only [run, CEnv.lookup, cenv]
          rw [List.getElem?_append_right (by omega), Nat.add_sub_cancel_left, hfr]
        · obtain ⟨a, ha⟩ := assoc_isSome.1 hx
          rw [ha] at hG; cases hG
    | call f xs =>
      obtain ⟨gf, af, c, hcf⟩ := sub' f (by simp [children])
      have hxs := fun e (he : e ∈ xs) => sub' e (by simp [children, he])
      obtain ⟨cs, hcs⟩ := compileLs_ok (es := xs) (fun e he => (hxs e he).2.2)
      rw [compileL, hcf] at hcode
      simp only [Option.bind_some, hcs, Option.map_some, Option.some.injEq, Prod.mk.injEq, and_true] at hcode
      subst hcode
      rw [eval_call, run]
      refine (hS G st ρ fr pre f c hc gf af hcf).bind fun fv fw _ hf => ?_
      rw [hf.isFn]
      split
      · exact (sim_list hS hc pre hxs hcs).bind fun vs ws _ hvs => sim_call hS hf hvs pre fr
      · trivial
    | ite c t e =>
      obtain ⟨g1, a1, c1, h1⟩ := sub' c (by simp [children])
      obtain ⟨g2, a2, c2, h2⟩ := sub' t (by simp [children])
      obtain ⟨g3, a3, c3, h3⟩ := sub' e (by simp [children])
      rw [compileL, h1] at hcode
      simp only [Option.bind_some, h2, h3, Option.map_some, Option.some.injEq, Prod.mk.injEq, and_true] at hcode
      subst hcode
      rw [eval_ite, run]
      refine (hS G st ρ fr pre _ _ hc g1 a1 h1).bind fun v w _ hv => (Sim.bool hv).bind fun a b _ hab => ?_
      subst hab
      cases a
      · exact hS G st ρ fr pre _ _ hc g3 a3 h3
      · exact hS G st ρ fr pre _ _ hc g2 a2 h2
    | op a o b =>
      obtain ⟨g1, a1, c1, h1⟩ := sub' a (by simp [children])
      obtain ⟨g2, a2, c2, h2⟩ := sub' b (by simp [children])
      rw [compileL, h1] at hcode
      simp only [Option.bind_some, h2, Option.map_some, Option.some.injEq, Prod.mk.injEq, and_true] at hcode
      subst hcode
      rw [eval_op, run]
      refine (hS G st ρ fr pre _ _ hc g1 a1 h1).bind fun v w _ hv => (Sim.int hv).bind fun x y _ hxy => ?_
      subst hxy
      refine (hS G st ρ fr pre _ _ hc g2 a2 h2).bind fun v w _ hv => (Sim.int hv).bind fun x' y _ hxy => ?_
      subst hxy
      exact .ok (lop_rel o x x')
    | intr i xs =>
      have hxs := fun e (he : e ∈ xs) => sub' e (by simp [children, he])
      have hk := ha i xs .refl
      obtain ⟨cs, hcs⟩ := compileLn_ok (k := i.arity) (es := xs) hk (fun e he => (hxs e he).2.2)
      rw [compileL, hcs] at hcode
      simp only [Option.map_some, Option.some.injEq, Prod.mk.injEq, and_true] at hcode
      subst hcode
      obtain ⟨h1, h2⟩ := compileLn_inv hk (fun e he => (hxs e he).2.2) hcs
      rw [eval_intr, run]
      exact sim_intr i h1 hk (fun j c e hjc hje => by
        have he := hxs e (List.mem_of_getElem? hje)
        exact hS G st ρ fr pre e c hc he.1 he.2.1 (h2 j c e hjc hje))
    | lam ps b =>
      have hab : ArgsOK b := ha.child (c := (ps.map (·.1), b)) (by simp [children])
      obtain ⟨cn, slots, bc, hcaps, hnd, hgb, hbc, h⟩ := compile_lam hord hn hg
        (fun st' hn' hg' => compile_ok hord b st' hn' hab hg')
      rw [h] at hcode
      cases hcode
      obtain ⟨caps, k1, k2, k3⟩ := capture_ok hc pre hcaps.len hcaps.slot
      rw [eval_lam]
      refine ⟨.clo caps bc, ?_, ?_⟩
      · simp only [run, k1, Res.bind]
      · exact .clo k2 hnd (fun p hp => fun h => hg.own_new (y := p) (by simpa [own] using hp) (List.mem_append_right _ h))
          hgb hab hbc (fun x hx => hc.bound x (by
            rcases List.mem_append.1 hx with h | h
            · exact List.mem_append_left _ (hcaps.sub x h)
            · exact List.mem_append_right _ h)) k3 hc.known
    | mtch d bs =>
      obtain ⟨g1, a1, c1, h1⟩ := sub' d (by simp [children])
      have hbm : ∀ b ∈ bs, (b.binds, b.body) ∈ children (.mtch d bs) := fun b hb => by
        simp only [children, List.mem_cons, List.mem_map]
        exact .inr ⟨b, hb, rfl⟩
      have hbnew : ∀ b ∈ bs, ∀ y ∈ b.binds, y ∉ st ++ gkeys G := fun b hb y hy => hg.own_new (by
        simp only [own, List.mem_flatMap]
        exact ⟨b, hb, hy⟩)
      have hbnd : ∀ b ∈ bs, b.binds.Nodup := fun b hb =>
        List.Nodup.sublist (l₂ := own (.mtch d bs)) (by
          simp only [own]
          obtain ⟨pre, post, rfl⟩ := List.append_of_mem hb
          simp only [List.flatMap_append, List.flatMap_cons]
          exact (List.sublist_append_left _ _).trans (List.sublist_append_right _ _)) hg.own_nodup
      have hbs : ∀ b ∈ bs, (st ++ b.binds).Nodup ∧ Compiles ord G b.body (st ++ b.binds) := fun b hb => by
        have hnd := nodup_push (G := G) hn (hbnd b hb) (hbnew b hb)
        exact ⟨hnd, (sub _ (hbm b hb) hnd).2.2⟩
      obtain ⟨cs, hcs⟩ := compileLb_ok (bs := bs) (ord := ord) (G := G) (st := st) hbs
      rw [compileL, h1] at hcode
      simp only [Option.bind_some, hcs, Option.map_some, Option.some.injEq, Prod.mk.injEq, and_true] at hcode
      subst hcode
      rw [eval_mtch, run]
      refine (hS G st ρ fr pre _ _ hc g1 a1 h1).bind fun v w _ hv => (Sim.comp hv).bind fun x y _ hxy => ?_
      obtain ⟨x1, x2⟩ := x
      obtain ⟨y1, y2⟩ := y
      obtain ⟨hxy1, hxy2⟩ := hxy
      simp only at hxy1 hxy2
      subst hxy1
      simp only [runBranch]
      cases hb : findBranch x1 bs with
      | none => trivial
      | some b =>
        obtain ⟨hbmem, bcode, k1, k2⟩ := findCode_ok hbs hcs x1 b hb
        simp only [k1]
        split
        · rename_i hl
          refine .withVals ?_
          exact hS G _ _ _ pre b.body bcode (hc.push (hbnd b hbmem) (hbnew b hbmem) hl hxy2)
            (sub _ (hbm b hbmem) (hbs b hbmem).1).1 (sub _ (hbm b hbmem) (hbs b hbmem).1).2.1 k2
        · trivial
    | con c ts xs =>
      have hxs := fun e (he : e ∈ xs) => sub' e (by simp [children, he])
      obtain ⟨cs, hcs⟩ := compileLs_ok (es := xs) (fun e he => (hxs e he).2.2)
      rw [compileL, hcs] at hcode
      simp only [Option.map_some, Option.some.injEq, Prod.mk.injEq, and_true] at hcode
      subst hcode
      rw [eval_con, run]
      refine (sim_list hS hc pre hxs hcs).bind fun vs ws _ hvs => ?_
      rw [hvs.1]
      split
      · exact .ok (.comp hvs.1 hvs.2)
      · trivial
    | let_ x v e =>
      have hnn : x ∉ st ++ gkeys G := hg.own_new (by simp [own])
      have hns : x ∉ st := fun h => hnn (List.mem_append_left _ h)
      obtain ⟨g1, a1, c1, h1⟩ := sub' v (by simp [children])
      obtain ⟨g2, a2, c2, h2⟩ := sub ([x], e) (by simp [children]) (nodup_push (G := G) hn (by simp) (by simpa using hnn))
      rw [compileL, h1] at hcode
      simp only [Option.bind_some, rof_add] at hcode
      rw [h2] at hcode
      simp only [Option.bind_some] at hcode
      rw [rof_remove hns] at hcode
      simp only [Option.map_some, Option.some.injEq, Prod.mk.injEq, and_true] at hcode
      subst hcode
      rw [eval_let, run]
      refine (hS G st ρ fr pre _ _ hc g1 a1 h1).bind fun v w _ hv => .withVals ?_
      exact hS G _ _ _ pre e c2 (hc.push1 hnn hv) g2 a2 h2
    | letrec x t v e =>
      have hnn : x ∉ st ++ gkeys G := hg.own_new (by simp [own])
      have hns : x ∉ st := fun h => hnn (List.mem_append_left _ h)
      rw [eval_letrec]
      cases hr : recLam v with
      | none =>
        have hv : (recLam v).isSome = true := hg.recs _ .refl
        rw [hr] at hv; cases hv
      | some p =>
        obtain ⟨ps, b⟩ := p
        obtain ⟨ps', hps', hs⟩ := stripPis_lam hr
        have hgv : Good (x :: (st ++ gkeys G)) v := hg.child (c := ([x], v)) (by simp [children])
        have hab : ArgsOK b := by
          have := stripPis_args (ha.child (c := ([x], v)) (by simp [children]))
          rw [hs] at this
          exact this.child (c := (ps'.map (·.1), b)) (by simp [children])
        obtain ⟨cn, slots, bc, hcaps, hnd, hgb, hbc, h1⟩ := compile_rec hord hn hr hnn hgv
          (fun st' hn' hg' => compile_ok hord b st' hn' hab hg')
        obtain ⟨g2, a2, c2, h2⟩ := sub ([x], e) (by simp [children]) (nodup_push (G := G) hn (by simp) (by simpa using hnn))
        rw [compileL, h1] at hcode
        simp only [Option.bind_some, rof_add] at hcode
        rw [h2] at hcode
        simp only [Option.bind_some] at hcode
        rw [rof_remove hns] at hcode
        simp only [Option.map_some, Option.some.injEq, Prod.mk.injEq, and_true] at hcode
        subst hcode
        obtain ⟨caps, k1, k2, k3⟩ := capture_ok hc pre hcaps.len hcaps.slot
        have hps : ∀ p ∈ ps, p ∉ x :: (st ++ gkeys G) := by
          have := stripPis_good hgv
          rw [hs] at this
          subst hps'
          exact fun p hp => this.own_new (by simpa [own] using hp)
        have hrel : VRel ord (.rclo ρ x ps b) (.rclo caps bc) :=
          .rclo k2 hnd (fun p hp h => by
            rcases List.mem_append.1 hp with h' | h'
            · exact hps p h' (List.mem_cons_of_mem _ (List.mem_append_right _ h))
            · rw [List.mem_singleton.1 h'] at h
              exact hnn (List.mem_append_right _ h))
            hgb hab hbc (fun y hy => hc.bound y (by
              rcases List.mem_append.1 hy with h | h
              · exact List.mem_append_left _ (hcaps.sub y h)
              · exact List.mem_append_right _ h)) k3 hc.known
        have hbind : (LM.bind (fun s => (capture s slots, s)) fun vs => withVals [.rclo vs bc] (run n c2)) (cenv pre fr) =
            (withVals [.rclo caps bc] (run n c2)) (cenv pre fr) := by
          simp only [LM.bind, k1]
        have := (hS G _ _ _ pre e c2 (hc.push1 hnn hrel) g2 a2 h2).withVals
        unfold Sim at this ⊢
        rw [run]
        simp only [hbind]
        exact this
    | pi v e =>
      obtain ⟨g1, a1, c1, h1⟩ := sub' e (by simp [children])
      rw [compileL, h1] at hcode
      simp only [Option.map_some, Option.some.injEq, Prod.mk.injEq, and_true] at hcode
      subst hcode
      exact hS G st ρ fr pre _ _ hc g1 a1 h1
    | piApp e t =>
      obtain ⟨g1, a1, c1, h1⟩ := sub' e (by simp [children])
      rw [compileL, h1] at hcode
      simp only [Option.map_some, Option.some.injEq, Prod.mk.injEq, and_true] at hcode
      subst hcode
      exact hS G st ρ fr pre _ _ hc g1 a1 h1

/-! ## Programs -/

include hord in
theorem sim_expr {n : Nat} {G ρ} (hc : Conf ord G [] ρ []) {e : Expr} (hg : Good (gkeys G) e) (ha : ArgsOK e) :
    match eval n ρ e with
    | .ok v => ∃ w, levalExpr ord n G e = .ok w ∧ VRel ord v w
    | .trap m => levalExpr ord n G e = .trap m
    | .timeout => levalExpr ord n G e = .timeout
    | .panic => True := by
  obtain ⟨code, hcode⟩ := compile_ok hord (G := G) e [] List.nodup_nil ha (by simpa using hg)
  have h := sim hord n G [] ρ [] [] e code hc (by simpa using hg) ha hcode
  have e1 : cenv [] [] = {} := rfl
  have e2 : rof [] = {} := rfl
  rw [e2] at hcode
  rw [e1] at h
  cases hr : eval n ρ e with
  | ok v =>
    rw [hr] at h
    obtain ⟨w, h1, h2⟩ := h
    refine ⟨w, ?_, h2⟩
    rw [levalExpr, hcode]
    simp [h1]
  | trap m =>
    rw [hr] at h
    simp only [Sim] at h
    simp only [levalExpr, hcode]
    simp [h]
  | timeout =>
    rw [hr] at h
    simp only [Sim] at h
    simp only [levalExpr, hcode]
    simp [h]
  | panic => trivial

theorem Conf.global {G ρ} (h : Conf ord G [] ρ []) {x : Name} {v w} (hv : VRel ord v w) :
    Conf ord ((x, w) :: G) [] ((x, v) :: ρ) [] := by
  refine ⟨List.nodup_nil, rfl, ?_, fun i _ _ _ h => by simp at h, ?_⟩
  · intro y hy
    by_cases e : x = y
    · exact ⟨v, by rw [lookup, if_pos e]⟩
    · simp only [List.nil_append, gkeys, List.map_cons, List.mem_cons] at hy
      rcases hy with hy | hy
      · exact absurd hy.symm e
      · obtain ⟨u, hu⟩ := h.bound y (by simpa using hy)
        exact ⟨u, by rw [lookup, if_neg e, hu]⟩
  · intro y w' v' hy hl
    rw [assoc] at hy
    rw [lookup] at hl
    by_cases e : x = y
    · rw [if_pos e] at hy hl
      cases hy; cases hl
      exact hv
    · rw [if_neg e] at hy hl
      exact h.known y w' v' hy hl

include hord in
theorem sim_defs {n : Nat} : ∀ {ds : List ValueDef} {G ρ}, Conf ord G [] ρ [] →
    Good (gkeys G) (lets (defPairs ds) unit) → (∀ d ∈ ds, ArgsOK d.value) →
    match evalDefs n ds ρ with
    | .ok ρ' => ∃ G', levalDefs ord n ds G = .ok G' ∧ Conf ord G' [] ρ' [] ∧
        ∀ x, x ∈ gkeys G' ↔ x ∈ ds.map (·.name) ∨ x ∈ gkeys G
    | .trap m => levalDefs ord n ds G = .trap m
    | .timeout => levalDefs ord n ds G = .timeout
    | .panic => True := by
  intro ds
  induction ds with
  | nil => intro G ρ hc _ _; exact ⟨G, rfl, hc, by simp⟩
  | cons d ds ih =>
    intro G ρ hc hg ha
    simp only [defPairs, List.map_cons, lets] at hg
    obtain ⟨h1, h2, -⟩ := good_let.1 hg
    have hd := sim_expr hord (n := n) hc h1 (ha d (by simp))
    rw [evalDefs, levalDefs]
    cases he : eval n ρ d.value with
    | ok v =>
      rw [he] at hd
      obtain ⟨w, hw, hv⟩ := hd
      simp only [hw, Res.bind]
      have := ih (G := (d.name, w) :: G) (hc.global hv) h2 (fun d hd => ha d (by simp [hd]))
      cases hr : evalDefs n ds ((d.name, v) :: ρ) with
      | ok ρ' =>
        rw [hr] at this
        obtain ⟨G', k1, k2, k3⟩ := this
        refine ⟨G', k1, k2, fun x => ?_⟩
        rw [k3]
        simp only [gkeys, List.map_cons, List.mem_cons]
        constructor
        · rintro (h | h | h)
          · exact .inl (.inr h)
          · exact .inl (.inl h)
          · exact .inr h
        · rintro ((h | h) | h)
          · exact .inr (.inl h)
          · exact .inl h
          · exact .inr (.inr h)
      | trap m => rw [hr] at this; exact this
      | timeout => rw [hr] at this; exact this
      | panic => trivial
    | trap m => rw [he] at hd; simp only [hd, Res.bind]
    | timeout => rw [he] at hd; simp only [hd, Res.bind]
    | panic => trivial

include hord in
theorem sim_exprs {n : Nat} {G ρ} (hc : Conf ord G [] ρ []) : ∀ {es : List Expr},
    (∀ e ∈ es, Good (gkeys G) e ∧ ArgsOK e) →
    match evalList (eval n ρ) es with
    | .ok vs => ∃ ws, levalList ord n G es = .ok ws ∧ VRelL ord vs ws
    | .trap m => levalList ord n G es = .trap m
    | .timeout => levalList ord n G es = .timeout
    | .panic => True := by
  intro es
  induction es with
  | nil => intro _; exact ⟨[], rfl, .nil⟩
  | cons e es ih =>
    intro h
    have hd := sim_expr hord (n := n) hc (h e (by simp)).1 (h e (by simp)).2
    have := ih (fun e he => h e (by simp [he]))
    rw [evalList, levalList]
    cases he : eval n ρ e with
    | ok v =>
      rw [he] at hd
      obtain ⟨w, hw, hv⟩ := hd
      simp only [hw, Res.bind]
      cases hr : evalList (eval n ρ) es with
      | ok vs =>
        rw [hr] at this
        obtain ⟨ws, k1, k2⟩ := this
        simp only [k1]
        exact ⟨_, rfl, k2.cons hv⟩
      | trap m => rw [hr] at this; simp only [this]
      | timeout => rw [hr] at this; simp only [this]
      | panic => trivial
    | trap m => rw [he] at hd; simp only [hd, Res.bind]
    | timeout => rw [he] at hd; simp only [hd, Res.bind]
    | panic => trivial

end
end

/-! ## C07 -/

/-- What can be seen of a run of the tree-walking evaluator. -/
def seen (r : Res (List Val)) : Res (List Obs) := r.bind fun vs => .ok (obsList vs)
/-- What can be seen of a run of the closure-compiling evaluator. -/
def lseen (r : Res (List LVal)) : Res (List Obs) := r.bind fun ws => .ok (lobsList ws)

/-- **The two evaluators agree.**  For a well-named program and well-named expressions about it (no
intrinsic lacking arguments), whatever order the hash sets are iterated in: if the tree-walking
evaluator produces values, traps, or has not finished within depth `n`, the closure-compiling
evaluator produces the same values, the same trap, or has not finished either.  In particular it never
panics: not when compiling (name lookups, the four assertions), nor when running (slot lookups, the
assertion that the environment is empty at the end). -/
theorem treewalk_lambda_agree (ord : Expr → List Name → List Name) (hord : ∀ e l, (ord e l).Perm l)
    (p : Program) (hp : WellNamed p) (ha : ∀ d ∈ p.defs, ArgsOK d.value) (es : List Expr)
    (hes : ∀ e ∈ es, Good (p.defs.map (·.name)) e ∧ ArgsOK e) (n : Nat)
    (hn : evalProgram n p es ≠ .panic) :
    lseen (levalProgram ord n p es) = seen (evalProgram n p es) := by
  have hc : Conf ord [] [] [] [] :=
    ⟨List.nodup_nil, rfl, fun x h => by simp at h, fun i _ _ _ h => by simp at h, fun x _ _ h => by cases h⟩
  have h1 := sim_defs hord (n := n) hc (wellNamed_iff.1 hp) ha
  rw [evalProgram] at hn ⊢
  rw [levalProgram]
  cases hd : evalDefs n p.defs [] with
  | ok ρ =>
    rw [hd] at h1 hn
    obtain ⟨G, k1, k2, k3⟩ := h1
    simp only [k1, Res.bind] at hn ⊢
    have h2 := sim_exprs hord (n := n) k2 (es := es) (fun e he => by
      obtain ⟨hg, ha⟩ := hes e he
      exact ⟨hg.shrink (fun x hx => by simpa using (k3 x).1 hx) (fun x hx => (k3 x).2 (.inl (hg.scope x hx))), ha⟩)
    cases hr : evalList (eval n ρ) es with
    | ok vs =>
      rw [hr] at h2
      obtain ⟨ws, m1, m2⟩ := h2
      simp only [m1, seen, lseen, Res.bind]
      rw [m2.obs]
    | trap m => rw [hr] at h2; simp only [h2, seen, lseen, Res.bind]
    | timeout => rw [hr] at h2; simp only [h2, seen, lseen, Res.bind]
    | panic => exact absurd hr hn
  | trap m => rw [hd] at h1; simp only [h1, seen, lseen, Res.bind]
  | timeout => rw [hd] at h1; simp only [h1, seen, lseen, Res.bind]
  | panic => rw [hd] at hn; exact absurd rfl hn

/-- The same without depths: same values, same traps, and both run forever or neither. -/
theorem treewalk_lambda_same_behaviour (ord : Expr → List Name → List Name) (hord : ∀ e l, (ord e l).Perm l)
    (p : Program) (hp : WellNamed p) (ha : ∀ d ∈ p.defs, ArgsOK d.value) (es : List Expr)
    (hes : ∀ e ∈ es, Good (p.defs.map (·.name)) e ∧ ArgsOK e)
    (hn : ∀ n, evalProgram n p es ≠ .panic) :
    (∀ obs, (∃ n ws, levalProgram ord n p es = .ok ws ∧ lobsList ws = obs) ↔
      ∃ n vs, evalProgram n p es = .ok vs ∧ obsList vs = obs) ∧
    (∀ m, (∃ n, levalProgram ord n p es = .trap m) ↔ ∃ n, evalProgram n p es = .trap m) ∧
    ((∀ n, levalProgram ord n p es = .timeout) ↔ ∀ n, evalProgram n p es = .timeout) ∧
    ∀ n, levalProgram ord n p es ≠ .panic := by
  have key := fun n => treewalk_lambda_agree ord hord p hp ha es hes n (hn n)
  have cases4 : ∀ n, (∃ vs ws, evalProgram n p es = .ok vs ∧ levalProgram ord n p es = .ok ws ∧ lobsList ws = obsList vs) ∨
      (∃ m, evalProgram n p es = .trap m ∧ levalProgram ord n p es = .trap m) ∨
      (evalProgram n p es = .timeout ∧ levalProgram ord n p es = .timeout) := by
    intro n
    have k := key n
    have hn' := hn n
    cases h1 : evalProgram n p es <;> cases h2 : levalProgram ord n p es <;>
      rw [h1, h2] at k <;> simp [seen, lseen, Res.bind] at k
    · exact .inl ⟨_, _, rfl, rfl, k⟩
    · exact .inr (.inl ⟨_, rfl, by rw [k]⟩)
    · exact absurd h1 hn'
    · exact .inr (.inr ⟨rfl, rfl⟩)
  refine ⟨fun obs => ⟨?_, ?_⟩, fun m => ⟨?_, ?_⟩, ⟨?_, ?_⟩, ?_⟩
  · rintro ⟨n, ws, h, ho⟩
    rcases cases4 n with ⟨vs, ws', h1, h2, h3⟩ | ⟨m, h1, h2⟩ | ⟨h1, h2⟩ <;> rw [h2] at h <;> cases h
    exact ⟨n, vs, h1, by rw [← h3, ho]⟩
  · rintro ⟨n, vs, h, ho⟩
    rcases cases4 n with ⟨vs', ws', h1, h2, h3⟩ | ⟨m, h1, h2⟩ | ⟨h1, h2⟩ <;> rw [h1] at h <;> cases h
    exact ⟨n, ws', h2, by rw [h3, ho]⟩
  · rintro ⟨n, h⟩
    rcases cases4 n with ⟨vs, ws', h1, h2, h3⟩ | ⟨m, h1, h2⟩ | ⟨h1, h2⟩ <;> rw [h2] at h <;> cases h
    exact ⟨n, h1⟩
  · rintro ⟨n, h⟩
    rcases cases4 n with ⟨vs, ws', h1, h2, h3⟩ | ⟨m, h1, h2⟩ | ⟨h1, h2⟩ <;> rw [h1] at h <;> cases h
    exact ⟨n, h2⟩
  · intro h n
    have h := h n
    rcases cases4 n with ⟨vs, ws', h1, h2, h3⟩ | ⟨m, h1, h2⟩ | ⟨h1, h2⟩ <;> rw [h2] at h <;> cases h
    exact h1
  · intro h n
    have h := h n
    rcases cases4 n with ⟨vs, ws', h1, h2, h3⟩ | ⟨m, h1, h2⟩ | ⟨h1, h2⟩ <;> rw [h1] at h <;> cases h
    exact h2
  · intro n h
    rcases cases4 n with ⟨vs, ws', h1, h2, h3⟩ | ⟨m, h1, h2⟩ | ⟨h1, h2⟩ <;> rw [h2] at h <;> cases h

/-! ## Concrete cases -/

/-- `f = \\a. letrec g = \\b c. if b < 1 then \\d. a + d + c else g (b - 1) (c + b) in g 3 a`, with
captures of two levels, recursion through three parameters and a returned closure. -/
def exLam : Program where
  types := []
  defs := [⟨0, none, .int, .lam [(1, .int)]
    (.letrec 2 .int (.pi 0 (.lam [(3, .int), (4, .int)]
      (.ite (.op (.name 3) .less (.int 1))
        (.lam [(5, .int)] (.op (.op (.name 1) .add (.name 5)) .add (.name 4)))
        (.call (.name 2) [.op (.name 3) .subtract (.int 1), .op (.name 4) .add (.name 3)]))))
      (.call (.piApp (.name 2) .int) [.int 3, .name 1]))⟩]

def exLamQ : Expr := .let_ 6 (.call (.name 0) [.int 10]) (.con 7 [] [.call (.name 6) [.int 100], .name 6])

mutual
/-- decides `ArgsOK` -/
def argsB : Expr → Bool
  | .call f xs => argsB f && argsBL xs
  | .ite c t e => argsB c && argsB t && argsB e
  | .op a _ b => argsB a && argsB b
  | .intr i xs => decide (i.arity ≤ xs.length) && argsBL xs
  | .lam _ b => argsB b
  | .mtch e bs => argsB e && argsBB bs
  | .con _ _ xs => argsBL xs
  | .let_ _ v e => argsB v && argsB e
  | .letrec _ _ v e => argsB v && argsB e
  | .pi _ e => argsB e
  | .piApp e _ => argsB e
  | _ => true
def argsBL : List Expr → Bool
  | [] => true
  | e :: es => argsB e && argsBL es
def argsBB : List Branch → Bool
  | [] => true
  | .mk _ _ e :: bs => argsB e && argsBB bs
end

theorem argsBL_mem : ∀ {es : List Expr}, argsBL es = true → ∀ e ∈ es, argsB e = true
  | [], _, _, h => nomatch h
  | e :: es, h, x, hx => by
    simp only [argsBL, Bool.and_eq_true] at h
    rcases List.mem_cons.1 hx with rfl | hx
    · exact h.1
    · exact argsBL_mem h.2 x hx

theorem argsBB_mem : ∀ {bs : List Branch}, argsBB bs = true → ∀ b ∈ bs, argsB b.body = true
  | [], _, _, h => nomatch h
  | .mk c ns e :: bs, h, x, hx => by
    simp only [argsBB, Bool.and_eq_true] at h
    rcases List.mem_cons.1 hx with rfl | hx
    · exact h.1
    · exact argsBB_mem h.2 x hx

theorem argsB_ok (e : Expr) : argsB e = true → ArgsOK e := by
  induction e using Expr.childInd with
  | _ e ih =>
    intro h i xs hs
    have hch : ∀ c ∈ children e, argsB c.2 = true := by
      intro c hc
      cases e <;> simp only [children, List.mem_cons, List.mem_map, List.not_mem_nil, or_false] at hc <;>
        simp only [argsB, Bool.and_eq_true] at h
      case call f xs =>
        rcases hc with rfl | ⟨x, hx, rfl⟩
        · exact h.1
        · exact argsBL_mem h.2 x hx
      case ite => rcases hc with rfl | rfl | rfl <;> simp [h]
      case op => rcases hc with rfl | rfl <;> simp [h]
      case intr => obtain ⟨x, hx, rfl⟩ := hc; exact argsBL_mem h.2 x hx
      case lam => subst hc; exact h
      case mtch =>
        rcases hc with rfl | ⟨x, hx, rfl⟩
        · exact h.1
        · exact argsBB_mem h.2 x hx
      case con => obtain ⟨x, hx, rfl⟩ := hc; exact argsBL_mem h x hx
      case let_ => rcases hc with rfl | rfl <;> simp [h]
      case letrec => rcases hc with rfl | rfl <;> simp [h]
      case pi => subst hc; exact h
      case piApp => subst hc; exact h
    rcases SubE.cases_iff.1 hs with rfl | ⟨c, hc, hs'⟩
    · simp only [argsB, Bool.and_eq_true, decide_eq_true_eq] at h
      exact h.1
    · exact ih c hc (hch c hc) i xs hs'

theorem exLam_wellNamed : WellNamed exLam := wnB_ok (by decide)

theorem exLamQ_good : Good (exLam.defs.map (·.name)) exLamQ := by
  have : WellNamed ⟨[], [⟨0, none, .int, .int 0⟩, ⟨8, none, .int, exLamQ⟩]⟩ := wnB_ok (by decide)
  have h := wellNamed_iff.1 this
  simp only [defPairs, List.map_cons, lets] at h
  exact (good_let.1 (good_let.1 h).2.1).1

/-- the theorem applies to it, with the hash sets iterated backwards, and the value is not trivial -/
example : lseen (levalProgram (fun _ l => l.reverse) 20 exLam [exLamQ]) = .ok [.comp 7 [.int 126, .fn]] := by
  have h := treewalk_lambda_agree (fun _ l => l.reverse) (fun _ l => List.reverse_perm l) exLam exLam_wellNamed
    (fun d hd => argsB_ok _ (by
      simp only [exLam, List.mem_singleton] at hd
      subst hd; decide)) [exLamQ]
    (fun e he => by
      rw [List.mem_singleton.1 he]
      exact ⟨exLamQ_good, argsB_ok _ (by decide)⟩) 20
  have hv : seen (evalProgram 20 exLam [exLamQ]) = .ok [.comp 7 [.int 126, .fn]] := by rfl
  rw [h (by intro e; rw [e] at hv; cases hv), hv]

/-- The restriction to runs in which the tree-walking evaluator does not panic is needed: it counts the
arguments of a call (`treewalk.rs:162`), the other one does not. -/
theorem wrong_arity_differs : ∃ (p : Program) (e : Expr), WellNamed p ∧ Good [] e ∧
    evalProgram 3 p [e] = .panic ∧
    lseen (levalProgram (fun _ l => l) 3 p [e]) = .ok [.int 1] := by
  refine ⟨⟨[], []⟩, .call (.lam [(0, .int)] (.int 1)) [], wnB_ok (by decide), ?_, rfl, rfl⟩
  have : WellNamed ⟨[], [⟨8, none, .int, .call (.lam [(0, .int)] (.int 1)) []⟩]⟩ := wnB_ok (by decide)
  have h := wellNamed_iff.1 this
  simp only [defPairs, List.map_cons, lets] at h
  exact (good_let.1 h).1

/-- Unique names are needed: a local name that is also the name of a definition is taken for the
definition (`lambda.rs:100-106`). -/
theorem shadowed_global_differs : ∃ (p : Program) (e : Expr), WellNamed p ∧
    seen (evalProgram 3 p [e]) = .ok [.int 2] ∧
    lseen (levalProgram (fun _ l => l) 3 p [e]) = .ok [.int 1] :=
  ⟨⟨[], [⟨0, none, .int, .int 1⟩]⟩, .let_ 0 (.int 2) (.name 0), wnB_ok (by decide), rfl, rfl⟩

end Tic.Core
