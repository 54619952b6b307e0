import Verif.Saturate
import Verif.InlineGo
/-
Helper for saturation: how a function that takes its arguments in groups relates to the one
that takes them all at once, and to its adapted uses.
-/
namespace Tic.Core

/-- Nested functions. -/
def lams : List (List (Name × Ty)) → Expr → Expr
  | [], b => b
  | g :: gs, b => .lam g (lams gs b)
/-- Nested type abstractions. -/
def pis : List TyVar → Expr → Expr
  | [], e => e
  | v :: vs, e => .pi v (pis vs e)
/-- Type applications. -/
def piApps : List TyVar → Expr → Expr
  | [], e => e
  | v :: vs, e => piApps vs (.piApp e (.var v))

variable {d : Bool} {s : Mode}

/-- Evaluating `e` gives `f` without any application. -/
structure IsV (ρ : Env) (e : Expr) (f : Val) : Prop where
  some : ∃ n, evalC n ρ e = free (.ok f)
  all : ∀ n, evalC n ρ e = free .timeout ∨ evalC n ρ e = free (.ok f)

theorem IsV.eval {ρ : Env} {e : Expr} {f : Val} (h : IsV ρ e f) : ∃ n, eval n ρ e = .ok f := by
  obtain ⟨n, hn⟩ := h.some
  exact ⟨n, by rw [← evalC_eval, hn]; rfl⟩

theorem isV_name {ρ : Env} {x : Name} {f : Val} (h : lookup x ρ = .ok f) : IsV ρ (.name x) f :=
  ⟨⟨1, by simp [evalC, h, free]⟩, fun n => by cases n with
    | zero => exact .inl rfl
    | succ n => right; simp [evalC, h, free]⟩
theorem isV_lam {ρ : Env} {ps : List (Name × Ty)} {b : Expr} : IsV ρ (.lam ps b) (.clo ρ (ps.map (·.1)) b) :=
  ⟨⟨1, rfl⟩, fun n => by cases n with
    | zero => exact .inl rfl
    | succ n => exact .inr rfl⟩
theorem IsV.pi {ρ : Env} {e : Expr} {f : Val} (h : IsV ρ e f) (v : TyVar) : IsV ρ (.pi v e) f :=
  ⟨let ⟨n, hn⟩ := h.some; ⟨n + 1, hn⟩, fun n => by cases n with
    | zero => exact .inl rfl
    | succ n => exact h.all n⟩
theorem IsV.piApp {ρ : Env} {e : Expr} {f : Val} (h : IsV ρ e f) (v : Ty) : IsV ρ (.piApp e v) f :=
  ⟨let ⟨n, hn⟩ := h.some; ⟨n + 1, hn⟩, fun n => by cases n with
    | zero => exact .inl rfl
    | succ n => exact h.all n⟩
theorem IsV.pis {ρ : Env} {e : Expr} {f : Val} (h : IsV ρ e f) : ∀ (vs : List TyVar), IsV ρ (pis vs e) f
  | [] => h
  | v :: vs => (h.pis vs).pi v
theorem IsV.piApps {ρ : Env} {f : Val} : ∀ (vs : List TyVar) {e : Expr}, IsV ρ e f → IsV ρ (piApps vs e) f
  | [], _, h => h
  | v :: vs, _, h => IsV.piApps vs (h.piApp (.var v))

theorem isV_rel {k : Nat} {ρ ρ' : Env} {e e' : Expr} {f f' : Val} (h : IsV ρ e f) (h' : IsV ρ' e' f') (hv : V s k f f') :
    RelD s k ρ e ρ' e' := by
  intro j hj n
  obtain ⟨m, hm⟩ := h'.eval
  rcases h.all n with hn | hn
  · rw [hn]; exact CE.timeout
  · rw [hn]; exact fun _ _ => ⟨m, f', hm, V.mono (by simp only [free]; omega) hv⟩

theorem isV_let {k : Nat} {ρ ρ' : Env} {x x' : Name} {v v' e e' : Expr} {f f' : Val} (h : IsV ρ v f) (h' : IsV ρ' v' f')
    (he : RelD s k ((x, f) :: ρ) e ((x', f') :: ρ') e') : RelD s k ρ (.let_ x v e) ρ' (.let_ x' v' e') := by
  intro j hj n
  cases n with
  | zero => exact CE.timeout
  | succ n =>
    rcases h.all n with hn | hn
    · rw [show evalC (n + 1) ρ (.let_ x v e) = free .timeout by simp only [evalC, hn]; rfl]
      exact CE.timeout
    · rw [show evalC (n + 1) ρ (.let_ x v e) = evalC n ((x, f) :: ρ) e by
        simp only [evalC, hn, CRes.bind, free]; simp]
      intro hc ht
      obtain ⟨m1, hm1⟩ := h'.eval
      obtain ⟨m, hm⟩ := he j hj n hc ht
      refine ⟨max m1 m + 1, ?_⟩
      have h1 : eval (max m1 m) ρ' v' = .ok f' := by rw [← hm1]; exact (eval_le (Nat.le_max_left _ _) ρ' v').eq (by rw [hm1]; simp)
      simp only [Core.eval, h1, Res.bind_ok]
      exact hm.up (mono_eval _ _) (Nat.le_max_right _ _)

/-! ### Relations with the original side first -/

/-- `RelD` with the original side first; `d` says which side is on the left. -/
def RelO (d : Bool) (s : Mode) (k : Nat) (ρ : Env) (e : Expr) (ρ' : Env) (e' : Expr) : Prop :=
  match d with
  | true => RelD s k ρ e ρ' e'
  | false => RelD s k ρ' e' ρ e
/-- Related values, the original one first. -/
def VO (d : Bool) (s : Mode) (k : Nat) (v v' : Val) : Prop :=
  match d with
  | true => V s k v v'
  | false => V s k v' v
/-- ... pointwise. -/
def VsO (d : Bool) (s : Mode) (k : Nat) (v v' : List Val) : Prop :=
  match d with
  | true => Vs s k v v'
  | false => Vs s k v' v
/-- ... for a name in environments. -/
def LookO (d : Bool) (s : Mode) (k : Nat) (ρ ρ' : Env) (x : Name) : Prop :=
  match d with
  | true => LookRel s k ρ ρ' x
  | false => LookRel s k ρ' ρ x
/-- Extended environments. -/
def ExtO (d : Bool) (s : Mode) (k : Nat) (ns : List Name) (ρ ρ' ρ2 ρ2' : Env) : Prop :=
  match d with
  | true => Ext s k ns ρ ρ' ρ2 ρ2'
  | false => Ext s k ns ρ' ρ ρ2' ρ2

theorem VsO.mono {k j : Nat} {v v' : List Val} (h : VsO d s k v v') (hj : j ≤ k) : VsO d s j v v' := by
  cases d <;> exact Vs.mono hj h
theorem VsO.length {k : Nat} {v v' : List Val} (h : VsO d s k v v') : v.length = v'.length := by
  cases d
  · exact (VRs.length h).symm
  · exact VRs.length h
theorem VRs.append {F : Val → Val → Prop} : ∀ {a a' b b' : List Val}, VRs F a a' → VRs F b b' → VRs F (a ++ b) (a' ++ b')
  | _, _, _, _, .nil, h => h
  | _, _, _, _, .cons h1 h2, h => .cons h1 (h2.append h)
theorem VsO.append {k : Nat} {a a' b b' : List Val} (h : VsO d s k a a') (h2 : VsO d s k b b') : VsO d s k (a ++ b) (a' ++ b') := by
  cases d <;> exact VRs.append h h2
theorem LookO.mono {k j : Nat} {ρ ρ' : Env} {x : Name} (h : LookO d s k ρ ρ' x) (hj : j ≤ k) : LookO d s j ρ ρ' x := by
  cases d <;> exact LookRel.mono hj h
theorem LookO.congr {k : Nat} {ρ ρ' ρ2 ρ2' : Env} {x : Name} (h : LookO d s k ρ ρ' x) (h1 : lookup x ρ2 = lookup x ρ) (h2 : lookup x ρ2' = lookup x ρ') :
    LookO d s k ρ2 ρ2' x := by
  cases d
  · exact LookRel.congr h h2 h1
  · exact LookRel.congr h h1 h2
theorem LookO.bindAll {k : Nat} {x : Name} {ps : List Name} {vs vs' : List Val} {ρ ρ' : Env} (hv : VsO d s k vs vs') (hl : ps.length = vs.length) (hx : x ∈ ps) :
    LookO d s k (bindAll ρ ps vs) (bindAll ρ' ps vs') x := by
  have := hv.length
  cases d
  · exact LookRel.bindAll (s := s) (k := k) hv (by omega) fun h => absurd hx h
  · exact LookRel.bindAll (s := s) (k := k) hv hl fun h => absurd hx h
theorem ExtO.old {k : Nat} {ns : List Name} {ρ ρ' ρ2 ρ2' : Env} (h : ExtO d s k ns ρ ρ' ρ2 ρ2') {y : Name} (hy : y ∉ ns) :
    lookup y ρ2 = lookup y ρ ∧ lookup y ρ2' = lookup y ρ' := by
  cases d
  · exact ⟨Ext.old' h y hy, Ext.old h y hy⟩
  · exact ⟨Ext.old h y hy, Ext.old' h y hy⟩
theorem ExtO.new {k : Nat} {ns : List Name} {ρ ρ' ρ2 ρ2' : Env} (h : ExtO d s k ns ρ ρ' ρ2 ρ2') {y : Name} (hy : y ∈ ns) :
    LookO d s k ρ2 ρ2' y := by
  cases d
  · exact Ext.new h y hy
  · exact Ext.new h y hy

theorem relO_name {k : Nat} {ρ ρ' : Env} {x : Name} (h : LookO d s k ρ ρ' x) : RelO d s k ρ (.name x) ρ' (.name x) := by
  cases d <;> exact rel_name h

theorem relO_pi {k : Nat} {ρ ρ' : Env} {v : TyVar} {e e' : Expr} (h : RelO d s k ρ e ρ' e') : RelO d s k ρ e ρ' (.pi v e') := by
  cases d
  · exact rel_pi_left h
  · exact rel_pi_right h
theorem relO_pis {k : Nat} {ρ ρ' : Env} {e e' : Expr} (h : RelO d s k ρ e ρ' e') : ∀ (vs : List TyVar), RelO d s k ρ e ρ' (pis vs e')
  | [] => h
  | _ :: vs => relO_pi (relO_pis h vs)

theorem relO_rebuild {k : Nat} {ρ ρ' : Env} {e : Expr} {cs : List Expr}
    (hn : ∀ x, e = .name x → RelO d s k ρ (.name x) ρ' (.name x))
    (hc : All2 (fun c c' => ∀ j, j ≤ k → ∀ ρ2 ρ2', ExtO d s j c.1 ρ ρ' ρ2 ρ2' → RelO d s j ρ2 c.2 ρ2' c') (children e) cs)
    (hrec : ∀ n t v b v' b', e = .letrec n t v b → cs = [v', b'] → ∃ ps a a', recLam v = some (ps, a) ∧ recLam v' = some (ps, a') ∧
      ∀ j, j ≤ k → ∀ ρ2 ρ2', ExtO d s j (ps ++ [n]) ρ ρ' ρ2 ρ2' → RelO d s j ρ2 a ρ2' a') :
    RelO d s k ρ e ρ' (rebuild e cs) := by
  cases d
  · refine rel2_rebuild (d := false) (ρ := ρ') (ρ' := ρ) hn (hc.imp fun c c' h j hj ρ2 ρ2' hE => h j hj ρ2' ρ2 hE) fun n t v b v' b' h1 h2 => ?_
    obtain ⟨ps, a, a', r1, r2, r3⟩ := hrec n t v b v' b' h1 h2
    exact ⟨ps, a, a', r1, r2, fun j hj ρ2 ρ2' hE => r3 j hj ρ2' ρ2 hE⟩
  · exact rel2_rebuild (d := true) hn hc hrec

theorem relO_let {k : Nat} {ρ ρ' : Env} {x x' : Name} {v v' e e' : Expr} (hv : RelO d s k ρ v ρ' v')
    (he : ∀ j, j ≤ k → ∀ w w', VO d s j w w' → RelO d s j ((x, w) :: ρ) e ((x', w') :: ρ') e') :
    RelO d s k ρ (.let_ x v e) ρ' (.let_ x' v' e') := by
  cases d
  · exact rel_let (s := s) hv fun j hj w w' hw => he j hj w' w hw
  · exact rel_let (s := s) hv he

theorem relO_lam {k : Nat} {ρ ρ' : Env} {ps ps' : List (Name × Ty)} {b b' : Expr} (hl : ps.length = ps'.length)
    (h : ∀ j, j < k → ∀ vs vs', VsO d s j vs vs' → ps.length = vs.length →
      RelO d s j (bindAll ρ (ps.map (·.1)) vs) b (bindAll ρ' (ps'.map (·.1)) vs') b') :
    RelO d s k ρ (.lam ps b) ρ' (.lam ps' b') := by
  cases d
  · exact rel_lam hl.symm fun j hj vs vs' hv hl2 => h j hj vs' vs hv (by have := VRs.length hv; omega)
  · exact rel_lam hl h

/-! ### Curried and collapsed functions -/

/-- `f` is a function of `n` arguments that evaluates `e` in the environment `E`. -/
structure Beh (f : Val) (n : Nat) (E : List Val → Env) (e : Expr) : Prop where
  fn : f.isFn = true
  body : ∀ ev args, bodyC ev f args = if n = args.length then ev (E args) e else free .panic
  app : ∀ ev args, applyFn ev f args = if n = args.length then ev (E args) e else .panic

theorem beh_clo (ρ : Env) (ps : List Name) (b : Expr) : Beh (.clo ρ ps b) ps.length (bindAll ρ ps) b :=
  ⟨rfl, fun _ _ => rfl, fun _ _ => rfl⟩
theorem beh_rclo (ρ : Env) (x : Name) (ps : List Name) (b : Expr) :
    Beh (.rclo ρ x ps b) ps.length (fun vs => (x, .rclo ρ x ps b) :: bindAll ρ ps vs) b :=
  ⟨rfl, fun _ _ => rfl, fun _ _ => rfl⟩

/-- After further arguments for the groups `gs`, the bodies are related. -/
def Ready (d : Bool) (s : Mode) (b : Expr) (E' : List Val → Env) (b' : Expr) :
    List (List (Name × Ty)) → Nat → Env → List Val → Prop
  | [], k, ρ, acc => RelO d s k ρ b (E' acc) b'
  | g :: gs, k, ρ, acc => ∀ j, j < k → ∀ vs vs', VsO d s j vs vs' → g.length = vs.length →
      Ready d s b E' b' gs j (bindAll ρ (g.map (·.1)) vs) (acc ++ vs')

/-- `f` takes its arguments in the groups `g :: gs`, `f'` takes them all at once. -/
def UV (d : Bool) (s : Mode) (k : Nat) (lens : List Nat) (f f' : Val) : Prop :=
  ∃ n gs b E b' E', lens = n :: gs.map List.length ∧ Beh f n E (lams gs b) ∧ Beh f' lens.sum E' b' ∧
    ∀ j, j < k → ∀ vs vs', VsO d s j vs vs' → n = vs.length → Ready d s b E' b' gs j (E vs) vs'

theorem UV.mono {k j : Nat} {lens : List Nat} {f f' : Val} (h : UV d s k lens f f') (hj : j ≤ k) : UV d s j lens f f' := by
  obtain ⟨n, gs, b, E, b', E', h1, h2, h3, h4⟩ := h
  exact ⟨n, gs, b, E, b', E', h1, h2, h3, fun i hi => h4 i (by omega)⟩

/-- An adapted use of `x`. -/
def useE (x : Name) (is : List TyVar) (args : List Name) (gs : List (List (Name × Ty))) : Expr :=
  lams gs (.call (piApps is (.name x)) (args.map .name))

theorem evalList_names {n : Nat} {ρ : Env} : ∀ {ns : List Name} {vs : List Val}, All2 (fun x v => lookup x ρ = .ok v) ns vs →
    evalList (eval (n + 1) ρ) (ns.map .name) = .ok vs
  | [], [], _ => rfl
  | x :: ns, v :: vs, ⟨h1, h2⟩ => by
    rw [List.map_cons, evalList, evalList_names h2, show eval (n + 1) ρ (.name x) = .ok v from h1]; rfl

theorem evalListC_names {n : Nat} {ρ : Env} : ∀ {ns : List Name} {vs : List Val}, All2 (fun x v => lookup x ρ = .ok v) ns vs →
    evalListC (evalC (n + 1) ρ) (ns.map .name) = free (.ok vs)
  | [], [], _ => rfl
  | x :: ns, v :: vs, ⟨h1, h2⟩ => by
    rw [List.map_cons, evalListC, evalListC_names h2, show evalC (n + 1) ρ (.name x) = free (.ok v) by simp only [evalC]; rw [show lookup x ρ = .ok v from h1]]; rfl

/-- Calling the collapsed function with names. -/
theorem relO_call {k : Nat} {ρ ρ' : Env} {b b' : Expr} {x : Name} {is : List TyVar} {args : List Name} {acc : List Val} {f' : Val} {n : Nat} {E' : List Val → Env}
    (hx : lookup x ρ' = .ok f') (hf : Beh f' n E' b') (hn : n = acc.length) (ha : All2 (fun x v => lookup x ρ' = .ok v) args acc)
    (h : RelO d s k ρ b (E' acc) b') : RelO d s k ρ b ρ' (.call (piApps is (.name x)) (args.map .name)) := by
  have hv : IsV ρ' (piApps is (.name x)) f' := (isV_name hx).piApps is
  cases d with
  | true =>
    refine RelD.congr_right h fun m => ?_
    obtain ⟨m1, hm1⟩ := hv.eval
    by_cases ht : eval m (E' acc) b' = .timeout
    · exact ⟨0, .inl ht⟩
    refine ⟨max m1 (m + 1) + 1, .inr ?_⟩
    have h1 : eval (max m1 (m + 1)) ρ' (piApps is (.name x)) = .ok f' := by rw [← hm1]; exact (eval_le (Nat.le_max_left _ _) ρ' _).eq (by rw [hm1]; simp)
    obtain ⟨m2, hm2⟩ : ∃ m2, max m1 (m + 1) = m2 + 1 := ⟨max m1 (m + 1) - 1, by omega⟩
    have h2 := evalList_names (n := m2) ha
    rw [← hm2] at h2
    simp only [eval, h1, Res.bind_ok, hf.fn, if_true, h2, hf.app, hn]
    exact (eval_le (by omega) _ _).eq ht
  | false =>
    intro j hj m
    cases m with
    | zero => exact CE.timeout
    | succ m =>
      rcases hv.all m with hm | hm
      · simp only [evalC, hm]; exact CE.timeout
      · cases m with
        | zero =>
          simp only [evalC] at hm ⊢
          exact CE.timeout
        | succ m =>
          have : evalC (m + 1 + 1) ρ' (.call (piApps is (.name x)) (args.map .name)) = tick (evalC (m + 1) (E' acc) b') := by
            rw [show evalC (m + 1 + 1) ρ' (.call (piApps is (.name x)) (args.map .name)) =
              CRes.bind (evalC (m + 1) ρ' (piApps is (.name x))) fun fv => if fv.isFn then
                CRes.bind (evalListC (evalC (m + 1) ρ') (args.map .name)) fun vs => tick (bodyC (evalC (m + 1)) fv vs) else free .panic from rfl]
            rw [hm, evalListC_names ha]
            simp [CRes.bind, free, hf.fn, hf.body, hn]
          rw [this]
          exact CE.tick fun i hi => h i (by omega) (m + 1)

theorem all2_bindAll {x : Name} {v : Val} {ns : List Name} {ρ : Env} : ∀ {args : List Name} {acc : List Val}, All2 (fun x v => lookup x ρ = .ok v) args acc →
    (∀ y ∈ args, y ∉ ns) → ∀ {vs : List Val}, All2 (fun x v => lookup x (bindAll ρ ns vs) = .ok v) args acc
  | [], [], _, _, _ => trivial
  | y :: args, v :: acc, ⟨h1, h2⟩, h3, vs =>
    ⟨by show lookup y _ = _; rw [lookup_bindAll_notMem (h3 y (by simp))]; exact h1, all2_bindAll (x := x) (v := v) h2 fun z hz => h3 z (by simp [hz])⟩

theorem all2_bindAll_self : ∀ {ns : List Name} {vs : List Val} {ρ : Env}, ns.Nodup → ns.length = vs.length →
    All2 (fun x v => lookup x (bindAll ρ ns vs) = .ok v) ns vs
  | [], [], _, _, _ => trivial
  | n :: ns, v :: vs, ρ, h, hl => by
    rw [List.nodup_cons] at h
    refine ⟨?_, all2_bindAll_self h.2 (by simpa using hl)⟩
    show lookup n _ = _
    rw [bindAll, lookup_bindAll_notMem h.1]; simp [lookup]

theorem All2.append {α β : Type} {P : α → β → Prop} : ∀ {as as2 : List α} {bs bs2 : List β}, All2 P as bs → All2 P as2 bs2 → All2 P (as ++ as2) (bs ++ bs2)
  | [], _, [], _, _, h => h
  | _ :: _, _, _ :: _, _, ⟨h1, h2⟩, h => ⟨h1, h2.append h⟩

theorem ready_use {b b' : Expr} {f' : Val} {n : Nat} {E' : List Val → Env} (hf : Beh f' n E' b') {x : Name} {is : List TyVar} :
    ∀ {gs us : List (List (Name × Ty))} {k : Nat} {ρ ρ' : Env} {acc : List Val} {args : List Name},
    us.map List.length = gs.map List.length → n = acc.length + (gs.map List.length).sum →
    lookup x ρ' = .ok f' → x ∉ us.flatten.map (·.1) → (args ++ us.flatten.map (·.1)).Nodup →
    All2 (fun x v => lookup x ρ' = .ok v) args acc → Ready d s b E' b' gs k ρ acc →
    RelO d s k ρ (lams gs b) ρ' (useE x is (args ++ us.flatten.map (·.1)) us)
  | [], [], k, ρ, ρ', acc, args, _, hn, hx, _, _, ha, h => by
    simp only [List.flatten_nil, List.map_nil, List.append_nil, lams, useE]
    exact relO_call hx hf (by simpa using hn) ha h
  | g :: gs, u :: us, k, ρ, ρ', acc, args, hl, hn, hx, hxn, hnd, ha, h => by
    simp only [List.map_cons, List.cons.injEq] at hl
    simp only [List.flatten_cons, List.map_append, List.mem_append, not_or] at hxn
    simp only [List.flatten_cons, List.map_append] at hnd ⊢
    refine relO_lam hl.1.symm fun j hj vs vs' hv hlv => ?_
    have hlv' := hv.length
    have := ready_use (us := us) (ρ' := bindAll ρ' (u.map (·.1)) vs') (acc := acc ++ vs') (args := args ++ u.map (·.1)) (is := is) hf hl.2 (by
      simp only [List.map_cons, List.sum_cons, List.length_append] at hn ⊢; omega)
      (by rw [lookup_bindAll_notMem hxn.1]; exact hx) hxn.2 (by rw [List.append_assoc]; exact hnd)
      ((all2_bindAll (x := x) (v := f') ha fun y hy hy2 => by
        rw [List.nodup_append] at hnd
        exact hnd.2.2 y hy y (List.mem_append_left _ hy2) rfl).append (all2_bindAll_self (by
          rw [List.nodup_append] at hnd
          exact (List.nodup_append.1 hnd.2.1).1) (by simp; omega)))
      (h j hj vs vs' hv hlv)
    rw [List.append_assoc] at this
    exact this

/-- The collapsed function under an adapted use behaves like the original one. -/
theorem uv_use {k : Nat} {lens : List Nat} {f f' : Val} (h : UV d s k lens f f') {x : Name} {is is' : List TyVar} {us : List (List (Name × Ty))} {ρ ρ' : Env}
    (hx : lookup x ρ = .ok f) (hx' : lookup x ρ' = .ok f') (hl : us.map List.length = lens) (hxn : x ∉ us.flatten.map (·.1))
    (hnd : (us.flatten.map (·.1)).Nodup) : RelO d s k ρ (.name x) ρ' (pis is' (useE x is (us.flatten.map (·.1)) us)) := by
  obtain ⟨n, gs, b, E, b', E', h1, h2, h3, h4⟩ := h
  refine relO_pis ?_ is'
  cases us with
  | nil => rw [← hl] at h1; simp at h1
  | cons u us =>
    rw [h1] at hl h3
    simp only [List.map_cons, List.cons.injEq] at hl
    simp only [List.flatten_cons, List.map_append, List.mem_append, not_or] at hxn
    simp only [List.flatten_cons, List.map_append] at hnd ⊢
    have key : ∀ j, j < k → ∀ vs vs', VsO d s j vs vs' → n = vs.length →
        RelO d s j (E vs) (lams gs b) (bindAll ρ' (u.map (·.1)) vs') (useE x is (u.map (·.1) ++ us.flatten.map (·.1)) us) := by
      intro j hj vs vs' hv hlv
      have hlv' := hv.length
      refine ready_use (acc := vs') h3 hl.2 (by simp [List.sum_cons]; omega) (by rw [lookup_bindAll_notMem hxn.1]; exact hx') hxn.2 hnd ?_ (h4 j hj vs vs' hv hlv)
      exact all2_bindAll_self (List.nodup_append.1 hnd).1 (by simp; omega)
    have hu : IsV ρ' (useE x is (u.map (·.1) ++ us.flatten.map (·.1)) (u :: us))
      (.clo ρ' (u.map (·.1)) (useE x is (u.map (·.1) ++ us.flatten.map (·.1)) us)) := isV_lam
    have hb := beh_clo ρ' (u.map (·.1)) (useE x is (u.map (·.1) ++ us.flatten.map (·.1)) us)
    have hlu : (u.map (·.1)).length = n := by simp [hl.1]
    rw [hlu] at hb
    cases d with
    | true =>
      refine isV_rel (isV_name hx) hu (.fn h2.fn rfl ?_)
      rw [FR_iff]
      intro j hj vs vs' hv m
      rw [h2.body, show (fun m => applyFn (eval m) (.clo ρ' (u.map (·.1)) (useE x is (u.map (·.1) ++ us.flatten.map (·.1)) us)) vs') = fun m =>
        if n = vs'.length then eval m (bindAll ρ' (u.map (·.1)) vs') (useE x is (u.map (·.1) ++ us.flatten.map (·.1)) us) else .panic from funext fun m => hb.app _ _]
      rw [← VRs.length hv]
      by_cases hc : n = vs.length
      · simp only [hc, if_true]
        exact key j hj vs vs' hv hc j (Nat.le_refl _) m
      · simp only [hc, if_false]; exact CE.panic
    | false =>
      refine isV_rel hu (isV_name hx) (.fn rfl h2.fn ?_)
      rw [FR_iff]
      intro j hj vs' vs hv m
      rw [hb.body, show (fun m => applyFn (eval m) f vs) = fun m =>
        if n = vs.length then eval m (E vs) (lams gs b) else .panic from funext fun m => h2.app _ _]
      rw [← VRs.length hv]
      by_cases hc : n = vs'.length
      · simp only [hc, if_true]
        have := key j hj vs vs' hv (by have := VRs.length hv; omega) j (Nat.le_refl _) m
        exact this
      · simp only [hc, if_false]; exact CE.panic

end Tic.Core
