import Verif.Cost
/-
A step-indexed logical relation between run-time values and between evaluations,
used to prove the optimizer passes correct.  Only a proof device: the theorems
about the passes are stated with `evalProgram` and `Val.obs`.
-/
namespace Tic.Core

/-- Which abnormal outcomes have to be preserved (values always are). -/
structure Mode where
  trap : Bool
  panic : Bool

variable {α β γ δ : Type}

/-- The right outcome matches the left one. -/
def OutRel (s : Mode) (P : α → β → Prop) : Res α → Res β → Prop
  | .ok a, r => ∃ b, r = .ok b ∧ P a b
  | .trap m, r => s.trap = true → r = .trap m
  | .panic, r => s.panic = true → r = .panic
  | .timeout, _ => True

mutual
/-- Values are related when they look the same and contained functions are related by `F`. -/
inductive VR (F : Val → Val → Prop) : Val → Val → Prop
  | int (x : UInt64) : VR F (.int x) (.int x)
  | bool (b : Bool) : VR F (.bool b) (.bool b)
  | str (s : List UInt8) : VR F (.str s) (.str s)
  | comp (t : Name) {fs fs' : List Val} : VRs F fs fs' → VR F (.comp t fs) (.comp t fs')
  | fn {f f' : Val} : f.isFn = true → f'.isFn = true → F f f' → VR F f f'
/-- ... pointwise. -/
inductive VRs (F : Val → Val → Prop) : List Val → List Val → Prop
  | nil : VRs F [] []
  | cons {v v' : Val} {vs vs' : List Val} : VR F v v' → VRs F vs vs' → VRs F (v :: vs) (v' :: vs')
end

mutual
theorem VR.imp {F G : Val → Val → Prop} (h : ∀ f f', F f f' → G f f') : ∀ {v v'}, VR F v v' → VR G v v'
  | _, _, .int x => .int x
  | _, _, .bool x => .bool x
  | _, _, .str x => .str x
  | _, _, .comp t hs => .comp t (VRs.imp h hs)
  | _, _, .fn a b c => .fn a b (h _ _ c)
theorem VRs.imp {F G : Val → Val → Prop} (h : ∀ f f', F f f' → G f f') : ∀ {v v'}, VRs F v v' → VRs G v v'
  | _, _, .nil => .nil
  | _, _, .cons a b => .cons (VR.imp h a) (VRs.imp h b)
end

theorem VRs.length {F : Val → Val → Prop} : ∀ {v v'}, VRs F v v' → v.length = v'.length
  | _, _, .nil => rfl
  | _, _, .cons _ b => by simp [VRs.length b]

mutual
theorem VR.obs {F : Val → Val → Prop} : ∀ {v v'}, VR F v v' → v.obs = v'.obs
  | _, _, .int x => rfl
  | _, _, .bool x => rfl
  | _, _, .str x => rfl
  | _, _, .comp t hs => by simp only [Val.obs]; rw [VRs.obs hs]
  | v, v', .fn a b c => by
    cases v <;> simp [Val.isFn] at a <;> cases v' <;> simp [Val.isFn] at b <;> rfl
theorem VRs.obs {F : Val → Val → Prop} : ∀ {v v'}, VRs F v v' → obsList v = obsList v'
  | _, _, .nil => rfl
  | _, _, .cons a b => by simp only [obsList]; rw [VR.obs a, VRs.obs b]
end

theorem VR.agree {F : Val → Val → Prop} {v v' : Val} (h : VR F v v') :
    v.intoInt = v'.intoInt ∧ v.intoBool = v'.intoBool ∧ (∀ kk : Kind, kk.check v = kk.check v') ∧ v.isFn = v'.isFn := by
  cases h with
  | int x => exact ⟨rfl, rfl, fun _ => rfl, rfl⟩
  | bool x => exact ⟨rfl, rfl, fun _ => rfl, rfl⟩
  | str x => exact ⟨rfl, rfl, fun _ => rfl, rfl⟩
  | comp t h => exact ⟨rfl, rfl, fun kk => by cases kk <;> rfl, rfl⟩
  | fn a b c =>
    cases v <;> simp [Val.isFn] at a <;> cases v' <;> simp [Val.isFn] at b <;>
      exact ⟨rfl, rfl, fun kk => by cases kk <;> rfl, rfl⟩

/-- `f'` behaves like `f` for `k` applications. -/
def FR (s : Mode) (k : Nat) (f f' : Val) : Prop :=
  ∀ j, (_h : j < k) → ∀ args args', VRs (FR s j) args args' → ∀ n,
    (bodyC (evalC n) f args).1 ≤ j → (bodyC (evalC n) f args).2 ≠ .timeout →
    ∃ m, OutRel s (VR (FR s (j - (bodyC (evalC n) f args).1))) (bodyC (evalC n) f args).2 (applyFn (eval m) f' args')
termination_by k
decreasing_by all_goals omega

/-- Related values. -/
abbrev V (s : Mode) (k : Nat) : Val → Val → Prop := VR (FR s k)
/-- Related lists of values. -/
abbrev Vs (s : Mode) (k : Nat) : List Val → List Val → Prop := VRs (FR s k)

/-- Computation `l` is matched by `R`. -/
def CE (s : Mode) (P : Nat → α → β → Prop) (k : Nat) (l : CRes α) (R : Nat → Res β) : Prop :=
  l.1 ≤ k → l.2 ≠ .timeout → ∃ m, OutRel s (P (k - l.1)) l.2 (R m)

theorem FR_iff {s : Mode} {k : Nat} {f f' : Val} : FR s k f f' ↔
    ∀ j, j < k → ∀ args args', Vs s j args args' → ∀ n,
      CE s (V s) j (bodyC (evalC n) f args) (fun m => applyFn (eval m) f' args') := by
  rw [FR]; rfl

theorem FR.mono {s : Mode} {k j : Nat} (h : j ≤ k) {f f' : Val} (hf : FR s k f f') : FR s j f f' := by
  rw [FR_iff] at hf ⊢
  intro i hi
  exact hf i (by omega)

theorem V.mono {s : Mode} {k j : Nat} (h : j ≤ k) {v v' : Val} (hv : V s k v v') : V s j v v' :=
  VR.imp (fun _ _ => FR.mono h) hv
theorem Vs.mono {s : Mode} {k j : Nat} (h : j ≤ k) {v v' : List Val} (hv : Vs s k v v') : Vs s j v v' :=
  VRs.imp (fun _ _ => FR.mono h) hv

/-- More fuel only completes. -/
def Mono (R : Nat → Res α) : Prop := ∀ n m, n ≤ m → (R n).Le (R m)

theorem mono_eval (ρ : Env) (e : Expr) : Mono (fun m => eval m ρ e) := fun _ _ h => eval_le h ρ e
theorem mono_const (r : Res α) : Mono (fun _ => r) := fun _ _ _ => .refl _
theorem mono_list (ρ : Env) (es : List Expr) : Mono (fun m => evalList (eval m ρ) es) :=
  fun _ _ h => evalList_le (eval_le h ρ) es
theorem mono_apply (f : Val) (vs : List Val) : Mono (fun m => applyFn (eval m) f vs) :=
  fun _ _ h => applyFn_le (fun ρ e => eval_le h ρ e) f vs
theorem mono_branch (ρ : Env) (bs : List Branch) (c : Name) (fs : List Val) :
    Mono (fun m => runBranch (eval m) ρ bs c fs) := fun _ _ h => runBranch_le (fun ρ e => eval_le h ρ e) ρ bs c fs
theorem mono_bind {R : Nat → Res α} {S : α → Nat → Res β} (h : Mono R) (hs : ∀ a, Mono (S a)) :
    Mono (fun m => (R m).bind fun a => S a m) := fun _ _ hl => (h _ _ hl).bind fun a _ => hs a _ _ hl
theorem mono_ite {c : Prop} [Decidable c] {R S : Nat → Res α} (h : Mono R) (h' : Mono S) :
    Mono (fun m => if c then R m else S m) := by
  intro n m hl
  by_cases hc : c
  · simpa [hc] using h _ _ hl
  · simpa [hc] using h' _ _ hl
theorem mono_shift {R : Nat → Res α} (h : Mono R) : Mono (fun m => R (m + 1)) := fun _ _ hl => h _ _ (by omega)
theorem evalSig_le {ev ev' : Expr → Res Val} (h : ∀ e, (ev e).Le (ev' e)) (ks : List Kind) : ∀ (es : List Expr),
    (evalSig ev ks es).Le (evalSig ev' ks es) := by
  induction ks with
  | nil => intro es; exact .refl _
  | cons k ks ih =>
    intro es
    cases es with
    | nil => exact .refl _
    | cons e es =>
      refine (h e).bind fun v _ => ?_
      split
      · exact (ih es).bind fun vs _ => .refl _
      · exact .refl _
theorem mono_sig (ρ : Env) (ks : List Kind) (es : List Expr) : Mono (fun m => evalSig (eval m ρ) ks es) :=
  fun _ _ h => evalSig_le (eval_le h ρ) ks es

theorem OutRel.up {s : Mode} {P : α → β → Prop} {R : Nat → Res β} (hR : Mono R) {l : Res α} {m m' : Nat}
    (h : OutRel s P l (R m)) (hm : m ≤ m') : OutRel s P l (R m') := by
  have := hR m m' hm
  cases l with
  | ok a =>
    obtain ⟨b, hb, hp⟩ := h
    exact ⟨b, by rw [(this.eq (by rw [hb]; simp)), hb], hp⟩
  | trap msg => intro hs; rw [(this.eq (by rw [h hs]; simp)), h hs]
  | panic => intro hs; rw [(this.eq (by rw [h hs]; simp)), h hs]
  | timeout => trivial

theorem OutRel.imp {s : Mode} {P Q : α → β → Prop} {l : Res α} {r : Res β} (hpq : ∀ a b, P a b → Q a b)
    (h : OutRel s P l r) : OutRel s Q l r := by
  cases l with
  | ok a => obtain ⟨b, hb, hp⟩ := h; exact ⟨b, hb, hpq _ _ hp⟩
  | trap msg => exact h
  | panic => exact h
  | timeout => trivial

theorem CE.bind {s : Mode} {P : Nat → α → β → Prop} {Q : Nat → γ → δ → Prop} {k : Nat} {l : CRes α}
    {f : α → CRes γ} {R : Nat → Res β} {S : β → Nat → Res δ} (hR : Mono R) (hS : ∀ b, Mono (S b))
    (h1 : CE s P k l R) (h2 : ∀ j, j ≤ k → ∀ a b, P j a b → CE s Q j (f a) (S b)) :
    CE s Q k (CRes.bind l f) (fun m => (R m).bind fun b => S b m) := by
  obtain ⟨c, r⟩ := l
  intro hc ht
  cases r with
  | ok a =>
    simp only [CRes.bind] at hc ht ⊢
    obtain ⟨m1, b, hb, hp⟩ := h1 (show c ≤ k by omega) (by simp)
    obtain ⟨m2, ho⟩ := h2 (k - c) (by omega) a b hp (by omega) ht
    refine ⟨max m1 m2, ?_⟩
    have hb' : R (max m1 m2) = .ok b := by rw [← hb]; exact (hR m1 _ (by omega)).eq (by rw [hb]; simp)
    simp only [hb', Res.bind_ok]
    rw [show k - (c + (f a).1) = k - c - (f a).1 by omega]
    exact ho.up (hS b) (by omega)
  | trap msg =>
    obtain ⟨m1, ho⟩ := h1 hc (by simp)
    exact ⟨m1, fun hs => by have := ho hs; dsimp only; rw [this]; rfl⟩
  | panic =>
    obtain ⟨m1, ho⟩ := h1 hc (by simp)
    exact ⟨m1, fun hs => by have := ho hs; dsimp only; rw [this]; rfl⟩
  | timeout => exact absurd rfl ht

theorem CE.succ {s : Mode} {P : Nat → α → β → Prop} {k : Nat} {l : CRes α} {R : Nat → Res β}
    (h : CE s P k l (fun m => R (m + 1))) : CE s P k l R := fun a b =>
  let ⟨m, hm⟩ := h a b; ⟨m + 1, hm⟩

theorem CE.timeout {s : Mode} {P : Nat → α → β → Prop} {k : Nat} {R : Nat → Res β} :
    CE s P k (free .timeout) R := fun _ h => absurd rfl h

theorem CE.ok {s : Mode} {P : Nat → α → β → Prop} {k : Nat} {a : α} {b : β} (h : P k a b) :
    CE s P k (free (.ok a)) (fun _ => .ok b) := fun _ _ => ⟨0, b, rfl, h⟩

theorem CE.panic {s : Mode} {P : Nat → α → β → Prop} {k : Nat} : CE s P k (free .panic) (fun _ => .panic) :=
  fun _ _ => ⟨0, fun _ => rfl⟩
theorem CE.panicLe {s : Mode} {P : Nat → α → β → Prop} {k : Nat} (hs : s.panic = false) {R : Nat → Res β} :
    CE s P k (free .panic) R :=
  fun _ _ => ⟨0, fun h => by simp [hs] at h⟩
theorem CE.trapped {s : Mode} {P : Nat → α → β → Prop} {k : Nat} {m : String} :
    CE s P k (free (.trap m)) (fun _ => .trap m) :=
  fun _ _ => ⟨0, fun _ => rfl⟩

theorem CE.same {s : Mode} {k : Nat} {r r' : Res α} (h : r = r') :
    CE s (fun _ a b => a = b) k (free r) (fun _ => r') := by
  subst h
  intro _ ht
  refine ⟨0, ?_⟩
  cases r with
  | ok a => exact ⟨a, rfl, rfl⟩
  | trap m => exact fun _ => rfl
  | panic => exact fun _ => rfl
  | timeout => exact absurd rfl ht

theorem CE.tick {s : Mode} {P : Nat → α → β → Prop} {k : Nat} {l : CRes α} {R : Nat → Res β}
    (h : ∀ j, j < k → CE s P j l R) : CE s P k (tick l) R := by
  intro hc ht
  have hc' : l.1 + 1 ≤ k := hc
  obtain ⟨m, hm⟩ := h (k - 1) (by omega) (show l.1 ≤ k - 1 by omega) ht
  refine ⟨m, ?_⟩
  show OutRel s (P (k - (l.1 + 1))) l.2 (R m)
  rw [show k - (l.1 + 1) = k - 1 - l.1 by omega]
  exact hm

/-! ### Evaluations in concrete environments -/

/-- Evaluating `e'` in `ρ'` matches evaluating `e` in `ρ` for up to `k` steps. -/
def RelD (s : Mode) (k : Nat) (ρ : Env) (e : Expr) (ρ' : Env) (e' : Expr) : Prop :=
  ∀ j, j ≤ k → ∀ n, CE s (V s) j (evalC n ρ e) (fun m => eval m ρ' e')

theorem RelD.mono {s : Mode} {k j : Nat} (hj : j ≤ k) {ρ ρ' : Env} {e e' : Expr} (h : RelD s k ρ e ρ' e') :
    RelD s j ρ e ρ' e' := fun i hi n => h i (by omega) n

/-- Pointwise relation of lists. -/
def All2 (P : α → β → Prop) : List α → List β → Prop
  | [], [] => True
  | a :: as, b :: bs => P a b ∧ All2 P as bs
  | _, _ => False

theorem All2.imp {P Q : α → β → Prop} (h : ∀ a b, P a b → Q a b) : ∀ {as : List α} {bs : List β}, All2 P as bs → All2 Q as bs
  | [], [], _ => trivial
  | _ :: _, _ :: _, ⟨h1, h2⟩ => ⟨h _ _ h1, All2.imp h h2⟩

theorem All2.length {P : α → β → Prop} : ∀ {as : List α} {bs : List β}, All2 P as bs → as.length = bs.length
  | [], [], _ => rfl
  | _ :: _, _ :: _, ⟨_, h2⟩ => by simp [All2.length h2]

theorem All2.of_map {γ δ : Type} {P : α → β → Prop} {f : γ → α} {g : δ → β} : ∀ {as : List γ} {bs : List δ},
    All2 (fun a b => P (f a) (g b)) as bs → All2 P (as.map f) (bs.map g)
  | [], [], _ => trivial
  | _ :: _, _ :: _, ⟨h1, h2⟩ => ⟨h1, All2.of_map h2⟩

theorem All2.self {P : α → α → Prop} : ∀ {as : List α}, (∀ a ∈ as, P a a) → All2 P as as
  | [], _ => trivial
  | a :: _, h => ⟨h a (by simp), All2.self fun b hb => h b (by simp [hb])⟩

theorem All2.map_right {P : α → β → Prop} {f : α → β} : ∀ {as : List α}, (∀ a ∈ as, P a (f a)) → All2 P as (as.map f)
  | [], _ => trivial
  | a :: _, h => ⟨h a (by simp), All2.map_right fun b hb => h b (by simp [hb])⟩

variable {s : Mode} {k : Nat} {ρ ρ' : Env}

theorem relL {es es' : List Expr} (h : All2 (fun e e' => RelD s k ρ e ρ' e') es es') :
    ∀ j, j ≤ k → ∀ n, CE s (Vs s) j (evalListC (evalC n ρ) es) (fun m => evalList (eval m ρ') es') := by
  induction es generalizing es' with
  | nil =>
    cases es' with
    | nil => intro j hj n; exact CE.ok .nil
    | cons _ _ => exact h.elim
  | cons e es ih =>
    cases es' with
    | nil => exact h.elim
    | cons e' es' =>
      intro j hj n
      refine CE.bind (mono_eval _ _) (fun _ => mono_bind (mono_list _ _) fun _ => mono_const _) (h.1 j hj n) fun i hi v v' hv => ?_
      refine CE.bind (mono_list _ _) (fun _ => mono_const _) (ih h.2 i (by omega) n) fun i' hi' vs vs' hvs => ?_
      exact CE.ok (.cons (V.mono hi' hv) hvs)

theorem relSig {ks : List Kind} : ∀ {es es' : List Expr}, All2 (fun e e' => RelD s k ρ e ρ' e') es es' →
    ∀ j, j ≤ k → ∀ n, CE s (Vs s) j (evalSigC (evalC n ρ) ks es) (fun m => evalSig (eval m ρ') ks es') := by
  induction ks with
  | nil =>
    intro es es' h j hj n
    cases es' <;> exact CE.ok .nil
  | cons kk ks ih =>
    intro es es' h j hj n
    cases es with
    | nil =>
      cases es' with
      | nil => exact CE.panic
      | cons _ _ => exact h.elim
    | cons e es =>
      cases es' with
      | nil => exact h.elim
      | cons e' es' =>
        refine CE.bind (S := fun v m => if kk.check v = true then (evalSig (eval m ρ') ks es').bind fun vs => .ok (v :: vs) else .panic)
          (mono_eval _ _) (fun b => mono_ite (mono_bind (mono_sig _ _ _) fun _ => mono_const _) (mono_const _))
          (h.1 j hj n) fun i hi v v' hv => ?_
        rw [hv.agree.2.2.1 kk]
        by_cases hc : kk.check v' = true
        · simp only [hc, if_true]
          refine CE.bind (mono_sig _ _ _) (fun _ => mono_const _) (ih h.2 i (by omega) n) fun i' hi' vs vs' hvs => ?_
          exact CE.ok (.cons (V.mono hi' hv) hvs)
        · simp only [hc]
          exact CE.panic

/-- Right-hand sides with the same evaluations can be exchanged. -/
theorem RelD.congr_right {e e' e'' : Expr} {ρ'' : Env} (h : RelD s k ρ e ρ' e')
    (he : ∀ m, ∃ m', eval m ρ' e' = .timeout ∨ eval m' ρ'' e'' = eval m ρ' e') : RelD s k ρ e ρ'' e'' := by
  intro j hj n hc ht
  obtain ⟨m, hm⟩ := h j hj n hc ht
  obtain ⟨m', h'⟩ := he m
  rcases h' with h' | h'
  · refine ⟨0, ?_⟩
    dsimp only at hm
    rw [h'] at hm
    cases hl : (evalC n ρ e).2 with
    | ok a => rw [hl] at hm; obtain ⟨b, hb, -⟩ := hm; cases hb
    | trap msg => rw [hl] at hm; intro hs; exact absurd (hm hs) (by simp)
    | panic => rw [hl] at hm; intro hs; exact absurd (hm hs) (by simp)
    | timeout => exact absurd hl ht
  · exact ⟨m', by dsimp only at hm ⊢; rw [h']; exact hm⟩

theorem rel_bool (b : Bool) : RelD s k ρ (.bool b) ρ' (.bool b) := by
  intro j _ n; cases n with
  | zero => exact CE.timeout
  | succ n => exact CE.succ (CE.ok (.bool b))
theorem rel_int (b : UInt64) : RelD s k ρ (.int b) ρ' (.int b) := by
  intro j _ n; cases n with
  | zero => exact CE.timeout
  | succ n => exact CE.succ (CE.ok (.int b))
theorem rel_str (b : List UInt8) : RelD s k ρ (.str b) ρ' (.str b) := by
  intro j _ n; cases n with
  | zero => exact CE.timeout
  | succ n => exact CE.succ (CE.ok (.str b))
theorem rel_trap (m : String) (t t' : Ty) : RelD s k ρ (.trap m t) ρ' (.trap m t') := by
  intro j _ n; cases n with
  | zero => exact CE.timeout
  | succ n => exact CE.succ CE.trapped

/-- A variable against an arbitrary expression. -/
theorem rel_var {x : Name} {e' : Expr} (h : ∀ j, j ≤ k → CE s (V s) j (free (lookup x ρ)) (fun m => eval m ρ' e')) :
    RelD s k ρ (.name x) ρ' e' := by
  intro j hj n; cases n with
  | zero => exact CE.timeout
  | succ n => exact h j hj

theorem rel_pi {v v' : TyVar} {e e' : Expr} (h : RelD s k ρ e ρ' e') : RelD s k ρ (.pi v e) ρ' (.pi v' e') := by
  intro j hj n; cases n with
  | zero => exact CE.timeout
  | succ n => exact CE.succ (h j hj n)
theorem rel_piApp {t t' : Ty} {e e' : Expr} (h : RelD s k ρ e ρ' e') : RelD s k ρ (.piApp e t) ρ' (.piApp e' t') := by
  intro j hj n; cases n with
  | zero => exact CE.timeout
  | succ n => exact CE.succ (h j hj n)
theorem rel_pi_left {v : TyVar} {e e' : Expr} (h : RelD s k ρ e ρ' e') : RelD s k ρ (.pi v e) ρ' e' := by
  intro j hj n; cases n with
  | zero => exact CE.timeout
  | succ n => exact h j hj n
theorem rel_piApp_left {t : Ty} {e e' : Expr} (h : RelD s k ρ e ρ' e') : RelD s k ρ (.piApp e t) ρ' e' := by
  intro j hj n; cases n with
  | zero => exact CE.timeout
  | succ n => exact h j hj n
theorem rel_pi_right {v : TyVar} {e e' : Expr} (h : RelD s k ρ e ρ' e') : RelD s k ρ e ρ' (.pi v e') := by
  intro j hj n
  exact CE.succ (h j hj n)
theorem rel_piApp_right {t : Ty} {e e' : Expr} (h : RelD s k ρ e ρ' e') : RelD s k ρ e ρ' (.piApp e' t) := by
  intro j hj n
  exact CE.succ (h j hj n)

theorem rel_op {a a' b b' : Expr} {o : Op} (ha : RelD s k ρ a ρ' a') (hb : RelD s k ρ b ρ' b') :
    RelD s k ρ (.op a o b) ρ' (.op a' o b') := by
  intro j hj n; cases n with
  | zero => exact CE.timeout
  | succ n =>
    refine CE.succ ?_
    refine CE.bind (S := fun v m => v.intoInt.bind fun a => (eval m ρ' b').bind fun v => v.intoInt.bind fun b => .ok (evalOp o a b))
      (mono_eval _ _) (fun v => ?_) (ha j hj n) fun i hi v v' hv => ?_
    · exact mono_bind (mono_const _) fun _ => mono_bind (mono_eval _ _) fun _ => mono_const _
    refine CE.bind (P := fun _ a b => a = b) (R := fun _ => v'.intoInt) (S := fun a m => (eval m ρ' b').bind fun v => v.intoInt.bind fun b => .ok (evalOp o a b))
      (mono_const _) (fun a => mono_bind (mono_eval _ _) fun _ => mono_const _) ?_ fun i' hi' x x' hx => ?_
    · exact CE.same hv.agree.1
    subst hx
    refine CE.bind (S := fun v _ => v.intoInt.bind fun b => .ok (evalOp o x b))
      (mono_eval _ _) (fun v => mono_const _) (hb i' (by omega) n) fun i2 hi2 w w' hw => ?_
    refine CE.bind (P := fun _ a b => a = b) (R := fun _ => w'.intoInt) (S := fun b _ => .ok (evalOp o x b))
      (mono_const _) (fun a => mono_const _) ?_ fun i3 hi3 y y' hy => ?_
    · exact CE.same hw.agree.1
    subst hy
    refine CE.ok ?_
    cases o <;> constructor

theorem Vs_intrFn {s : Mode} {k : Nat} {i : Intrinsic} {vs vs' : List Val} (h : Vs s k vs vs') :
    V s k (intrFn i vs) (intrFn i vs') := by
  have hfn : ∀ v : Val, v.isFn = true → v.atom = .other := by intro v; cases v <;> simp [Val.isFn, Val.atom]
  have hmap : ∀ {vs vs'}, Vs s k vs vs' → vs.map Val.atom = vs'.map Val.atom := by
    intro vs
    induction vs with
    | nil => intro vs' h; cases h; rfl
    | cons v vs ih =>
      intro vs' h
      cases h with
      | cons h1 h2 =>
        rw [List.map_cons, List.map_cons, ih h2]
        congr 1
        cases h1 with
        | fn a b c => rw [hfn _ a, hfn _ b]
        | _ => rfl
  have htot : ∀ vs, V s k (intrFn i vs) (intrFn i vs) := by
    intro vs
    unfold intrFn intrAtoms
    split <;> constructor
  have heq : intrFn i vs = intrFn i vs' := by unfold intrFn; rw [hmap h]
  rw [← heq]
  exact htot vs

theorem rel_intr {i : Intrinsic} {es es' : List Expr} (h : All2 (fun e e' => RelD s k ρ e ρ' e') es es') :
    RelD s k ρ (.intr i es) ρ' (.intr i es') := by
  intro j hj n; cases n with
  | zero => exact CE.timeout
  | succ n =>
    refine CE.succ ?_
    simp only [eval_intr, evalIntr_eq]
    refine CE.bind (mono_sig _ _ _) (fun _ => mono_const _) (relSig h j hj n) fun i' hi' vs vs' hvs => ?_
    exact CE.ok (Vs_intrFn hvs)

theorem rel_con {c : Name} {tys tys' : List Ty} {es es' : List Expr} (h : All2 (fun e e' => RelD s k ρ e ρ' e') es es') :
    RelD s k ρ (.con c tys es) ρ' (.con c tys' es') := by
  intro j hj n; cases n with
  | zero => exact CE.timeout
  | succ n =>
    refine CE.succ ?_
    refine CE.bind (mono_list _ _) (fun _ => mono_const _) (relL h j hj n) fun i' hi' vs vs' hvs => ?_
    rw [hvs.length]
    split
    · exact CE.ok (.comp c hvs)
    · exact CE.panic

theorem rel_let {x x' : Name} {v v' e e' : Expr} (hv : RelD s k ρ v ρ' v')
    (he : ∀ j, j ≤ k → ∀ w w', V s j w w' → RelD s j ((x, w) :: ρ) e ((x', w') :: ρ') e') :
    RelD s k ρ (.let_ x v e) ρ' (.let_ x' v' e') := by
  intro j hj n; cases n with
  | zero => exact CE.timeout
  | succ n =>
    refine CE.succ ?_
    refine CE.bind (S := fun v m => eval m ((x', v) :: ρ') e') (mono_eval _ _) (fun _ => mono_eval _ _) (hv j hj n) fun i hi w w' hw => ?_
    exact he i (by omega) w w' hw i (Nat.le_refl _) n

theorem rel_ite {c c' t t' e e' : Expr} (hc : RelD s k ρ c ρ' c') (ht : RelD s k ρ t ρ' t') (he : RelD s k ρ e ρ' e') :
    RelD s k ρ (.ite c t e) ρ' (.ite c' t' e') := by
  intro j hj n; cases n with
  | zero => exact CE.timeout
  | succ n =>
    refine CE.succ ?_
    refine CE.bind (S := fun v m => v.intoBool.bind fun b => if b then eval m ρ' t' else eval m ρ' e')
      (mono_eval _ _) (fun v => mono_bind (mono_const _) fun _ => mono_ite (mono_eval _ _) (mono_eval _ _)) (hc j hj n) fun i hi v v' hv => ?_
    refine CE.bind (P := fun _ a b => a = b) (R := fun _ => v'.intoBool) (S := fun b m => if b then eval m ρ' t' else eval m ρ' e')
      (mono_const _) (fun a => mono_ite (mono_eval _ _) (mono_eval _ _)) ?_ fun i' hi' x x' hx => ?_
    · exact CE.same hv.agree.2.1
    subst hx
    cases x
    · exact he i' (by omega) n
    · exact ht i' (by omega) n

/-- Related function values applied to related arguments. -/
theorem rel_call {f f' : Expr} {es es' : List Expr} (hf : RelD s k ρ f ρ' f')
    (h : All2 (fun e e' => RelD s k ρ e ρ' e') es es') : RelD s k ρ (.call f es) ρ' (.call f' es') := by
  intro j hj n; cases n with
  | zero => exact CE.timeout
  | succ n =>
    refine CE.succ ?_
    refine CE.bind (S := fun fv m => if fv.isFn then (evalList (eval m ρ') es').bind fun vs => applyFn (eval m) fv vs else .panic)
      (mono_eval _ _) (fun v => mono_ite (mono_bind (mono_list _ _) fun _ => mono_apply _ _) (mono_const _)) (hf j hj n) fun i hi v v' hv => ?_
    cases hv with
    | fn a b c =>
      simp only [a, b, if_true]
      refine CE.bind (S := fun vs m => applyFn (eval m) v' vs) (mono_list _ _) (fun _ => mono_apply _ _) (relL h i (by omega) n) fun i' hi' vs vs' hvs => ?_
      refine CE.tick fun i2 hi2 => ?_
      exact (FR_iff.1 c) i2 (by omega) vs vs' (Vs.mono (by omega) hvs) n
    | _ => exact CE.panic

/-- Related branches. -/
def RelBr (s : Mode) (k : Nat) (ρ : Env) (bs : List Branch) (ρ' : Env) (bs' : List Branch) : Prop :=
  ∀ j, j ≤ k → ∀ t fs fs', Vs s j fs fs' → ∀ n,
    CE s (V s) j (runBranchC (evalC n) ρ bs t fs) (fun m => runBranch (eval m) ρ' bs' t fs')

theorem rel_mtch {e e' : Expr} {bs bs' : List Branch} (he : RelD s k ρ e ρ' e') (hb : RelBr s k ρ bs ρ' bs') :
    RelD s k ρ (.mtch e bs) ρ' (.mtch e' bs') := by
  intro j hj n; cases n with
  | zero => exact CE.timeout
  | succ n =>
    refine CE.succ ?_
    refine CE.bind (S := fun v m => v.intoComp.bind fun cf => runBranch (eval m) ρ' bs' cf.1 cf.2)
      (mono_eval _ _) (fun v => mono_bind (mono_const _) fun _ => mono_branch _ _ _ _) (he j hj n) fun i hi v v' hv => ?_
    refine CE.bind (P := fun k a b => a.1 = b.1 ∧ Vs s k a.2 b.2) (R := fun _ => v'.intoComp) (S := fun cf m => runBranch (eval m) ρ' bs' cf.1 cf.2)
      (mono_const _) (fun a => mono_branch _ _ _ _) ?_ fun i' hi' x x' hx => ?_
    · cases hv with
      | comp t h => exact CE.ok ⟨rfl, h⟩
      | fn a b c => cases v <;> simp [Val.isFn] at a <;> cases v' <;> simp [Val.isFn] at b <;> exact CE.panic
      | _ => exact CE.panic
    obtain ⟨h1, h2⟩ := hx
    rw [h1]
    exact hb i' (by omega) x'.1 x.2 x'.2 h2 n

/-- Branches related one by one. -/
theorem relBr_all2 {bs bs' : List Branch}
    (h : All2 (fun b b' => b.ctor = b'.ctor ∧ b.binds.length = b'.binds.length ∧
      ∀ j, j ≤ k → ∀ fs fs', Vs s j fs fs' → b.binds.length = fs.length →
        RelD s j (bindAll ρ b.binds fs) b.body (bindAll ρ' b'.binds fs') b'.body) bs bs') : RelBr s k ρ bs ρ' bs' := by
  intro j hj t fs fs' hfs n
  induction bs generalizing bs' with
  | nil =>
    cases bs' with
    | nil => exact CE.panic
    | cons _ _ => exact h.elim
  | cons b bs ih =>
    cases bs' with
    | nil => exact h.elim
    | cons b' bs' =>
      obtain ⟨⟨h1, h2, h3⟩, h4⟩ := h
      have := ih h4
      unfold runBranchC runBranch at this ⊢
      simp only [findBranch]
      rw [← h1]
      by_cases hc : b.ctor = t
      · simp only [hc, if_true]
        rw [← h2, ← hfs.length]
        by_cases hl : b.binds.length = fs.length
        · simp only [hl, if_true]
          exact h3 j hj fs fs' hfs hl j (Nat.le_refl _) n
        · simp only [hl, if_false]
          exact CE.panic
      · simp only [hc, if_false]
        exact this

/-- Lambdas with related bodies. -/
theorem rel_lam {ps ps' : List (Name × Ty)} {b b' : Expr} (hl : ps.length = ps'.length)
    (h : ∀ j, j < k → ∀ vs vs', Vs s j vs vs' → ps.length = vs.length →
      RelD s j (bindAll ρ (ps.map (·.1)) vs) b (bindAll ρ' (ps'.map (·.1)) vs') b') :
    RelD s k ρ (.lam ps b) ρ' (.lam ps' b') := by
  intro j hj n; cases n with
  | zero => exact CE.timeout
  | succ n =>
    refine CE.succ (CE.ok (.fn rfl rfl ?_))
    rw [FR_iff]
    intro i hi vs vs' hvs m
    simp only [bodyC, applyFn, List.length_map]
    rw [← hl, ← hvs.length]
    by_cases hc : ps.length = vs.length
    · simp only [hc, if_true]
      exact h i (by omega) vs vs' hvs hc i (Nat.le_refl _) m
    · simp only [hc, if_false]
      exact CE.panic

/-- Recursive closures with related bodies. -/
theorem FR_rclo {f f' : Name} {ps ps' : List Name} {b b' : Expr} (hl : ps.length = ps'.length)
    (h : ∀ j, j < k → V s j (.rclo ρ f ps b) (.rclo ρ' f' ps' b') → ∀ vs vs', Vs s j vs vs' → ps.length = vs.length →
      RelD s j ((f, .rclo ρ f ps b) :: bindAll ρ ps vs) b ((f', .rclo ρ' f' ps' b') :: bindAll ρ' ps' vs') b') :
    V s k (.rclo ρ f ps b) (.rclo ρ' f' ps' b') := by
  have key : ∀ i, i ≤ k → FR s i (.rclo ρ f ps b) (.rclo ρ' f' ps' b') := by
    intro i
    induction i using Nat.strongRecOn with
    | _ i ih =>
      intro hi
      rw [FR_iff]
      intro j hj vs vs' hvs n
      simp only [bodyC, applyFn]
      rw [← hl, ← hvs.length]
      by_cases hc : ps.length = vs.length
      · simp only [hc, if_true]
        exact h j (by omega) (.fn rfl rfl (ih j hj (by omega))) vs vs' hvs hc j (Nat.le_refl _) n
      · simp only [hc, if_false]
        exact CE.panic
  exact .fn rfl rfl (key k (Nat.le_refl _))

theorem rel_letrec {f f' : Name} {t t' : Ty} {v v' e e' : Expr}
    (hr : (recLam v = none ∧ recLam v' = none) ∨ ∃ ps b ps' b', recLam v = some (ps, b) ∧ recLam v' = some (ps', b') ∧
      (∀ j, j ≤ k → V s j (.rclo ρ f ps b) (.rclo ρ' f' ps' b')) ∧
      RelD s k ((f, .rclo ρ f ps b) :: ρ) e ((f', .rclo ρ' f' ps' b') :: ρ') e') :
    RelD s k ρ (.letrec f t v e) ρ' (.letrec f' t' v' e') := by
  intro j hj n; cases n with
  | zero => exact CE.timeout
  | succ n =>
    refine CE.succ ?_
    rcases hr with ⟨h1, h2⟩ | ⟨ps, b, ps', b', h1, h2, h3, h4⟩
    · simp only [evalC, eval_letrec, h1, h2]
      exact CE.panic
    · simp only [evalC, eval_letrec, h1, h2]
      exact h4 j hj n

end Tic.Core
