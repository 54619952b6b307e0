import Verif.Verify
import Verif.Logrel
/-
Proof device for the soundness of the verifier (`PropVerify`): a step-indexed interpretation
of core types as sets of run-time values.  Nothing here models code.
-/
namespace Tic.Core

/-! ### Evaluation with costs

As in `Cost`, but continuing with a branch of a match costs one as well. -/

/-- `eval` with costs: one per application and one per match. -/
def evalT : Nat → Env → Expr → CRes Val
  | 0, _, _ => free .timeout
  | n + 1, ρ, e =>
    match e with
    | .bool b => free (.ok (.bool b))
    | .int i => free (.ok (.int i))
    | .str s => free (.ok (.str s))
    | .name x => free (lookup x ρ)
    | .call f args =>
      CRes.bind (evalT n ρ f) fun fv =>
        if fv.isFn then
          CRes.bind (evalListC (evalT n ρ) args) fun vs => tick (bodyC (evalT n) fv vs)
        else free .panic
    | .ite c t e =>
      CRes.bind (evalT n ρ c) fun v => CRes.bind (free v.intoBool) fun b => if b then evalT n ρ t else evalT n ρ e
    | .op a o b =>
      CRes.bind (evalT n ρ a) fun v => CRes.bind (free v.intoInt) fun a =>
        CRes.bind (evalT n ρ b) fun v => CRes.bind (free v.intoInt) fun b => free (.ok (evalOp o a b))
    | .intr i xs => CRes.bind (evalSigC (evalT n ρ) (intrSig i) xs) fun vs => free (.ok (intrFn i vs))
    | .lam ps b => free (.ok (.clo ρ (ps.map (·.1)) b))
    | .mtch e bs =>
      CRes.bind (evalT n ρ e) fun v => CRes.bind (free v.intoComp) fun cf => tick (runBranchC (evalT n) ρ bs cf.1 cf.2)
    | .con c _ fields =>
      CRes.bind (evalListC (evalT n ρ) fields) fun vs =>
        free (if vs.length ≤ maxFields then .ok (.comp c vs) else .panic)
    | .let_ x v e => CRes.bind (evalT n ρ v) fun v => evalT n ((x, v) :: ρ) e
    | .letrec x _ v e =>
      match recLam v with
      | some (ps, b) => evalT n ((x, .rclo ρ x ps b) :: ρ) e
      | none => free .panic
    | .pi _ e => evalT n ρ e
    | .piApp e _ => evalT n ρ e
    | .trap m _ => free (.trap m)

/-- Forgetting the costs gives the evaluator. -/
theorem evalT_eval : ∀ (n : Nat) (ρ : Env) (e : Expr), (evalT n ρ e).2 = eval n ρ e := by
  intro n
  induction n with
  | zero => intro ρ e; rfl
  | succ n ih =>
    intro ρ e
    cases e with
    | bool b => rfl
    | int b => rfl
    | str b => rfl
    | name b => rfl
    | lam ps b => rfl
    | trap m t => rfl
    | call f args =>
      simp only [evalT, eval]
      rw [CRes.bind_snd _ _ _ ?_, ih]
      intro fv
      split
      · rw [CRes.bind_snd _ _ _ (fun vs => ?_), evalListC_snd (ih ρ)]
        exact bodyC_snd ih fv vs
      · rfl
    | ite c t e =>
      simp only [evalT, eval]
      rw [CRes.bind_snd _ _ _ ?_, ih]
      intro v
      rw [CRes.bind_snd _ _ _ ?_]; rfl
      intro b
      cases b
      · exact ih ρ e
      · exact ih ρ t
    | op a o b =>
      simp only [evalT, eval]
      rw [CRes.bind_snd _ _ _ ?_, ih]
      intro v
      rw [CRes.bind_snd _ _ _ ?_]; rfl
      intro x
      rw [CRes.bind_snd _ _ _ ?_, ih]
      intro w
      rw [CRes.bind_snd _ _ _ (fun _ => rfl)]; rfl
    | intr i xs =>
      simp only [evalT, eval]
      rw [CRes.bind_snd _ _ _ (fun _ => rfl), evalSigC_snd (ih ρ), evalIntr_eq]; rfl
    | mtch e bs =>
      simp only [evalT, eval]
      rw [CRes.bind_snd _ _ _ ?_, ih]
      intro v
      rw [CRes.bind_snd _ _ _ ?_]; rfl
      intro cf
      exact runBranchC_snd ih ρ bs _ _
    | con c tys fs =>
      simp only [evalT, eval]
      rw [CRes.bind_snd _ _ _ (fun _ => rfl), evalListC_snd (ih ρ)]; rfl
    | let_ x v e =>
      simp only [evalT, eval]
      rw [CRes.bind_snd _ _ _ (fun v => ih _ e), ih]
    | letrec x t v e =>
      simp only [evalT, eval]
      cases recLam v with
      | none => rfl
      | some p => exact ih _ e
    | pi v e => exact ih ρ e
    | piApp e t => exact ih ρ e

/-- With `k` steps to go: no panic, and a result satisfies `P` for the remaining steps. -/
def Safe {α : Type} (k : Nat) (P : Nat → α → Prop) (r : CRes α) : Prop :=
  r.1 ≤ k → r.2 ≠ .panic ∧ ∀ a, r.2 = .ok a → P (k - r.1) a

theorem Safe.ok {α : Type} {k : Nat} {P : Nat → α → Prop} {a : α} (h : P k a) : Safe k P (free (.ok a)) := fun _ =>
  ⟨by simp [free], fun b hb => by simp only [free, Res.ok.injEq] at hb; subst hb; exact h⟩

theorem Safe.timeout {α : Type} {k : Nat} {P : Nat → α → Prop} : Safe k P (free .timeout) := fun _ => ⟨by simp [free], by simp [free]⟩
theorem Safe.trapped {α : Type} {k : Nat} {P : Nat → α → Prop} {m : String} : Safe k P (free (.trap m)) := fun _ => ⟨by simp [free], by simp [free]⟩

theorem Safe.bind {α β : Type} {k : Nat} {P : Nat → α → Prop} {Q : Nat → β → Prop} {r : CRes α} {f : α → CRes β}
    (h : Safe k P r) (hf : ∀ j a, j ≤ k → P j a → Safe j Q (f a)) : Safe k Q (CRes.bind r f) := by
  obtain ⟨c, x⟩ := r
  cases x with
  | trap m => exact fun hc => ⟨by simp [CRes.bind], by simp [CRes.bind]⟩
  | timeout => exact fun hc => ⟨by simp [CRes.bind], by simp [CRes.bind]⟩
  | panic => exact fun hc => absurd rfl (h hc).1
  | ok a =>
    intro hc
    simp only [CRes.bind] at hc ⊢
    have h1 : c ≤ k := by omega
    have h2 := hf (k - c) a (by omega) ((h h1).2 a rfl) (by omega)
    refine ⟨h2.1, fun b hb => ?_⟩
    have := h2.2 b hb
    rwa [Nat.sub_sub] at this

theorem Safe.tick {α : Type} {k : Nat} {P : Nat → α → Prop} {r : CRes α} (h : ∀ j, j + 1 = k → Safe j P r) : Safe k P (tick r) := by
  intro hc
  simp only [Core.tick] at hc ⊢
  obtain ⟨j, rfl⟩ : ∃ j, j + 1 = k := ⟨k - 1, by omega⟩
  obtain ⟨h1, h2⟩ := h j rfl (by omega)
  refine ⟨h1, fun a ha => ?_⟩
  have := h2 a ha
  rwa [Nat.add_sub_add_right]

theorem Safe.imp {α : Type} {k : Nat} {P Q : Nat → α → Prop} {r : CRes α} (h : Safe k P r) (hi : ∀ j a, j ≤ k → P j a → Q j a) : Safe k Q r :=
  fun hc => ⟨(h hc).1, fun a ha => hi _ a (Nat.sub_le ..) ((h hc).2 a ha)⟩

/-! ### Interpretation of types -/

/-- Sets of values, for each number of steps to go. -/
abbrev Sem := Nat → Val → Prop

/-- Fewer steps allow more values. -/
def Sem.Down (S : Sem) : Prop := ∀ j k v, j ≤ k → S k v → S j v

/-- Interpretation of type variables. -/
abbrev TEnv := TyVar → Sem

/-- Interpreting one more variable. -/
def TEnv.set (ρ : TEnv) (a : TyVar) (S : Sem) : TEnv := fun b => if b = a then S else ρ b

/-- Interpreting the variables of a type definition; others are empty. -/
def bindTys : List TyVar → List Sem → TEnv
  | a :: as, S :: Ss => (bindTys as Ss).set a S
  | _, _ => fun _ _ _ => False

/-- The values of a type. -/
def TV (C : Name → Option Ctor) (k : Nat) (ρ : TEnv) (t : Ty) (v : Val) : Prop :=
  match t with
  | .bool => ∃ b, v = .bool b
  | .int => ∃ i, v = .int i
  | .string => ∃ s, v = .str s
  | .var a => ρ a k v
  | .named n args => ∃ c fs d, v = .comp c fs ∧ C c = some d ∧ d.tyName = n ∧ d.vars.length = args.length ∧
      d.fields.length = fs.length ∧ ∀ j, j < k →
        All2 (fun F f => TV C j (bindTys d.vars (args.map fun a i w => ∃ _h : i < k, TV C i ρ a w)) F f) d.fields fs
  | .fn ps out => v.isFn = true ∧ ∀ j, j < k → ∀ vs, All2 (fun p w => TV C j ρ p w) ps vs → ∀ n,
      (bodyC (evalT n) v vs).1 ≤ j → (bodyC (evalT n) v vs).2 ≠ .panic ∧
        ∀ w, (bodyC (evalT n) v vs).2 = .ok w → TV C (j - (bodyC (evalT n) v vs).1) ρ out w
  | .abs a t => ∀ S : Sem, S.Down → TV C k (ρ.set a S) t v
termination_by (k, sizeOf t)
decreasing_by
  all_goals simp_wf
  all_goals omega

/-! ### Variables of types -/

mutual
/-- Free variables. -/
def tfv : Ty → List TyVar
  | .var a => [a]
  | .named _ args => tfvL args
  | .fn ps out => tfvL ps ++ tfv out
  | .abs a t => (tfv t).filter (fun b => b != a)
  | _ => []
/-- ... of a list of types. -/
def tfvL : List Ty → List TyVar
  | [] => []
  | t :: ts => tfv t ++ tfvL ts
end

mutual
/-- Bound variables. -/
def tbv : Ty → List TyVar
  | .named _ args => tbvL args
  | .fn ps out => tbvL ps ++ tbv out
  | .abs a t => a :: tbv t
  | _ => []
/-- ... of a list of types. -/
def tbvL : List Ty → List TyVar
  | [] => []
  | t :: ts => tbv t ++ tbvL ts
end

theorem mem_tfvL {a : TyVar} : ∀ {ts : List Ty}, a ∈ tfvL ts ↔ ∃ t ∈ ts, a ∈ tfv t
  | [] => by simp [tfvL]
  | t :: ts => by simp [tfvL, mem_tfvL (ts := ts)]

theorem mem_tbvL {a : TyVar} : ∀ {ts : List Ty}, a ∈ tbvL ts ↔ ∃ t ∈ ts, a ∈ tbv t
  | [] => by simp [tbvL]
  | t :: ts => by simp [tbvL, mem_tbvL (ts := ts)]

theorem all2_iff {α β : Type} {P Q : α → β → Prop} : ∀ {as : List α} {bs : List β}, (∀ a ∈ as, ∀ b, P a b ↔ Q a b) → (All2 P as bs ↔ All2 Q as bs)
  | [], [], _ => Iff.rfl
  | [], _ :: _, _ => Iff.rfl
  | _ :: _, [], _ => Iff.rfl
  | a :: as, b :: bs, h => by
    simp only [All2]
    rw [h a (by simp) b, all2_iff fun a' ha' => h a' (List.mem_cons_of_mem _ ha')]

theorem bindTys_notMem {a : TyVar} : ∀ {as : List TyVar} {Ss : List Sem}, a ∉ as → bindTys as Ss a = fun _ _ => False
  | [], _, _ => by simp [bindTys]
  | _ :: _, [], _ => rfl
  | b :: as, S :: Ss, h => by
    simp only [List.mem_cons, not_or] at h
    simp only [bindTys, TEnv.set, if_neg h.1, bindTys_notMem h.2]

theorem bindTys_map {a : TyVar} {i : Nat} {w : Val} {f g : Ty → Sem} : ∀ {as : List TyVar} {ts : List Ty}, (∀ t ∈ ts, f t i w ↔ g t i w) →
    (bindTys as (ts.map f) a i w ↔ bindTys as (ts.map g) a i w)
  | [], _, _ => by simp [bindTys]
  | _ :: _, [], _ => by simp [bindTys]
  | b :: as, t :: ts, h => by
    simp only [List.map_cons, bindTys, TEnv.set]
    split
    · exact h t (by simp)
    · exact bindTys_map fun t' ht' => h t' (List.mem_cons_of_mem _ ht')

variable {C : Name → Option Ctor}

/-- The interpretation depends only on the free variables, and looks only at fewer steps. -/
theorem TV_congr (k : Nat) (t : Ty) (ρ ρ' : TEnv) (v : Val) (h : ∀ a ∈ tfv t, ∀ i, i ≤ k → ∀ w, ρ a i w ↔ ρ' a i w) :
    TV C k ρ t v ↔ TV C k ρ' t v := by
  match t with
  | .bool => simp only [TV]
  | .int => simp only [TV]
  | .string => simp only [TV]
  | .var a => simp only [TV]; exact h a (by simp [tfv]) k (Nat.le_refl _) v
  | .named n args =>
    simp only [TV]
    have key : ∀ d : Ctor, (∀ j, j < k → ∀ fs, All2 (fun F f => TV C j (bindTys d.vars (args.map fun a i w => ∃ _h : i < k, TV C i ρ a w)) F f) d.fields fs ↔
        All2 (fun F f => TV C j (bindTys d.vars (args.map fun a i w => ∃ _h : i < k, TV C i ρ' a w)) F f) d.fields fs) := by
      intro d j hj fs
      refine all2_iff fun F _ f => TV_congr j F _ _ f fun b _ i hi w => bindTys_map fun t ht => ?_
      constructor
      · rintro ⟨h1, h2⟩
        exact ⟨h1, (TV_congr i t ρ ρ' w fun a ha i' hi' => h a (mem_tfvL.2 ⟨t, ht, ha⟩) i' (by omega)).1 h2⟩
      · rintro ⟨h1, h2⟩
        exact ⟨h1, (TV_congr i t ρ ρ' w fun a ha i' hi' => h a (mem_tfvL.2 ⟨t, ht, ha⟩) i' (by omega)).2 h2⟩
    constructor
    · rintro ⟨c, fs, d, h1, h2, h3, h4, h5, h6⟩
      exact ⟨c, fs, d, h1, h2, h3, h4, h5, fun j hj => (key d j hj fs).1 (h6 j hj)⟩
    · rintro ⟨c, fs, d, h1, h2, h3, h4, h5, h6⟩
      exact ⟨c, fs, d, h1, h2, h3, h4, h5, fun j hj => (key d j hj fs).2 (h6 j hj)⟩
  | .fn ps out =>
    simp only [TV]
    have hp : ∀ j, j < k → ∀ vs, All2 (fun p w => TV C j ρ p w) ps vs ↔ All2 (fun p w => TV C j ρ' p w) ps vs := by
      intro j hj vs
      exact all2_iff fun p hp w => TV_congr j p ρ ρ' w fun a ha i hi => h a (by simp only [tfv, List.mem_append]; exact .inl (mem_tfvL.2 ⟨p, hp, ha⟩)) i (by omega)
    have ho : ∀ j c w, j < k → (TV C (j - c) ρ out w ↔ TV C (j - c) ρ' out w) := by
      intro j c w hj
      exact TV_congr (j - c) out ρ ρ' w fun a ha i hi => h a (by simp only [tfv, List.mem_append]; exact .inr ha) i (by omega)
    constructor
    · rintro ⟨h1, h2⟩
      refine ⟨h1, fun j hj vs hvs n hn => ?_⟩
      obtain ⟨h3, h4⟩ := h2 j hj vs ((hp j hj vs).2 hvs) n hn
      exact ⟨h3, fun w hw => (ho j _ w hj).1 (h4 w hw)⟩
    · rintro ⟨h1, h2⟩
      refine ⟨h1, fun j hj vs hvs n hn => ?_⟩
      obtain ⟨h3, h4⟩ := h2 j hj vs ((hp j hj vs).1 hvs) n hn
      exact ⟨h3, fun w hw => (ho j _ w hj).2 (h4 w hw)⟩
  | .abs b t =>
    simp only [TV]
    have : ∀ S : Sem, (TV C k (ρ.set b S) t v ↔ TV C k (ρ'.set b S) t v) := by
      intro S
      refine TV_congr k t _ _ v fun a ha i hi w => ?_
      simp only [TEnv.set]
      split
      · exact Iff.rfl
      · rename_i hne
        exact h a (by simp only [tfv, List.mem_filter, bne_iff_ne, ne_eq]; exact ⟨ha, hne⟩) i hi w
    constructor
    · exact fun hS S hd => (this S).1 (hS S hd)
    · exact fun hS S hd => (this S).2 (hS S hd)
termination_by (k, sizeOf t)
decreasing_by
  all_goals simp_wf
  all_goals omega

/-- Interpretation of types as sets of values. -/
def TS (C : Name → Option Ctor) (ρ : TEnv) (t : Ty) : Sem := fun i w => TV C i ρ t w

theorem TV_named {k : Nat} {ρ : TEnv} {n : Name} {args : List Ty} {v : Val} : TV C k ρ (.named n args) v ↔
    ∃ c fs d, v = .comp c fs ∧ C c = some d ∧ d.tyName = n ∧ d.vars.length = args.length ∧
      d.fields.length = fs.length ∧ ∀ j, j < k →
        All2 (fun F f => TV C j (bindTys d.vars (args.map (TS C ρ))) F f) d.fields fs := by
  rw [TV]
  have key : ∀ d : Ctor, (∀ j, j < k → ∀ fs, All2 (fun F f => TV C j (bindTys d.vars (args.map fun a i w => ∃ _h : i < k, TV C i ρ a w)) F f) d.fields fs ↔
      All2 (fun F f => TV C j (bindTys d.vars (args.map (TS C ρ))) F f) d.fields fs) := by
    intro d j hj fs
    refine all2_iff fun F _ f => TV_congr j F _ _ f fun b _ i hi w => bindTys_map fun t _ => ?_
    exact ⟨fun h => h.2, fun h => ⟨by omega, h⟩⟩
  constructor
  · rintro ⟨c, fs, d, h1, h2, h3, h4, h5, h6⟩
    exact ⟨c, fs, d, h1, h2, h3, h4, h5, fun j hj => (key d j hj fs).1 (h6 j hj)⟩
  · rintro ⟨c, fs, d, h1, h2, h3, h4, h5, h6⟩
    exact ⟨c, fs, d, h1, h2, h3, h4, h5, fun j hj => (key d j hj fs).2 (h6 j hj)⟩

theorem TV_fn {k : Nat} {ρ : TEnv} {ps : List Ty} {out : Ty} {v : Val} : TV C k ρ (.fn ps out) v ↔
    v.isFn = true ∧ ∀ j, j < k → ∀ vs, All2 (fun p w => TV C j ρ p w) ps vs → ∀ n,
      Safe j (TS C ρ out) (bodyC (evalT n) v vs) := by
  rw [TV]; rfl

theorem TV_abs {k : Nat} {ρ : TEnv} {a : TyVar} {t : Ty} {v : Val} : TV C k ρ (.abs a t) v ↔
    ∀ S : Sem, S.Down → TV C k (ρ.set a S) t v := by rw [TV]

/-- All interpretations are downward closed. -/
def TEnv.Down (ρ : TEnv) : Prop := ∀ a, (ρ a).Down

theorem TEnv.Down.set {ρ : TEnv} (h : ρ.Down) {S : Sem} (hS : S.Down) (a : TyVar) : (ρ.set a S).Down := by
  intro b
  simp only [TEnv.set]
  split
  · exact hS
  · exact h b

theorem TV_down (t : Ty) (ρ : TEnv) (hρ : ρ.Down) : (TS C ρ t).Down := by
  intro j k v hjk h
  match t with
  | .bool => simp only [TS, TV] at h ⊢; exact h
  | .int => simp only [TS, TV] at h ⊢; exact h
  | .string => simp only [TS, TV] at h ⊢; exact h
  | .var a => simp only [TS, TV] at h ⊢; exact hρ a j k v hjk h
  | .named n args =>
    simp only [TS, TV_named] at h ⊢
    obtain ⟨c, fs, d, h1, h2, h3, h4, h5, h6⟩ := h
    exact ⟨c, fs, d, h1, h2, h3, h4, h5, fun i hi => h6 i (by omega)⟩
  | .fn ps out =>
    simp only [TS, TV_fn] at h ⊢
    exact ⟨h.1, fun i hi => h.2 i (by omega)⟩
  | .abs a t =>
    simp only [TS, TV_abs] at h ⊢
    exact fun S hS => TV_down t (ρ.set a S) (hρ.set hS a) j k v hjk (h S hS)

theorem TEnv.Down.bindTys {as : List TyVar} {Ss : List Sem} (h : ∀ S ∈ Ss, S.Down) : (Core.bindTys as Ss).Down := by
  induction as generalizing Ss with
  | nil => intro a j k v _ h; simp [Core.bindTys] at h
  | cons b as ih =>
    cases Ss with
    | nil => intro a j k v _ h; simp [Core.bindTys] at h
    | cons S Ss => exact (ih fun S hS => h S (List.mem_cons_of_mem _ hS)).set (h S (by simp)) b

/-! ### Substitution -/

theorem all2_replaceL {a : TyVar} {u : Ty} {β : Type} {P : Ty → β → Prop} : ∀ {ts : List Ty} {bs : List β},
    All2 P (replaceL a u ts) bs ↔ All2 (fun t b => P (replace a u t) b) ts bs
  | [], [] => Iff.rfl
  | [], _ :: _ => Iff.rfl
  | _ :: _, [] => Iff.rfl
  | t :: ts, b :: bs => by simp only [replaceL, All2, all2_replaceL (ts := ts)]

theorem replaceL_eq (a : TyVar) (u : Ty) : ∀ ts : List Ty, replaceL a u ts = ts.map (replace a u)
  | [] => rfl
  | t :: ts => by simp only [replaceL, List.map_cons, replaceL_eq a u ts]

/-- Replacing a variable by a type is interpreting it as that type, if nothing is captured. -/
theorem TV_replace (k : Nat) (t : Ty) {a : TyVar} {u : Ty} {ρ : TEnv} {v : Val} (ha : a ∉ tbv t) (hu : ∀ b ∈ tfv u, b ∉ tbv t) :
    TV C k ρ (replace a u t) v ↔ TV C k (ρ.set a (TS C ρ u)) t v := by
  match t with
  | .bool => simp only [replace, TV]
  | .int => simp only [replace, TV]
  | .string => simp only [replace, TV]
  | .var b =>
    simp only [replace, TV, TEnv.set]
    split
    · exact Iff.rfl
    · simp only [TV]
  | .named n args =>
    simp only [replace, TV_named, replaceL_eq, List.length_map, List.map_map]
    have key : ∀ d : Ctor, (∀ j, j < k → ∀ fs, All2 (fun F f => TV C j (bindTys d.vars (args.map (TS C ρ ∘ replace a u))) F f) d.fields fs ↔
        All2 (fun F f => TV C j (bindTys d.vars (args.map (TS C (ρ.set a (TS C ρ u))))) F f) d.fields fs) := by
      intro d j hj fs
      refine all2_iff fun F _ f => TV_congr j F _ _ f fun b _ i hi w => bindTys_map fun t ht => ?_
      exact TV_replace i t (fun h => ha (mem_tbvL.2 ⟨t, ht, h⟩)) (fun b hb h => hu b hb (mem_tbvL.2 ⟨t, ht, h⟩))
    constructor
    · rintro ⟨c, fs, d, h1, h2, h3, h4, h5, h6⟩
      exact ⟨c, fs, d, h1, h2, h3, h4, h5, fun j hj => (key d j hj fs).1 (h6 j hj)⟩
    · rintro ⟨c, fs, d, h1, h2, h3, h4, h5, h6⟩
      exact ⟨c, fs, d, h1, h2, h3, h4, h5, fun j hj => (key d j hj fs).2 (h6 j hj)⟩
  | .fn ps out =>
    simp only [tbv, List.mem_append, not_or] at ha hu
    simp only [replace, TV_fn, all2_replaceL]
    have hp : ∀ j, j < k → ∀ vs, All2 (fun p w => TV C j ρ (replace a u p) w) ps vs ↔ All2 (fun p w => TV C j (ρ.set a (TS C ρ u)) p w) ps vs := by
      intro j hj vs
      exact all2_iff fun p hp w => TV_replace j p (fun h => ha.1 (mem_tbvL.2 ⟨p, hp, h⟩)) (fun b hb h => (hu b hb).1 (mem_tbvL.2 ⟨p, hp, h⟩))
    have ho : ∀ j, j < k → ∀ w, (TV C j ρ (replace a u out) w ↔ TV C j (ρ.set a (TS C ρ u)) out w) := by
      intro j hj w
      exact TV_replace j out ha.2 fun b hb => (hu b hb).2
    constructor
    · rintro ⟨h1, h2⟩
      refine ⟨h1, fun j hj vs hvs n => (h2 j hj vs ((hp j hj vs).2 hvs) n).imp fun i w hi hw => (ho i (by omega) w).1 hw⟩
    · rintro ⟨h1, h2⟩
      refine ⟨h1, fun j hj vs hvs n => (h2 j hj vs ((hp j hj vs).1 hvs) n).imp fun i w hi hw => (ho i (by omega) w).2 hw⟩
  | .abs b t =>
    simp only [tbv, List.mem_cons, not_or] at ha hu
    simp only [replace, TV_abs]
    refine forall_congr' fun S => forall_congr' fun hS => ?_
    rw [TV_replace k t ha.2 fun b hb => (hu b hb).2]
    refine TV_congr k t _ _ v fun c _ i hi w => ?_
    simp only [TEnv.set]
    by_cases h1 : c = a
    · subst h1
      simp only [if_pos, if_neg ha.1]
      refine TV_congr i u _ _ w fun e he i' _ w' => ?_
      simp only [TEnv.set]
      rw [if_neg (hu e he).1]
    · simp only [if_neg h1]
termination_by (k, sizeOf t)
decreasing_by
  all_goals simp_wf
  all_goals omega

end Tic.Core
