import Verif.TySem
import Verif.LeJ
/-
Proof device for the soundness of the verifier: what it means for an expression to have a
type, and why each typing rule of the verifier is right.
-/
namespace Tic.Core

variable {C : Name → Option Ctor}

/-- Types of the names in scope. -/
abbrev Gam := Name → Option Ty

/-- One more name. -/
def Gam.set (Γ : Gam) (x : Name) (t : Ty) : Gam := fun y => if y = x then some t else Γ y

/-- Several more names; later ones win. -/
def Gam.sets : Gam → List Name → List Ty → Gam
  | Γ, x :: xs, t :: ts => (Γ.set x t).sets xs ts
  | Γ, _, _ => Γ

/-- The environment has values of the right types. -/
def EnvOk (C : Name → Option Ctor) (k : Nat) (ρ : TEnv) (env : Env) (Γ : Gam) : Prop :=
  ∀ x t, Γ x = some t → ∃ v, lookup x env = .ok v ∧ TV C k ρ t v

/-- `e` has type `t`: evaluating it does not panic and gives values of type `t`. -/
def Ok (C : Name → Option Ctor) (Γ : Gam) (e : Expr) (t : Ty) : Prop :=
  ∀ k ρ env, ρ.Down → EnvOk C k ρ env Γ → ∀ n, Safe k (TS C ρ t) (evalT n env e)

theorem EnvOk.down {k j : Nat} {ρ : TEnv} {env : Env} {Γ : Gam} (hρ : ρ.Down) (h : EnvOk C k ρ env Γ) (hj : j ≤ k) : EnvOk C j ρ env Γ :=
  fun x t hx => let ⟨v, h1, h2⟩ := h x t hx; ⟨v, h1, TV_down t ρ hρ j k v hj h2⟩

theorem EnvOk.set {k : Nat} {ρ : TEnv} {env : Env} {Γ : Gam} (h : EnvOk C k ρ env Γ) {x : Name} {t : Ty} {v : Val} (hv : TV C k ρ t v) :
    EnvOk C k ρ ((x, v) :: env) (Γ.set x t) := by
  intro y u hy
  simp only [Gam.set] at hy
  by_cases h1 : y = x
  · subst h1
    rw [if_pos rfl] at hy
    obtain rfl := Option.some.inj hy
    exact ⟨v, by simp [lookup], hv⟩
  · rw [if_neg h1] at hy
    obtain ⟨w, h2, h3⟩ := h y u hy
    exact ⟨w, by simp only [lookup]; rw [if_neg (fun h => h1 h.symm)]; exact h2, h3⟩

theorem EnvOk.sets {k : Nat} {ρ : TEnv} : ∀ {xs : List Name} {ts : List Ty} {vs : List Val} {env : Env} {Γ : Gam}, EnvOk C k ρ env Γ →
    xs.length = ts.length → All2 (fun t v => TV C k ρ t v) ts vs → EnvOk C k ρ (bindAll env xs vs) (Γ.sets xs ts)
  | [], [], [], _, _, h, _, _ => h
  | [], _ :: _, _, _, _, _, hl, _ => by simp at hl
  | _ :: _, [], _, _, _, _, hl, _ => by simp at hl
  | x :: xs, t :: ts, v :: vs, env, Γ, h, hl, hv => by
    simp only [bindAll, Gam.sets]
    exact EnvOk.sets (h.set hv.1) (by simpa using hl) hv.2
  | x :: xs, t :: ts, [], env, Γ, h, hl, hv => hv.elim

theorem TV_isFn {k : Nat} {ρ : TEnv} {ps : List Ty} {out : Ty} {v : Val} (h : TV C k ρ (.fn ps out) v) : v.isFn = true := (TV_fn.1 h).1

theorem ok_bool {Γ : Gam} (b : Bool) : Ok C Γ (.bool b) .bool := by
  intro k ρ env _ _ n
  cases n with
  | zero => exact .timeout
  | succ n => exact .ok (by simp only [TS, TV]; exact ⟨b, rfl⟩)

theorem ok_int {Γ : Gam} (b : UInt64) : Ok C Γ (.int b) .int := by
  intro k ρ env _ _ n
  cases n with
  | zero => exact .timeout
  | succ n => exact .ok (by simp only [TS, TV]; exact ⟨b, rfl⟩)

theorem ok_str {Γ : Gam} (b : List UInt8) : Ok C Γ (.str b) .string := by
  intro k ρ env _ _ n
  cases n with
  | zero => exact .timeout
  | succ n => exact .ok (by simp only [TS, TV]; exact ⟨b, rfl⟩)

theorem ok_trap {Γ : Gam} (m : String) (t t' : Ty) : Ok C Γ (.trap m t) t' := by
  intro k ρ env _ _ n
  cases n with
  | zero => exact .timeout
  | succ n => exact .trapped

theorem ok_name {Γ : Gam} {x : Name} {t : Ty} (h : Γ x = some t) : Ok C Γ (.name x) t := by
  intro k ρ env _ hs n
  cases n with
  | zero => exact .timeout
  | succ n =>
    obtain ⟨v, h1, h2⟩ := hs x t h
    simp only [evalT, h1]
    exact .ok h2

theorem safe_list {Γ : Gam} {ρ : TEnv} {env : Env} {n : Nat} (hρ : ρ.Down) : ∀ {k : Nat} {es : List Expr} {ts : List Ty},
    EnvOk C k ρ env Γ → All2 (fun e t => Ok C Γ e t) es ts →
    Safe k (fun j vs => All2 (fun t v => TV C j ρ t v) ts vs) (evalListC (evalT n env) es)
  | k, [], [], _, _ => .ok trivial
  | _, [], _ :: _, _, h => h.elim
  | _, _ :: _, [], _, h => h.elim
  | k, e :: es, t :: ts, hs, h => by
    simp only [evalListC]
    refine (h.1 k ρ env hρ hs n).bind fun j v hj hv => ?_
    refine (safe_list hρ (hs.down hρ hj) h.2).bind fun i vs hi hvs => .ok ?_
    exact ⟨TV_down t ρ hρ i j v hi hv, hvs⟩

theorem ok_call {Γ : Gam} {f : Expr} {xs : List Expr} {ps : List Ty} {out : Ty} (hf : Ok C Γ f (.fn ps out))
    (hx : All2 (fun e t => Ok C Γ e t) xs ps) : Ok C Γ (.call f xs) out := by
  intro k ρ env hρ hs n
  cases n with
  | zero => exact .timeout
  | succ n =>
    simp only [evalT]
    refine (hf k ρ env hρ hs n).bind fun j fv hj hfv => ?_
    have hfv : TV C j ρ (.fn ps out) fv := hfv
    rw [if_pos (TV_isFn hfv)]
    refine (safe_list hρ (hs.down hρ hj) hx).bind fun i vs hi hvs => .tick fun l hl => ?_
    refine (TV_fn.1 hfv).2 l (by omega) vs (hvs.imp fun t v h => TV_down t ρ hρ l i v (by omega) h) n

theorem ok_ite {Γ : Gam} {c a b : Expr} {t : Ty} (hc : Ok C Γ c .bool) (ha : Ok C Γ a t) (hb : Ok C Γ b t) : Ok C Γ (.ite c a b) t := by
  intro k ρ env hρ hs n
  cases n with
  | zero => exact .timeout
  | succ n =>
    simp only [evalT]
    refine (hc k ρ env hρ hs n).bind fun j v hj hv => ?_
    simp only [TS, TV] at hv
    obtain ⟨x, rfl⟩ := hv
    refine Safe.bind (P := fun i _ => i = j) (.ok rfl) fun i y hi he => ?_
    subst he
    cases y
    · exact hb i ρ env hρ (hs.down hρ hj) n
    · exact ha i ρ env hρ (hs.down hρ hj) n

theorem ok_op {Γ : Gam} {a b : Expr} {o : Op} (ha : Ok C Γ a .int) (hb : Ok C Γ b .int) : Ok C Γ (.op a o b) (opResult o) := by
  intro k ρ env hρ hs n
  cases n with
  | zero => exact .timeout
  | succ n =>
    simp only [evalT]
    refine (ha k ρ env hρ hs n).bind fun j v hj hv => ?_
    simp only [TS, TV] at hv
    obtain ⟨x, rfl⟩ := hv
    refine Safe.bind (P := fun i _ => i = j) (.ok rfl) fun i y hi he => ?_
    subst he
    refine (hb i ρ env hρ (hs.down hρ hj) n).bind fun j' v hj' hv => ?_
    simp only [TS, TV] at hv
    obtain ⟨z, rfl⟩ := hv
    refine Safe.bind (P := fun i _ => i = j') (.ok rfl) fun i' y' hi' he => ?_
    refine .ok ?_
    cases o <;> simp only [TS, TV, opResult, evalOp] <;> exact ⟨_, rfl⟩

/-- Types of the kinds. -/
def Kind.ty : Kind → Ty | .int => .int | .str => .string

theorem kind_of {k : Nat} {ρ : TEnv} {κ : Kind} {v : Val} (h : TV C k ρ κ.ty v) : κ.check v = true := by
  cases κ <;> simp only [Kind.ty, TV] at h <;> obtain ⟨x, rfl⟩ := h <;> rfl

theorem safe_sig {Γ : Gam} {ρ : TEnv} {env : Env} {n : Nat} (hρ : ρ.Down) : ∀ {k : Nat} {es : List Expr} {κs : List Kind},
    EnvOk C k ρ env Γ → All2 (fun e t => Ok C Γ e t) es (κs.map Kind.ty) →
    Safe k (fun _ vs => All2 (fun κ v => Kind.check κ v = true) κs vs) (evalSigC (evalT n env) κs es)
  | k, [], [], _, _ => .ok trivial
  | _, [], _ :: _, _, h => h.elim
  | _, _ :: _, [], _, h => h.elim
  | k, e :: es, t :: ts, hs, h => by
    simp only [evalSigC]
    refine (h.1 k ρ env hρ hs n).bind fun j v hj hv => ?_
    have hv : TV C j ρ t.ty v := hv
    rw [if_pos (kind_of hv)]
    refine (safe_sig hρ (hs.down hρ hj) h.2).bind fun i vs hi hvs => .ok ⟨kind_of hv, hvs⟩

theorem intrParams_eq (i : Intrinsic) : intrParams i = (intrSig i).map Kind.ty := by cases i <;> rfl

theorem kind_int {v : Val} (h : Kind.int.check v = true) : ∃ x, v = .int x := by
  cases v <;> simp [Kind.check] at h ⊢

theorem kind_str {v : Val} (h : Kind.str.check v = true) : ∃ x, v = .str x := by
  cases v <;> simp [Kind.check] at h ⊢

theorem intrFn_ty {i : Intrinsic} {vs : List Val} (h : All2 (fun κ v => Kind.check κ v = true) (intrSig i) vs) (k : Nat) (ρ : TEnv) :
    TV C k ρ (intrResult i) (intrFn i vs) := by
  cases i
  case stringLen =>
    match vs, h with
    | [v], h => obtain ⟨x, rfl⟩ := kind_str h.1; simp only [intrResult, TV, intrFn, List.map, Val.atom, intrAtoms]; exact ⟨_, rfl⟩
  case stringConcat =>
    match vs, h with
    | [v, w], h =>
      obtain ⟨x, rfl⟩ := kind_str h.1; obtain ⟨y, rfl⟩ := kind_str h.2.1
      simp only [intrResult, TV, intrFn, List.map, Val.atom, intrAtoms]; exact ⟨_, rfl⟩
  case stringCharAt =>
    match vs, h with
    | [v, w], h =>
      obtain ⟨x, rfl⟩ := kind_int h.1; obtain ⟨y, rfl⟩ := kind_str h.2.1
      simp only [intrResult, TV, intrFn, List.map, Val.atom, intrAtoms]; exact ⟨_, rfl⟩
  case stringSubstring =>
    match vs, h with
    | [v, w, u], h =>
      obtain ⟨x, rfl⟩ := kind_int h.1; obtain ⟨y, rfl⟩ := kind_int h.2.1; obtain ⟨z, rfl⟩ := kind_str h.2.2.1
      simp only [intrResult, TV, intrFn, List.map, Val.atom, intrAtoms]; exact ⟨_, rfl⟩
  case stringFromChar =>
    match vs, h with
    | [v], h => obtain ⟨x, rfl⟩ := kind_int h.1; simp only [intrResult, TV, intrFn, List.map, Val.atom, intrAtoms]; exact ⟨_, rfl⟩
  case intToString =>
    match vs, h with
    | [v], h => obtain ⟨x, rfl⟩ := kind_int h.1; simp only [intrResult, TV, intrFn, List.map, Val.atom, intrAtoms]; exact ⟨_, rfl⟩

theorem ok_intr {Γ : Gam} {i : Intrinsic} {xs : List Expr} (hx : All2 (fun e t => Ok C Γ e t) xs (intrParams i)) :
    Ok C Γ (.intr i xs) (intrResult i) := by
  intro k ρ env hρ hs n
  cases n with
  | zero => exact .timeout
  | succ n =>
    simp only [evalT]
    rw [intrParams_eq] at hx
    exact (safe_sig hρ hs hx).bind fun j vs hj hvs => .ok (intrFn_ty hvs j ρ)

theorem ok_let {Γ : Gam} {x : Name} {a b : Expr} {t u : Ty} (ha : Ok C Γ a t) (hb : Ok C (Γ.set x t) b u) : Ok C Γ (.let_ x a b) u := by
  intro k ρ env hρ hs n
  cases n with
  | zero => exact .timeout
  | succ n =>
    simp only [evalT]
    exact (ha k ρ env hρ hs n).bind fun j v hj hv => hb j ρ _ hρ ((hs.down hρ hj).set hv) n

theorem ok_lam {Γ : Gam} {ps : List (Name × Ty)} {b : Expr} {t : Ty} (hb : Ok C (Γ.sets (ps.map (·.1)) (ps.map (·.2))) b t) :
    Ok C Γ (.lam ps b) (.fn (ps.map (·.2)) t) := by
  intro k ρ env hρ hs n
  cases n with
  | zero => exact .timeout
  | succ n =>
    simp only [evalT]
    refine .ok ?_
    show TV C k ρ _ _
    rw [TV_fn]
    refine ⟨rfl, fun j hj vs hvs m => ?_⟩
    have hl := hvs.length
    simp only [bodyC]
    rw [if_pos (by simpa using hl)]
    exact hb j ρ _ hρ (EnvOk.sets (hs.down hρ (by omega)) (by simp) hvs) m

theorem lookup_bindAll_mem {x : Name} : ∀ {ps : List Name} {vs : List Val} {ρ ρ' : Env}, x ∈ ps → ps.length = vs.length →
    lookup x (bindAll ρ ps vs) = lookup x (bindAll ρ' ps vs)
  | [], _, _, _, h, _ => by simp at h
  | _ :: _, [], _, _, _, h => by simp at h
  | p :: ps, v :: vs, ρ, ρ', hx, hl => by
    simp only [bindAll]
    by_cases h : x ∈ ps
    · exact lookup_bindAll_mem h (by simpa using hl)
    · rw [lookup_bindAll_notMem h, lookup_bindAll_notMem h]
      obtain rfl : x = p := by simpa [h] using hx
      simp [lookup]

/-- A recursive function whose body is right assuming it is right itself, is right. -/
theorem TV_rclo {Γ : Gam} {ρ : TEnv} {env : Env} {f : Name} {ps : List (Name × Ty)} {b : Expr} {t : Ty} (hρ : ρ.Down)
    (hf : f ∉ ps.map (·.1)) (hb : Ok C ((Γ.set f (.fn (ps.map (·.2)) t)).sets (ps.map (·.1)) (ps.map (·.2))) b t) :
    ∀ k, EnvOk C k ρ env Γ → TV C k ρ (.fn (ps.map (·.2)) t) (.rclo env f (ps.map (·.1)) b) := by
  intro k
  induction k using Nat.strongRecOn with
  | _ k ih =>
    intro hs
    rw [TV_fn]
    refine ⟨rfl, fun j hj vs hvs m => ?_⟩
    have hl := hvs.length
    simp only [bodyC]
    rw [if_pos (by simpa using hl)]
    have hself := ih j hj (hs.down hρ (by omega))
    have h1 := EnvOk.sets ((hs.down hρ (Nat.le_of_lt hj)).set (x := f) hself) (xs := ps.map (·.1)) (by simp) hvs
    refine hb j ρ _ hρ ?_ m
    intro x u hx
    obtain ⟨v, h2, h3⟩ := h1 x u hx
    refine ⟨v, ?_, h3⟩
    by_cases hxf : x = f
    · subst hxf
      rw [lookup_bindAll_notMem hf] at h2
      simpa [lookup] using h2
    · simp only [lookup]
      rw [if_neg (fun h => hxf h.symm)]
      rw [← h2]
      by_cases hxp : x ∈ ps.map (·.1)
      · exact lookup_bindAll_mem hxp (by simpa using hl)
      · rw [lookup_bindAll_notMem hxp, lookup_bindAll_notMem hxp]
        simp only [lookup]; rw [if_neg (fun h => hxf h.symm)]

theorem ok_letrec {Γ : Gam} {f : Name} {ps : List (Name × Ty)} {a b : Expr} {t t' u : Ty} (hf : f ∉ ps.map (·.1))
    (ha : Ok C ((Γ.set f (.fn (ps.map (·.2)) t)).sets (ps.map (·.1)) (ps.map (·.2))) a t)
    (hb : Ok C (Γ.set f (.fn (ps.map (·.2)) t)) b u) : Ok C Γ (.letrec f t' (.lam ps a) b) u := by
  intro k ρ env hρ hs n
  cases n with
  | zero => exact .timeout
  | succ n =>
    simp only [evalT, recLam, stripPis]
    exact hb k ρ _ hρ (hs.set (TV_rclo hρ hf ha k hs)) n

theorem fields_all2 {f : Ty → Ty} {P Q : Ty → Val → Prop} : ∀ {Fs : List Ty} {vs : List Val}, (∀ F ∈ Fs, ∀ v, P (f F) v → Q F v) →
    All2 P (Fs.map f) vs → All2 Q Fs vs
  | [], [], _, _ => trivial
  | [], _ :: _, _, h => h.elim
  | _ :: _, [], _, h => h.elim
  | F :: Fs, v :: vs, hi, h => ⟨hi F (by simp) v h.1, fields_all2 (fun F hF => hi F (List.mem_cons_of_mem _ hF)) h.2⟩

theorem ok_con {Γ : Gam} {c : Name} {d : Ctor} {tys : List Ty} {es : List Expr} (hc : C c = some d) (hv : d.vars.length = tys.length)
    (hF : d.fields.length ≤ maxFields) (hl : d.fields.length = es.length)
    (hsub : ∀ F ∈ d.fields, ∀ k ρ v, ρ.Down → TV C k ρ (replaceAll d.vars tys F) v → TV C k (bindTys d.vars (tys.map (TS C ρ))) F v)
    (he : All2 (fun e t => Ok C Γ e t) es (d.fields.map (replaceAll d.vars tys))) : Ok C Γ (.con c tys es) (.named d.tyName tys) := by
  intro k ρ env hρ hs n
  cases n with
  | zero => exact .timeout
  | succ n =>
    simp only [evalT]
    refine (safe_list hρ hs he).bind fun j vs hj hvs => ?_
    have hl := hvs.length
    simp only [List.length_map] at hl
    rw [if_pos (by omega)]
    refine .ok ?_
    show TV C j ρ _ _
    rw [TV_named]
    refine ⟨c, vs, d, rfl, hc, rfl, hv, hl, fun i hi => ?_⟩
    exact fields_all2 (fun F hF v h => hsub F hF i ρ v hρ (TV_down _ ρ hρ i j v (by omega) h)) hvs

/-- Interpreting several variables over an interpretation of the others. -/
def setTys : List TyVar → List Sem → TEnv → TEnv
  | a :: as, S :: Ss, ρ => (setTys as Ss ρ).set a S
  | _, _, ρ => ρ

theorem setTys_notMem {a : TyVar} : ∀ {as : List TyVar} {Ss : List Sem} {ρ : TEnv}, a ∉ as → setTys as Ss ρ a = ρ a
  | [], _, _, _ => by simp [setTys]
  | _ :: _, [], _, _ => rfl
  | b :: as, S :: Ss, ρ, h => by
    simp only [List.mem_cons, not_or] at h
    simp only [setTys, TEnv.set, if_neg h.1, setTys_notMem h.2]

theorem setTys_mem {a : TyVar} : ∀ {as : List TyVar} {Ss : List Sem} {ρ : TEnv}, as.length = Ss.length → a ∈ as → setTys as Ss ρ a = bindTys as Ss a
  | [], _, _, _, h => by simp at h
  | _ :: _, [], _, h, _ => by simp at h
  | b :: as, S :: Ss, ρ, hl, h => by
    simp only [setTys, bindTys, TEnv.set]
    split
    · rfl
    · rename_i hne
      exact setTys_mem (by simpa using hl) (by simpa [hne] using h)

mutual
/-- No quantifiers inside. -/
def Mono0 : Ty → Prop
  | .named _ args => Mono0L args
  | .fn ps out => Mono0L ps ∧ Mono0 out
  | .abs _ _ => False
  | _ => True
/-- ... in a list of types. -/
def Mono0L : List Ty → Prop
  | [] => True
  | t :: ts => Mono0 t ∧ Mono0L ts
end

theorem mono0L_iff : ∀ {ts : List Ty}, Mono0L ts ↔ ∀ t ∈ ts, Mono0 t
  | [] => by simp [Mono0L]
  | t :: ts => by simp [Mono0L, mono0L_iff (ts := ts)]

mutual
theorem mono0_tbv : ∀ {t : Ty}, Mono0 t → tbv t = []
  | .bool, _ => rfl
  | .int, _ => rfl
  | .string, _ => rfl
  | .var _, _ => rfl
  | .named _ args, h => by simp only [tbv]; exact mono0L_tbv h
  | .fn ps out, h => by simp only [tbv, mono0L_tbv h.1, mono0_tbv h.2, List.append_nil]
  | .abs _ _, h => h.elim
theorem mono0L_tbv : ∀ {ts : List Ty}, Mono0L ts → tbvL ts = []
  | [], _ => rfl
  | t :: ts, h => by simp only [tbvL, mono0_tbv h.1, mono0L_tbv h.2, List.append_nil]
end

mutual
theorem mono0_replace {a : TyVar} {u : Ty} (hu : Mono0 u) : ∀ {t : Ty}, Mono0 t → Mono0 (replace a u t)
  | .bool, _ => trivial
  | .int, _ => trivial
  | .string, _ => trivial
  | .var b, _ => by
    simp only [replace]
    split
    · exact hu
    · trivial
  | .named _ args, h => by simp only [replace, Mono0]; exact mono0L_replace hu h
  | .fn ps out, h => by simp only [replace, Mono0]; exact ⟨mono0L_replace hu h.1, mono0_replace hu h.2⟩
  | .abs _ _, h => h.elim
theorem mono0L_replace {a : TyVar} {u : Ty} (hu : Mono0 u) : ∀ {ts : List Ty}, Mono0L ts → Mono0L (replaceL a u ts)
  | [], _ => trivial
  | _ :: _, h => ⟨mono0_replace hu h.1, mono0L_replace hu h.2⟩
end

theorem mono0_replaceAll : ∀ {as : List TyVar} {us : List Ty} {t : Ty}, (∀ u ∈ us, Mono0 u) → Mono0 t → Mono0 (replaceAll as us t)
  | [], _, _, _, h => by simpa [replaceAll] using h
  | _ :: _, [], _, _, h => by simpa [replaceAll] using h
  | a :: as, u :: us, t, hu, h => by
    simp only [replaceAll]
    exact mono0_replaceAll (fun u h => hu u (List.mem_cons_of_mem _ h)) (mono0_replace (hu u (by simp)) h)

theorem TV_replaceAll {k : Nat} {ρ : TEnv} {v : Val} : ∀ {as : List TyVar} {us : List Ty} {t : Ty}, Mono0 t → (∀ u ∈ us, Mono0 u) →
    (∀ u ∈ us, ∀ b ∈ tfv u, b ∉ as) → (TV C k ρ (replaceAll as us t) v ↔ TV C k (setTys as (us.map (TS C ρ)) ρ) t v)
  | [], _, _, _, _, _ => by simp [replaceAll, setTys]
  | _ :: _, [], _, _, _, _ => by simp [replaceAll, setTys]
  | a :: as, u :: us, t, ht, hu, hf => by
    simp only [replaceAll, List.map_cons, setTys]
    rw [TV_replaceAll (mono0_replace (hu u (by simp)) ht) (fun u h => hu u (List.mem_cons_of_mem _ h))
      fun u h b hb hm => hf u (List.mem_cons_of_mem _ h) b hb (List.mem_cons_of_mem _ hm)]
    rw [TV_replace k t (by simp [mono0_tbv ht]) (by simp [mono0_tbv ht])]
    refine TV_congr k t _ _ v fun c _ i hi w => ?_
    simp only [TEnv.set]
    split
    · refine TV_congr i u _ _ w fun b hb i' _ w' => ?_
      rw [setTys_notMem fun hm => hf u (by simp) b hb (List.mem_cons_of_mem _ hm)]
    · exact Iff.rfl

/-- The type of a constructor's field at given type arguments. -/
theorem TV_field {k : Nat} {ρ : TEnv} {v : Val} {as : List TyVar} {us : List Ty} {F : Ty} (hF : Mono0 F) (hu : ∀ u ∈ us, Mono0 u)
    (hf : ∀ u ∈ us, ∀ b ∈ tfv u, b ∉ as) (hl : as.length = us.length) (hs : ∀ b ∈ tfv F, b ∈ as) :
    TV C k ρ (replaceAll as us F) v ↔ TV C k (bindTys as (us.map (TS C ρ))) F v := by
  rw [TV_replaceAll hF hu hf]
  refine TV_congr k F _ _ v fun c hc i hi w => ?_
  rw [setTys_mem (by simpa using hl) (hs c hc)]

/-- A branch is right for the constructor it is for. -/
def OkBr (C : Name → Option Ctor) (Γ : Gam) (n : Name) (args : List Ty) (t : Ty) (b : Branch) : Prop :=
  ∃ d, C b.ctor = some d ∧ d.tyName = n ∧ d.vars.length = args.length ∧ d.fields.length = b.binds.length ∧
    Ok C (Γ.sets b.binds (d.fields.map (replaceAll d.vars args))) b.body t

theorem findBranch_hit {c : Name} : ∀ {bs : List Branch}, (∃ b ∈ bs, b.ctor = c) → ∃ b ∈ bs, findBranch c bs = some b ∧ b.ctor = c
  | [], h => by simp at h
  | b :: bs, h => by
    simp only [findBranch]
    split
    · rename_i hc; exact ⟨b, by simp, rfl, hc⟩
    · rename_i hc
      obtain ⟨b', hb', h2⟩ := h
      rcases List.mem_cons.1 hb' with rfl | hb'
      · exact absurd h2 hc
      · obtain ⟨b'', h3, h4⟩ := findBranch_hit ⟨b', hb', h2⟩
        exact ⟨b'', List.mem_cons_of_mem _ h3, h4⟩

theorem all2_map_left {f : Ty → Ty} {P Q : Ty → Val → Prop} : ∀ {Fs : List Ty} {vs : List Val}, (∀ F ∈ Fs, ∀ v, Q F v → P (f F) v) →
    All2 Q Fs vs → All2 P (Fs.map f) vs
  | [], [], _, _ => trivial
  | [], _ :: _, _, h => h.elim
  | _ :: _, [], _, h => h.elim
  | F :: Fs, v :: vs, hi, h => ⟨hi F (by simp) v h.1, all2_map_left (fun F hF => hi F (List.mem_cons_of_mem _ hF)) h.2⟩

theorem ok_mtch {Γ : Gam} {e : Expr} {bs : List Branch} {n : Name} {args : List Ty} {t : Ty} (he : Ok C Γ e (.named n args))
    (hsub : ∀ c d, C c = some d → d.vars.length = args.length → ∀ F ∈ d.fields, ∀ k ρ v,
      TV C k (bindTys d.vars (args.map (TS C ρ))) F v → TV C k ρ (replaceAll d.vars args F) v)
    (hex : ∀ c d, C c = some d → d.tyName = n → ∃ b ∈ bs, b.ctor = c)
    (hb : ∀ b ∈ bs, OkBr C Γ n args t b) : Ok C Γ (.mtch e bs) t := by
  intro k ρ env hρ hs n
  cases n with
  | zero => exact .timeout
  | succ n =>
    simp only [evalT]
    refine (he k ρ env hρ hs n).bind fun j v hj hv => ?_
    have hv : TV C j ρ _ v := hv
    rw [TV_named] at hv
    obtain ⟨c, fs, d, rfl, hc, hn, hlv, hlf, hfs⟩ := hv
    refine Safe.bind (P := fun i cf => i = j ∧ cf = (c, fs)) (.ok ⟨rfl, rfl⟩) fun i cf hi he => ?_
    obtain ⟨rfl, rfl⟩ := he
    refine .tick fun l hl => ?_
    obtain ⟨b, hbm, hfb, hbc⟩ := findBranch_hit (hex c d hc hn)
    obtain ⟨d', hc', hn', hlv', hlf', hok⟩ := hb b hbm
    rw [hbc, hc] at hc'
    obtain rfl := Option.some.inj hc'
    simp only [runBranchC, hfb]
    rw [if_pos (by omega)]
    refine hok l ρ _ hρ (EnvOk.sets (hs.down hρ (by omega)) (by simp [hlf']) ?_) n
    exact all2_map_left (fun F hF v h => hsub c d hc hlv F hF l ρ v h) (hfs l (by omega))

theorem ok_pi {Γ : Gam} {a : TyVar} {e : Expr} {t : Ty} (ha : ∀ x u, Γ x = some u → a ∉ tfv u) (he : Ok C Γ e t) : Ok C Γ (.pi a e) (.abs a t) := by
  intro k ρ env hρ hs n
  cases n with
  | zero => exact .timeout
  | succ n =>
    simp only [evalT]
    have hS : ∀ S : Sem, S.Down → Safe k (TS C (ρ.set a S) t) (evalT n env e) := by
      intro S hS
      refine he k (ρ.set a S) env (hρ.set hS a) ?_ n
      intro x u hx
      obtain ⟨v, h1, h2⟩ := hs x u hx
      refine ⟨v, h1, (TV_congr k u _ _ v fun b hb i _ w => ?_).1 h2⟩
      simp only [TEnv.set]
      rw [if_neg fun (h : b = a) => ha x u hx (h ▸ hb)]
    intro hc
    refine ⟨(hS (fun _ _ => False) (fun _ _ _ _ h => h) hc).1, fun v hv => ?_⟩
    show TV C _ ρ _ v
    rw [TV_abs]
    exact fun S hd => (hS S hd hc).2 v hv

theorem ok_piApp {Γ : Gam} {a : TyVar} {e : Expr} {t u : Ty} (ha : a ∉ tbv t) (hu : ∀ b ∈ tfv u, b ∉ tbv t) (he : Ok C Γ e (.abs a t)) :
    Ok C Γ (.piApp e u) (replace a u t) := by
  intro k ρ env hρ hs n
  cases n with
  | zero => exact .timeout
  | succ n =>
    simp only [evalT]
    refine (he k ρ env hρ hs n).imp fun j v hj hv => ?_
    have hv : TV C j ρ _ v := hv
    rw [TV_abs] at hv
    exact (TV_replace j t ha hu).2 (hv _ (TV_down u ρ hρ))

end Tic.Core
