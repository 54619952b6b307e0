import Verif.ProgramOK
import Verif.EvalLemmas
import Verif.TypeckEscape
/-
The logical relation behind C38: the values of a source type.
-/
namespace Tic.Front
open Tic.Unify (Symbol IrTy)
open Tic.Core

/-- A set of values. -/
abbrev VSet := Val → Prop

/-! ### Running to the end -/

/-- With enough steps: a result in the set, or one of the expected traps. -/
def RunsTo {α : Type} (H : String → Prop) (r : Nat → Res α) (S : α → Prop) : Prop :=
  ∃ n, (∃ v, r n = .ok v ∧ S v) ∨ ∃ m, r n = .trap m ∧ H m

/-- More steps do not change a result. -/
def MonoR {α : Type} (r : Nat → Res α) : Prop := ∀ n m : Nat, n ≤ m → (r n).Le (r m)

theorem MonoR.get {α : Type} {r : Nat → Res α} (h : MonoR r) {n m x} (hn : n ≤ m) (hx : r n = x) (hne : x ≠ .timeout) : r m = x := by
  rcases h _ _ hn with e | e
  · rw [hx] at e; exact absurd e hne
  · rw [← e, hx]

theorem monoR_eval (ρ : Env) (e : Expr) : MonoR (fun n => eval n ρ e) := fun _ _ h => eval_le h ρ e
theorem monoR_eval_succ (ρ : Env) (e : Expr) : MonoR (fun n => eval (n + 1) ρ e) := fun _ _ h => eval_le (by omega) ρ e
theorem monoR_evalList (ρ : Env) (es : List Expr) : MonoR (fun n => evalList (eval n ρ) es) :=
  fun _ _ h => evalList_le (fun e => eval_le h ρ e) es
theorem monoR_applyFn (f : Val) (vs : List Val) : MonoR (fun n => applyFn (eval n) f vs) :=
  fun _ _ h => applyFn_le (fun ρ e => eval_le h ρ e) f vs
theorem monoR_runBranch (ρ : Env) (bs : List Branch) (c fs) : MonoR (fun n => runBranch (eval n) ρ bs c fs) :=
  fun _ _ h => runBranch_le (fun ρ e => eval_le h ρ e) ρ bs c fs
theorem monoR_const {α : Type} (r : Res α) : MonoR (fun _ => r) := fun _ _ _ => .inr rfl

theorem MonoR.bind {α β : Type} {r : Nat → Res α} {k : α → Nat → Res β} (hr : MonoR r) (hk : ∀ v, MonoR (k v)) :
    MonoR (fun n => (r n).bind fun v => k v n) :=
  fun _ _ h => Res.Le.bind (hr _ _ h) (fun v _ => hk v _ _ h)

theorem RunsTo.ok {α : Type} {H} {r : Nat → Res α} {S : α → Prop} {v} (h : r 0 = .ok v) (hv : S v) : RunsTo H r S := ⟨0, .inl ⟨v, h, hv⟩⟩

theorem RunsTo.step {α : Type} {H} {r : Nat → Res α} {S : α → Prop} (h : RunsTo H (fun n => r (n + 1)) S) : RunsTo H r S := by
  obtain ⟨n, h⟩ := h
  exact ⟨n + 1, h⟩

theorem RunsTo.imp {α : Type} {H} {r : Nat → Res α} {S T : α → Prop} (h : RunsTo H r S) (hi : ∀ v, S v → T v) : RunsTo H r T := by
  obtain ⟨n, ⟨v, h1, h2⟩ | h⟩ := h
  · exact ⟨n, .inl ⟨v, h1, hi v h2⟩⟩
  · exact ⟨n, .inr h⟩

theorem RunsTo.bind {α β : Type} {H} {r : Nat → Res α} {k : α → Nat → Res β} {S : α → Prop} {T : β → Prop} (hr : MonoR r)
    (hk : ∀ v, MonoR (k v)) (h : RunsTo H r S) (h' : ∀ v, S v → RunsTo H (k v) T) : RunsTo H (fun n => (r n).bind fun v => k v n) T := by
  obtain ⟨n, ⟨v, h1, h2⟩ | ⟨m, h1, h2⟩⟩ := h
  · obtain ⟨l, h3⟩ := h' v h2
    refine ⟨max n l, ?_⟩
    have e1 := hr.get (Nat.le_max_left n l) h1 (by simp)
    simp only [e1, Res.bind_ok]
    rcases h3 with ⟨w, h3, h4⟩ | ⟨m, h3, h4⟩
    · exact .inl ⟨w, (hk v).get (Nat.le_max_right n l) h3 (by simp), h4⟩
    · exact .inr ⟨m, (hk v).get (Nat.le_max_right n l) h3 (by simp), h4⟩
  · exact ⟨n, .inr ⟨m, by simp [h1], h2⟩⟩

/-- A result that does not depend on the set is in all of them. -/
theorem RunsTo.all {α ι : Type} [Inhabited ι] {H} {r : Nat → Res α} {S : ι → α → Prop} (hr : MonoR r) (h : ∀ i, RunsTo H r (S i)) :
    RunsTo H r (fun v => ∀ i, S i v) := by
  obtain ⟨n, ⟨v, h1, -⟩ | ⟨m, h1, h2⟩⟩ := h default
  · refine ⟨n, .inl ⟨v, h1, fun i => ?_⟩⟩
    obtain ⟨l, ⟨w, h3, h4⟩ | ⟨m, h3, h4⟩⟩ := h i
    · have e1 := hr.get (Nat.le_max_left n l) h1 (by simp)
      have e2 := hr.get (Nat.le_max_right n l) h3 (by simp)
      rw [e1] at e2
      cases e2
      exact h4
    · have e1 := hr.get (Nat.le_max_left n l) h1 (by simp)
      have e2 := hr.get (Nat.le_max_right n l) h3 (by simp)
      rw [e1] at e2
      cases e2
  · exact ⟨n, .inr ⟨m, h1, h2⟩⟩

/-! ### Values of types -/

/-- The constructors of a type with their fields: a set, or nothing for a recursive field. -/
abbrev Sig := List (Symbol × List (Option VSet))

/-- Finite values made by constructors. -/
inductive Mu (R : Symbol → Option Name) (C : Sig) : Val → Prop
  | mk {c n fields fs} : (c, fields) ∈ C → R c = some n → fs.length = fields.length →
      (∀ (i : Nat) S v, fields[i]? = some (some S) → fs[i]? = some v → S v) →
      (∀ (i : Nat) v, fields[i]? = some none → fs[i]? = some v → Mu R C v) → Mu R C (.comp n fs)

/-- One layer of constructors around values of `B`. -/
def Lay (R : Symbol → Option Name) (C : Sig) (B : VSet) (u : Val) : Prop :=
  ∃ c n fields fs, u = .comp n fs ∧ (c, fields) ∈ C ∧ R c = some n ∧ fs.length = fields.length ∧
    ∀ (i : Nat) S v, fields[i]? = some S → fs[i]? = some v → S.getD B v

theorem mu_lay {R C v} : Mu R C v ↔ Lay R C (Mu R C) v := by
  constructor
  · rintro ⟨h1, h2, h3, h4, h5⟩
    refine ⟨_, _, _, _, rfl, h1, h2, h3, ?_⟩
    intro i S v hS hv
    cases S with
    | none => exact h5 i v hS hv
    | some S => exact h4 i S v hS hv
  · rintro ⟨c, n, fields, fs, rfl, h1, h2, h3, h4⟩
    exact .mk h1 h2 h3 (fun i S v hS hv => h4 i _ v hS hv) (fun i v hS hv => h4 i _ v hS hv)

/-- The constructor names, and the messages of the holes. -/
structure Sem where
  H : String → Prop
  reg : Symbol → Option Name
  fold : Symbol → Option Name

/-- What declared types stand for. -/
abbrev TyEnv := Symbol → Option (List VSet → Sig)

/-- Functions that run to the end. -/
def Arrow (H : String → Prop) (A B : VSet) (f : Val) : Prop :=
  f.isFn = true ∧ ∀ a, A a → RunsTo H (fun n => applyFn (eval n) f [a]) B

mutual
/-- The values of a type. -/
def interp (M : Sem) (δ : TyEnv) (η : Symbol → VSet) : IrTy → VSet
  | .int => fun v => ∃ x, v = .int x
  | .bool => fun v => ∃ x, v = .bool x
  | .str => fun v => ∃ x, v = .str x
  | .named s args => match δ s with
    | some f => Mu M.reg (f (interps M δ η args))
    | none => η s
  | .fn a b => Arrow M.H (interp M δ η a) (interp M δ η b)
  | .folded (.named s args) b => match δ s with
    | some f => Lay M.fold (f (interps M δ η args)) (interp M δ η b)
    | none => η s
  | .folded t _ => interp M δ η t
  | .error => fun _ => False
  | .infer => fun _ => False
/-- ... of a list of types. -/
def interps (M : Sem) (δ : TyEnv) (η : Symbol → VSet) : List IrTy → List VSet
  | [] => []
  | t :: ts => interp M δ η t :: interps M δ η ts
end

/-- Giving type variables a meaning. -/
def bindVars : List Symbol → List VSet → (Symbol → VSet) → Symbol → VSet
  | v :: vs, S :: Ss, η => fun s => if v = s then S else bindVars vs Ss η s
  | _, _, η => η

/-- The sets for the fields of a constructor. -/
def fieldSem (M : Sem) (δ : TyEnv) (η : Symbol → VSet) : Field → Option VSet
  | .rec_ => none
  | .ty t => some (interp M δ η t)

/-- The constructors of a declared type, given the meaning of its arguments. -/
def declSig (M : Sem) (δ : TyEnv) (d : TypeDecl) (args : List VSet) : Sig :=
  d.ctors.map fun c => (c.1, c.2.map (fieldSem M δ (bindVars d.vars args fun _ _ => False)))

/-- The meaning of declared types; fields mention earlier declarations. -/
def tyEnv (M : Sem) : List TypeDecl → TyEnv
  | [], _ => none
  | d :: Δ, s => if d.sym = s then some (declSig M (tyEnv M Δ) d) else tyEnv M Δ s

/-! ### Dependence on the meaning of symbols -/

mutual
theorem interp_congr {M : Sem} {δ δ' : TyEnv} {η η' : Symbol → VSet} : ∀ (t : IrTy),
    (∀ s ∈ tySyms t, δ s = δ' s ∧ (δ s = none → η s = η' s)) → interp M δ η t = interp M δ' η' t
  | .int, _ | .bool, _ | .str, _ | .error, _ | .infer, _ => by simp only [interp]
  | .named s args, h => by
    have hs := h s (by simp [tySyms])
    have ha := interps_congr (M := M) (δ := δ) (δ' := δ') (η := η) (η' := η') args (fun x hx => h x (by simp [tySyms, hx]))
    simp only [interp, ha, ← hs.1]
    split
    · rfl
    · exact hs.2 ‹_›
  | .fn a b, h => by
    simp only [interp]
    rw [interp_congr a (fun s hs => h s (by simp [tySyms, hs])), interp_congr b (fun s hs => h s (by simp [tySyms, hs]))]
  | .folded (.named s args) b, h => by
    have hs := h s (by simp [tySyms])
    have ha := interps_congr (M := M) (δ := δ) (δ' := δ') (η := η) (η' := η') args (fun x hx => h x (by simp [tySyms, hx]))
    have hb := interp_congr (M := M) (δ := δ) (δ' := δ') (η := η) (η' := η') b (fun x hx => h x (by simp [tySyms, hx]))
    simp only [interp, ha, hb, ← hs.1]
    split
    · rfl
    · exact hs.2 ‹_›
  | .folded .int _, h | .folded .bool _, h | .folded .str _, h | .folded .error _, h | .folded .infer _, h => by simp only [interp]
  | .folded (.fn a b) c, h => by
    have := interp_congr (M := M) (δ := δ) (δ' := δ') (η := η) (η' := η') (.fn a b) (fun s hs => h s (by rw [tySyms]; simp [hs]))
    simpa only [interp] using this
  | .folded (.folded a b) c, h => by
    have := interp_congr (M := M) (δ := δ) (δ' := δ') (η := η) (η' := η') (.folded a b) (fun s hs => h s (by rw [tySyms]; simp [hs]))
    simpa only [interp] using this
theorem interps_congr {M : Sem} {δ δ' : TyEnv} {η η' : Symbol → VSet} : ∀ (ts : List IrTy),
    (∀ s ∈ tysSyms ts, δ s = δ' s ∧ (δ s = none → η s = η' s)) → interps M δ η ts = interps M δ' η' ts
  | [], _ => rfl
  | t :: ts, h => by
    simp only [interps]
    rw [interp_congr t (fun s hs => h s (by simp [tysSyms, hs])), interps_congr ts (fun s hs => h s (by simp [tysSyms, hs]))]
end

theorem bindVars_none {vs Ss η s} : s ∉ vs → bindVars vs Ss η s = η s := by
  intro h
  induction vs generalizing Ss with
  | nil => simp [bindVars]
  | cons v vs ih =>
    cases Ss with
    | nil => rfl
    | cons S Ss =>
      simp only [bindVars]
      rw [if_neg (by rintro rfl; simp at h), ih (by simp at h; exact h.2)]

theorem bindVars_congr {vs Ss η η' s} (h : s ∉ vs → η s = η' s) (hl : Ss.length = vs.length) : bindVars vs Ss η s = bindVars vs Ss η' s := by
  induction vs generalizing Ss with
  | nil => cases Ss <;> exact h (by simp)
  | cons v vs ih =>
    cases Ss with
    | nil => simp at hl
    | cons S Ss =>
      simp only [bindVars]
      split
      · rfl
      · rename_i hne
        exact ih (fun hs => h (by simp [hs, Ne.symm hne])) (by simpa using hl)

theorem interps_length {M : Sem} {δ : TyEnv} {η} : ∀ ts, (interps M δ η ts).length = ts.length
  | [] => rfl
  | _ :: ts => by simp [interps, interps_length ts]

theorem findTy_bind {M : Sem} {δ : TyEnv} {η : Symbol → VSet} {s} : ∀ {vars : List Symbol} {inst : List IrTy},
    bindVars vars (interps M δ η inst) η s = match findTy (vars.zip inst) s with
      | some u => interp M δ η u
      | none => η s
  | [], _ => by simp [bindVars, findTy]
  | v :: vs, [] => by simp [bindVars, findTy, interps]
  | v :: vs, t :: ts => by
    simp only [interps, bindVars, List.zip_cons_cons, findTy]
    split
    · rfl
    · exact findTy_bind

mutual
theorem interp_subst {M : Sem} {δ : TyEnv} {η : Symbol → VSet} {vars : List Symbol} {inst : List IrTy} (hv : ∀ v ∈ vars, δ v = none) :
    ∀ {t : IrTy}, Plain t → interp M δ η (substTy (vars.zip inst) t) = interp M δ (bindVars vars (interps M δ η inst) η) t
  | .int, _ | .bool, _ | .str, _ => by simp only [substTy, interp]
  | .named s args, h => by
    have hb := findTy_bind (M := M) (δ := δ) (η := η) (s := s) (vars := vars) (inst := inst)
    simp only [substTy]
    split
    · rename_i u hu
      rw [hu] at hb
      have : s ∈ vars := by
        refine Classical.byContradiction fun hn => ?_
        have hnn : ∀ {vs : List Symbol} {ts : List IrTy}, s ∉ vs → findTy (vs.zip ts) s = none := by
          intro vs
          induction vs with
          | nil => intros; rfl
          | cons v vs ih =>
            intro ts hs
            cases ts with
            | nil => rfl
            | cons t ts =>
              simp only [List.zip_cons_cons, findTy]
              rw [if_neg (by rintro rfl; simp at hs)]
              exact ih (by simp at hs; exact hs.2)
        rw [hnn hn] at hu
        cases hu
      simp only [interp, hv s this, hb]
    · rename_i hu
      rw [hu] at hb
      simp only [interp]
      rw [interps_subst hv (by simpa only [Plain] using h), hb]
  | .fn a b, h => by
    simp only [Plain] at h
    simp only [substTy, interp]
    rw [interp_subst hv h.1, interp_subst hv h.2]
theorem interps_subst {M : Sem} {δ : TyEnv} {η : Symbol → VSet} {vars : List Symbol} {inst : List IrTy} (hv : ∀ v ∈ vars, δ v = none) :
    ∀ {ts : List IrTy}, Plains ts → interps M δ η (substTys (vars.zip inst) ts) = interps M δ (bindVars vars (interps M δ η inst) η) ts
  | [], _ => by simp only [substTys, interps]
  | t :: ts, h => by
    simp only [Plains] at h
    simp only [substTys, interps]
    rw [interp_subst hv h.1, interps_subst hv h.2]
end

/-! ### Declarations in order -/

/-- The declarations, latest first, meet the conditions. -/
def DeclsOK : List TypeDecl → Prop
  | [] => True
  | d :: Δ => declOf Δ d.sym = none ∧ (d.ctors.map (·.1)).Nodup ∧
      (∀ c ∈ d.ctors, c.2.length ≤ maxFields ∧ ∀ t, Field.ty t ∈ c.2 → Plain t ∧ WfTy Δ d.vars t) ∧ DeclsOK Δ

theorem declOf_cons {d : TypeDecl} {Δ s} : declOf (d :: Δ) s = if d.sym = s then some d else declOf Δ s := by
  simp only [declOf, List.find?_cons]
  by_cases h : d.sym = s
  · simp [h]
  · have : (d.sym == s) = false := by simpa using h
    simp [h, this]

theorem declOf_mem {Δ s d} (h : declOf Δ s = some d) : d ∈ Δ := List.mem_of_find?_eq_some h

theorem tyEnv_none {M : Sem} : ∀ {Δ s}, tyEnv M Δ s = none ↔ declOf Δ s = none
  | [], s => by simp [tyEnv, declOf]
  | d :: Δ, s => by
    rw [declOf_cons]
    simp only [tyEnv]
    split
    · simp
    · exact tyEnv_none

theorem DeclsOK.syms : ∀ {Δ s d}, DeclsOK Δ → declOf Δ s = some d → ∀ c ∈ d.ctors, ∀ t, Field.ty t ∈ c.2 → ∀ x ∈ tySyms t, x ∈ d.vars ∨ (declOf Δ x).isSome
  | d0 :: Δ, s, d, hΔ, h, c, hc, t, ht, x, hx => by
    obtain ⟨-, -, h3, h4⟩ := hΔ
    rw [declOf_cons] at h
    rw [declOf_cons]
    split at h
    · cases h
      rcases wfTy_syms ((h3 c hc).2 t ht).2 x hx with h | h
      · exact .inl h
      · refine .inr ?_
        split <;> simp [h]
    · rcases DeclsOK.syms h4 h c hc t ht x hx with h | h
      · exact .inl h
      · refine .inr ?_
        split <;> simp [h]

theorem DeclsOK.field : ∀ {Δ s d}, DeclsOK Δ → declOf Δ s = some d →
    (d.ctors.map (·.1)).Nodup ∧ ∀ c ∈ d.ctors, c.2.length ≤ maxFields ∧ ∀ t, Field.ty t ∈ c.2 → Plain t
  | d0 :: Δ, s, d, hΔ, h => by
    obtain ⟨-, h2, h3, h4⟩ := hΔ
    rw [declOf_cons] at h
    split at h
    · cases h
      exact ⟨h2, fun c hc => ⟨(h3 c hc).1, fun t ht => ((h3 c hc).2 t ht).1⟩⟩
    · exact DeclsOK.field h4 h

theorem declSig_congr {M : Sem} {δ δ' : TyEnv} {d : TypeDecl}
    (h : ∀ c ∈ d.ctors, ∀ t, Field.ty t ∈ c.2 → ∀ x ∈ tySyms t, δ x = δ' x) : declSig M δ d = declSig M δ' d := by
  funext args
  simp only [declSig]
  refine List.map_congr_left fun c hc => ?_
  congr 1
  refine List.map_congr_left fun f hf => ?_
  cases f with
  | rec_ => rfl
  | ty t =>
    simp only [fieldSem]
    congr 1
    exact interp_congr t fun x hx => ⟨h c hc t hf x hx, fun _ => rfl⟩

/-- Fields may be read in the environment of all declarations. -/
theorem tyEnv_some {M : Sem} : ∀ {Δ s d}, DeclsOK Δ → (∀ d ∈ Δ, ∀ v ∈ d.vars, declOf Δ v = none) → declOf Δ s = some d →
    tyEnv M Δ s = some (declSig M (tyEnv M Δ) d)
  | d0 :: Δ, s, d, hΔ, hv, h => by
    have h' := h
    have hs := hΔ.syms h
    obtain ⟨h1, -, h3, h4⟩ := hΔ
    rw [declOf_cons] at h
    have step : ∀ x, (x ∈ d.vars ∨ (declOf Δ x).isSome) → tyEnv M Δ x = tyEnv M (d0 :: Δ) x := by
      intro x hx
      simp only [tyEnv]
      split
      · rename_i he
        subst he
        rcases hx with hx | hx
        · have := hv d (declOf_mem h') _ hx
          rw [declOf_cons, if_pos rfl] at this
          cases this
        · rw [h1] at hx; cases hx
      · rfl
    split at h
    · cases h
      rename_i he
      rw [tyEnv, if_pos he]
      congr 1
      exact declSig_congr fun c hc t ht x hx => step x (wfTy_syms ((h3 c hc).2 t ht).2 x hx)
    · rename_i he
      rw [tyEnv, if_neg he]
      have hv' : ∀ d ∈ Δ, ∀ v ∈ d.vars, declOf Δ v = none := by
        intro d hd v hvd
        have := hv d (by simp [hd]) v hvd
        rw [declOf_cons] at this
        split at this
        · cases this
        · exact this
      rw [tyEnv_some h4 hv' h]
      congr 1
      exact declSig_congr fun c hc t ht x hx => step x (h4.syms h c hc t ht x hx)

end Tic.Front
