import Verif.MeaningDet
import Verif.GenRun
/-
When a value of core stands for a value of the source language.
-/
namespace Tic.Front
open Tic.Unify (Symbol IrTy)
open Tic.Core

/-- A core name belongs to one constructor only. -/
def Tags (M : Sem) : Prop :=
  ∀ c c' n, (M.reg c = some n ∨ M.fold c = some n) → (M.reg c' = some n ∨ M.fold c' = some n) → c = c'

/-- The state of the generator where code is made. -/
structure Code (M : Sem) (T : Symbol → Option (List Field)) (Δ : List TypeDecl) (vs : List Symbol) (Γ : Ctx) (g : Gen) : Prop where
  scope : ScopeOK Δ vs Γ g
  names : Agrees M g
  fields : ∀ s d, declOf Δ s = some d → ∀ c ∈ d.ctors, T c.1 = some c.2

theorem Code.ext {M T Δ vs Γ bs g g'} (h : Code M T Δ vs Γ g) (he : Ext bs g g') (hb : ∀ b ∈ bs, Γ.find b = none ∧ declOf Δ b = none) :
    Code M T Δ vs Γ g' := ⟨h.scope.ext he hb, h.names.ext he, h.fields⟩

theorem Code.add {M T Δ vs Γ g} (h : Code M T Δ vs Γ g) {s sch} (hd : declOf Δ s = none) : Code M T Δ vs ((s, sch) :: Γ) (g.genName s).1 :=
  ⟨h.scope.add hd, h.names.ext (ext_genName g s), h.fields⟩

/-- The core intrinsic of a built-in function. -/
def Builtin.intr : Builtin → Option Intrinsic
  | .iterate => none
  | .stringLength => some .stringLen
  | .stringConcat => some .stringConcat
  | .stringCharAt => some .stringCharAt
  | .stringSubstring => some .stringSubstring
  | .stringFromChar => some .stringFromChar
  | .intToString => some .intToString

/-- The loop of `iterate`. -/
def iterateLoop (n : Name) (a : TyVar) : Expr :=
  .letrec (n + 3) (.fn [.int, .var a] (.var a))
    (.lam [(n + 4, .int), (n + 5, .var a)]
      (.ite (.op (.name (n + 4)) .lessEq (.int 0)) (.name (n + 5))
        (.call (.name (n + 3)) [.op (.name (n + 4)) .subtract (.int 1), .call (.name (n + 1)) [.name (n + 5)]])))
    (.call (.name (n + 3)) [.name n, .name (n + 2)])

/-- The body of a constructor or a built-in function with parameters `ns`. -/
inductive HeadBody (M : Sem) : Head → List Name → Expr → Prop
  | ctor {c k n tys ns} : (M.reg c = some n ∨ M.fold c = some n) → ns.length = k → HeadBody M (.ctor c k) ns (.con n tys (ns.map .name))
  | intr {b i ns} : b.intr = some i → ns.length = (Head.builtin b).arity → HeadBody M (.builtin b) ns (.intr i (ns.map .name))
  | iterate {n a} : HeadBody M (.builtin .iterate) [n, n + 1, n + 2] (iterateLoop n a)

theorem HeadBody.length {M h ns b} (hb : HeadBody M h ns b) : ns.length = h.arity := by
  cases hb with
  | ctor _ h => exact h
  | intr _ h => exact h
  | iterate => rfl

/-- `Rel M T V v`: the core value `v` stands for the source value `V`. -/
inductive Rel (M : Sem) (T : Symbol → Option (List Field)) : SVal → Val → Prop
  | int {x} : Rel M T (.int x) (.int x)
  | bool {x} : Rel M T (.bool x) (.bool x)
  | str {x} : Rel M T (.str x) (.str x)
  | comp {c n Fs fs} : (M.reg c = some n ∨ M.fold c = some n) → Fs.length = fs.length →
      (∀ (i : Nat) V v, Fs[i]? = some V → fs[i]? = some v → Rel M T V v) → Rel M T (.comp c Fs) (.comp n fs)
  | fn {Δ vs Γ g p t u body g' c σ ρ} {V : Symbol → SVal} {v : Symbol → Val} {k : Symbol → Name} :
      Code M T Δ vs Γ g → Apart Δ Γ (p :: binderSyms body) → HasTy Δ vs ((p, mono t) :: Γ) body u →
      genExpr (g.genName p).1 body = some (g', c) →
      (∀ s sch, Γ.find s = some sch → SEnv.find σ s = some (V s) ∧ g.symNames s = some (k s) ∧ k s < g.names ∧ lookup (k s) ρ = .ok (v s)) →
      (∀ s sch, Γ.find s = some sch → Rel M T (V s) (v s)) →
      Rel M T (.fn σ p (body.map (overData Δ))) (.clo ρ [g.names] c)
  | foldFn {Δ vs Γ g p a b ta tb body g1 c1 g2 c2 σ ρ} {V : Symbol → SVal} {v : Symbol → Val} {k : Symbol → Name} :
      Code M T Δ vs Γ g → Apart Δ Γ (p :: binderSyms body) → WfTy Δ vs a → IrTy.isFolded a = false →
      HasTy Δ vs ((p, mono (.folded a b)) :: Γ) body b → genTy g a = some ta →
      genExpr (g.genName p).1.fresh.1.fresh.1 body = some (g1, c1) → foldParam (g.names + 2) (g.names + 1) ta tb g1 = some (g2, c2) →
      (∀ s sch, Γ.find s = some sch → SEnv.find σ s = some (V s) ∧ g.symNames s = some (k s) ∧ k s < g.names ∧ lookup (k s) ρ = .ok (v s)) →
      (∀ s sch, Γ.find s = some sch → Rel M T (V s) (v s)) →
      Rel M T (.foldFn (overData Δ (.fn a b)) σ p (body.map (overData Δ))) (.rclo ρ (g.names + 2) [g.names + 1] (.let_ g.names c2 c1))
  | part {h args ρ pre x ps body} {v : Nat → Val} : (pre ++ x :: ps.map (·.1)).Nodup → HeadBody M h (pre ++ x :: ps.map (·.1)) body →
      args.length = pre.length → (∀ (i : Nat) n, pre[i]? = some n → lookup n ρ = .ok (v i)) →
      (∀ (i : Nat) A, args[i]? = some A → Rel M T A (v i)) → Rel M T (.part h args) (.clo ρ [x] (lams ps body))

/-- The names of a context have related values. -/
def EnvRel (M : Sem) (T : Symbol → Option (List Field)) (Γ : Ctx) (g : Gen) (σ : SEnv) (ρ : Env) : Prop :=
  ∀ s sch, Γ.find s = some sch → ∃ V v k, SEnv.find σ s = some V ∧ g.symNames s = some k ∧ k < g.names ∧ lookup k ρ = .ok v ∧ Rel M T V v

/-- Choosing the values of all names. -/
theorem EnvRel.choose {M T Γ g σ ρ} (h : EnvRel M T Γ g σ ρ) : ∃ (V : Symbol → SVal) (v : Symbol → Val) (k : Symbol → Name),
    (∀ s sch, Γ.find s = some sch → SEnv.find σ s = some (V s) ∧ g.symNames s = some (k s) ∧ k s < g.names ∧ lookup (k s) ρ = .ok (v s)) ∧
    ∀ s sch, Γ.find s = some sch → Rel M T (V s) (v s) := by
  have h' : ∀ s, ∃ x : SVal × Val × Name, ∀ sch, Γ.find s = some sch →
      (SEnv.find σ s = some x.1 ∧ g.symNames s = some x.2.2 ∧ x.2.2 < g.names ∧ lookup x.2.2 ρ = .ok x.2.1) ∧ Rel M T x.1 x.2.1 := by
    intro s
    cases hs : Γ.find s with
    | none => exact ⟨(.int 0, .int 0, 0), by simp⟩
    | some sch =>
      obtain ⟨V, v, k, h1, h2, h3, h4, h5⟩ := h s sch hs
      exact ⟨(V, v, k), fun _ _ => ⟨⟨h1, h2, h3, h4⟩, h5⟩⟩
  exact ⟨fun s => (h' s).choose.1, fun s => (h' s).choose.2.1, fun s => (h' s).choose.2.2, fun s sch hs => ((h' s).choose_spec sch hs).1,
    fun s sch hs => ((h' s).choose_spec sch hs).2⟩

theorem EnvRel.of {M T Γ g σ ρ} {V : Symbol → SVal} {v : Symbol → Val} {k : Symbol → Name}
    (h : ∀ s sch, Γ.find s = some sch → SEnv.find σ s = some (V s) ∧ g.symNames s = some (k s) ∧ k s < g.names ∧ lookup (k s) ρ = .ok (v s))
    (h' : ∀ s sch, Γ.find s = some sch → Rel M T (V s) (v s)) : EnvRel M T Γ g σ ρ := fun s sch hs =>
  ⟨V s, v s, k s, (h s sch hs).1, (h s sch hs).2.1, (h s sch hs).2.2.1, (h s sch hs).2.2.2, h' s sch hs⟩

theorem EnvRel.ext {M T Γ g g' σ ρ bs} (h : EnvRel M T Γ g σ ρ) (he : Ext bs g g') (hb : ∀ b ∈ bs, Γ.find b = none) : EnvRel M T Γ g' σ ρ := by
  intro s sch hs
  obtain ⟨V, v, k, h1, h2, h3, h4, h5⟩ := h s sch hs
  exact ⟨V, v, k, h1, by rw [he.sym s (fun hbs => by rw [hb s hbs] at hs; cases hs)]; exact h2, Nat.lt_of_lt_of_le h3 he.names, h4, h5⟩

theorem EnvRel.junk {M T Γ g σ ρ} (h : EnvRel M T Γ g σ ρ) {n x} (hn : g.names ≤ n) : EnvRel M T Γ g σ ((n, x) :: ρ) := by
  intro s sch hs
  obtain ⟨V, v, k, h1, h2, h3, h4, h5⟩ := h s sch hs
  refine ⟨V, v, k, h1, h2, h3, ?_, h5⟩
  have hne : n ≠ k := fun e => by subst e; exact absurd (Nat.lt_of_lt_of_le h3 hn) (Nat.lt_irrefl _)
  simp only [lookup, if_neg hne]
  exact h4

theorem EnvRel.add {M T Γ g σ ρ} (h : EnvRel M T Γ g σ ρ) {s sch V v} (hv : Rel M T V v) :
    EnvRel M T ((s, sch) :: Γ) (g.genName s).1 ((s, V) :: σ) ((g.names, v) :: ρ) := by
  intro x sc hx
  simp only [Ctx.find] at hx
  split at hx
  · rename_i hsx
    subst hsx
    exact ⟨V, v, g.names, by simp [SEnv.find], by simp [Gen.genName], Nat.lt_succ_self _, by simp [lookup], hv⟩
  · rename_i hne
    obtain ⟨V', v', k, h1, h2, h3, h4, h5⟩ := h.junk (x := v) (Nat.le_refl _) x sc hx
    exact ⟨V', v', k, by simp only [SEnv.find, if_neg hne]; exact h1, by simp only [Gen.genName]; rw [setAt_ne (Ne.symm hne)]; exact h2, Nat.lt_succ_of_lt h3, h4, h5⟩

theorem EnvRel.addAll {M T} : ∀ {pvs : List (Symbol × IrTy)} {Fs : List SVal} {fs : List Val} {Γ g σ ρ}, EnvRel M T Γ g σ ρ → fs.length = pvs.length →
    Fs.length = fs.length → (∀ (i : Nat) V v, Fs[i]? = some V → fs[i]? = some v → Rel M T V v) →
    EnvRel M T ((pvs.map fun p => (p.1, mono p.2)).reverse ++ Γ) (g.genNames (pvs.map (·.1))).1 (bindS σ (pvs.map (·.1)) Fs)
      (bindAll ρ (g.genNames (pvs.map (·.1))).2 fs)
  | [], Fs, fs, Γ, g, σ, ρ, h, hl, hl', hp => by
    have : fs = [] := List.eq_nil_of_length_eq_zero hl
    subst this
    simpa [Gen.genNames, bindAll, bindS] using h
  | p :: pvs, _, [], Γ, g, σ, ρ, h, hl, hl', hp => by simp at hl
  | p :: pvs, [], v :: fs, Γ, g, σ, ρ, h, hl, hl', hp => by simp at hl'
  | p :: pvs, V :: Fs, v :: fs, Γ, g, σ, ρ, h, hl, hl', hp => by
    have := EnvRel.addAll (pvs := pvs) (Fs := Fs) (fs := fs) (h.add (s := p.1) (sch := mono p.2) (hp 0 V v rfl rfl)) (by simpa using hl) (by simpa using hl')
      (fun i q w hq hw => hp (i + 1) q w (by simpa using hq) (by simpa using hw))
    simpa [Gen.genNames, Gen.genName, bindAll, bindS, List.append_assoc] using this

/-! ### Results -/

/-- What holds of the results of a run: nothing is said about panics and unfinished runs. -/
def Post {α : Type} (r : Res α) (Q : α → Prop) (E : String → Prop) : Prop :=
  match r with
  | .ok v => Q v
  | .trap m => E m
  | _ => True

theorem Post.bind {α β : Type} {r : Res α} {k : α → Res β} {Q E} (h : Post r (fun v => Post (k v) Q E) E) : Post (r.bind k) Q E := by
  cases r <;> exact h

theorem Post.mono {α : Type} {r : Res α} {Q Q' : α → Prop} {E E' : String → Prop} (h : Post r Q E) (hq : ∀ v, Q v → Q' v) (he : ∀ m, E m → E' m) :
    Post r Q' E' := by
  cases r
  · exact hq _ h
  · exact he _ h
  · trivial
  · trivial

theorem post_panic {α : Type} {Q : α → Prop} {E} : Post .panic Q E := trivial
theorem post_timeout {α : Type} {Q : α → Prop} {E} : Post .timeout Q E := trivial

theorem post_pis {ρ e Q E} : ∀ {vs : List TyVar} {k}, (∀ j, j ≤ k → Post (eval j ρ e) Q E) → Post (eval k ρ (pis vs e)) Q E
  | [], k, h => h k (Nat.le_refl _)
  | v :: vs, 0, h => trivial
  | v :: vs, k + 1, h => by
    simp only [pis, List.foldr_cons, eval_pi]
    exact post_pis (vs := vs) fun j hj => h j (by omega)

theorem post_piApps {ρ Q E} : ∀ {ts : List Ty} {e k}, (∀ j, Post (eval j ρ e) Q E) → Post (eval k ρ (piApps e ts)) Q E
  | [], _, k, h => h k
  | t :: ts, e, k, h => by
    simp only [piApps]
    refine post_piApps (ts := ts) fun j => ?_
    cases j with
    | zero => trivial
    | succ j => exact h j

theorem post_name {ρ x v} {Q : Val → Prop} {E} (h : lookup x ρ = .ok v) (hv : Q v) (j : Nat) : Post (eval j ρ (.name x)) Q E := by
  cases j with
  | zero => trivial
  | succ j => rw [eval_name, h]; exact hv

end Tic.Front
