import Verif.ReduceOK
/-
Helper: congruence of the logical relation with respect to an arbitrary invariant
between environments, used for passes that substitute expressions for names.
-/
namespace Tic.Core

/-- `(ρ2, ρ2')` extends `(ρ, ρ')` by related values for the names `ns`. -/
structure Ext (s : Mode) (j : Nat) (ns : List Name) (ρ ρ' ρ2 ρ2' : Env) : Prop where
  old : ∀ y, y ∉ ns → lookup y ρ2 = lookup y ρ
  old' : ∀ y, y ∉ ns → lookup y ρ2' = lookup y ρ'
  new : ∀ y, y ∈ ns → LookRel s j ρ2 ρ2' y

/-- Environment invariants: `J X k ρ ρ'`, closed under extension by names satisfying `C`. -/
structure EnvInv (s : Mode) (C : Name → Prop) (J : List Name → Nat → Env → Env → Prop) : Prop where
  ext : ∀ {X k ρ ρ' j ns ρ2 ρ2'}, J X k ρ ρ' → j ≤ k → (∀ y ∈ ns, C y) → Ext s j ns ρ ρ' ρ2 ρ2' → J (ns ++ X) j ρ2 ρ2'

variable {s : Mode} {C : Name → Prop} {J : List Name → Nat → Env → Env → Prop} {X : List Name}

theorem EnvInv.mono (hJ : EnvInv s C J) {k j : Nat} (hj : j ≤ k) {ρ ρ' : Env} (h : J X k ρ ρ') : J X j ρ ρ' :=
  hJ.ext (ns := []) h hj (by simp) ⟨fun _ _ => rfl, fun _ _ => rfl, by simp⟩

theorem lookup_bindAll_notMem {y : Name} : ∀ {ps : List Name} {vs : List Val} {ρ : Env}, y ∉ ps → lookup y (bindAll ρ ps vs) = lookup y ρ
  | [], _, _, _ => by simp [bindAll]
  | p :: ps, [], _, _ => by simp [bindAll]
  | p :: ps, v :: vs, ρ, h => by
    simp only [List.mem_cons, not_or] at h
    rw [bindAll, lookup_bindAll_notMem h.2]
    simp [lookup, Ne.symm h.1]

theorem Ext.bindAll {j : Nat} {ρ ρ' : Env} {ps : List Name} {vs vs' : List Val} (hv : Vs s j vs vs') (hl : ps.length = vs.length) :
    Ext s j ps ρ ρ' (bindAll ρ ps vs) (bindAll ρ' ps vs') :=
  ⟨fun _ hy => lookup_bindAll_notMem hy, fun _ hy => lookup_bindAll_notMem hy, fun _ hy => LookRel.bindAll hv hl fun h => absurd hy h⟩

theorem Ext.cons {j : Nat} {ρ ρ' ρ2 ρ2' : Env} {ns : List Name} (h : Ext s j ns ρ ρ' ρ2 ρ2') {y : Name} {v v' : Val} (hv : V s j v v') :
    Ext s j (ns ++ [y]) ρ ρ' ((y, v) :: ρ2) ((y, v') :: ρ2') := by
  refine ⟨fun z hz => ?_, fun z hz => ?_, fun z hz => LookRel.cons hv fun hne => h.new z ?_⟩
  · simp only [List.mem_append, List.mem_singleton, not_or] at hz
    rw [lookup, if_neg (Ne.symm hz.2), h.old z hz.1]
  · simp only [List.mem_append, List.mem_singleton, not_or] at hz
    rw [lookup, if_neg (Ne.symm hz.2), h.old' z hz.1]
  · simp only [List.mem_append, List.mem_singleton] at hz
    exact hz.resolve_right hne

theorem Ext.one {j : Nat} {ρ ρ' : Env} {y : Name} {v v' : Val} (hv : V s j v v') :
    Ext s j [y] ρ ρ' ((y, v) :: ρ) ((y, v') :: ρ') :=
  Ext.cons (ns := []) ⟨fun _ _ => rfl, fun _ _ => rfl, by simp⟩ hv

/-- `e'` matches `e` in all environments satisfying the invariant. -/
def LeJ (s : Mode) (J : List Name → Nat → Env → Env → Prop) (X : List Name) (e e' : Expr) : Prop :=
  ∀ k ρ ρ', J X k ρ ρ' → RelD s k ρ e ρ' e'

theorem leJ_let (hJ : EnvInv s C J) {n : Name} (hn : C n) {v v' e e' : Expr} (hv : LeJ s J X v v') (he : LeJ s J (n :: X) e e') :
    LeJ s J X (.let_ n v e) (.let_ n v' e') := by
  intro k ρ ρ' hρ
  exact rel_let (hv k ρ ρ' hρ) fun j hj w w' hw => he j _ _ (hJ.ext (ns := [n]) hρ hj (by simpa using hn) (Ext.one hw))

theorem leJ_lam (hJ : EnvInv s C J) {ps ps' : List (Name × Ty)} {b b' : Expr} (hp : ps.map (·.1) = ps'.map (·.1))
    (hc : ∀ y ∈ ps.map (·.1), C y) (h : LeJ s J (ps.map (·.1) ++ X) b b') : LeJ s J X (.lam ps b) (.lam ps' b') := by
  intro k ρ ρ' hρ
  have hl : ps.length = ps'.length := by have := congrArg List.length hp; simpa using this
  refine rel_lam hl fun j hj vs vs' hv hl => ?_
  rw [← hp]
  exact h j _ _ (hJ.ext hρ (by omega) hc (Ext.bindAll hv (by simpa using hl)))

theorem leJ_letrec (hJ : EnvInv s C J) {n : Name} {t t' : Ty} {v v' e e' : Expr} {ps : List Name} {b b' : Expr}
    (h1 : recLam v = some (ps, b)) (h2 : recLam v' = some (ps, b')) (hn : C n) (hps : ∀ y ∈ ps, C y)
    (h3 : LeJ s J (ps ++ n :: X) b b') (he : LeJ s J (n :: X) e e') :
    LeJ s J X (.letrec n t v e) (.letrec n t' v' e') := by
  intro k ρ ρ' hρ
  refine rel_letrec (.inr ?_)
  have hV : ∀ j, j ≤ k → V s j (.rclo ρ n ps b) (.rclo ρ' n ps b') := by
    intro j hj
    refine FR_rclo rfl fun i hi hself vs vs' hvs hl => ?_
    have h4 := hJ.ext (ns := ps ++ [n]) hρ (show i ≤ k by omega) (fun y hy => by
      rcases List.mem_append.1 hy with h | h
      · exact hps y h
      · rw [List.mem_singleton.1 h]; exact hn) ((Ext.bindAll (ρ := ρ) (ρ' := ρ') hvs hl).cons hself)
    rw [List.append_assoc] at h4
    exact h3 i _ _ h4
  exact ⟨ps, b, ps, b', h1, h2, hV, he k _ _ (hJ.ext (ns := [n]) hρ (Nat.le_refl _) (by simpa using hn) (Ext.one (hV k (Nat.le_refl _))))⟩

theorem leJ_mtch (hJ : EnvInv s C J) {e e' : Expr} {bs bs' : List Branch} (he : LeJ s J X e e')
    (h : All2 (fun b b' => b.ctor = b'.ctor ∧ b.binds = b'.binds ∧ (∀ y ∈ b.binds, C y) ∧ LeJ s J (b.binds ++ X) b.body b'.body) bs bs') :
    LeJ s J X (.mtch e bs) (.mtch e' bs') := by
  intro k ρ ρ' hρ
  refine rel_mtch (he k ρ ρ' hρ) (relBr_all2 (h.imp ?_))
  rintro b b' ⟨h1, h2, hc, h3⟩
  refine ⟨h1, by rw [h2], fun j hj fs fs' hf hl => ?_⟩
  rw [← h2]
  exact h3 j _ _ (hJ.ext hρ hj hc (Ext.bindAll hf hl))

/-- Rewriting the immediate subexpressions under an environment invariant. -/
theorem leJ_mapSub (hJ : EnvInv s C J) {g g' : Expr → Expr} {e : Expr} (hn : ∀ x, e = .name x → LeJ s J X (.name x) (.name x))
    (hC : ∀ y ∈ own e, C y)
    (hc : ∀ c ∈ children e, LeJ s J (c.1 ++ X) (g c.2) (g' c.2))
    (hrec : ∀ n t v b, e = .letrec n t v b → ∃ ps b b', recLam (g v) = some (ps, b) ∧ recLam (g' v) = some (ps, b') ∧
      (∀ y ∈ ps, C y) ∧ LeJ s J (ps ++ n :: X) b b') :
    LeJ s J X (mapSub g e) (mapSub g' e) := by
  have hL : ∀ (xs : List Expr), (∀ c ∈ xs.map (fun x => (([] : List Name), x)), LeJ s J (c.1 ++ X) (g c.2) (g' c.2)) →
      ∀ k ρ ρ', J X k ρ ρ' → All2 (fun e e' => RelD s k ρ e ρ' e') (xs.map g) (xs.map g') := by
    intro xs hx k ρ ρ' hρ
    refine All2.of_map (All2.self fun x hm => ?_)
    exact hx ([], x) (List.mem_map.2 ⟨x, hm, rfl⟩) k ρ ρ' hρ
  cases e <;> simp only [children, List.mem_cons, List.not_mem_nil, or_false, forall_eq_or_imp, forall_eq, List.nil_append] at hc <;>
    simp only [mapSub]
  case bool b => exact fun _ _ _ _ => rel_bool b
  case int b => exact fun _ _ _ _ => rel_int b
  case str b => exact fun _ _ _ _ => rel_str b
  case name x => exact hn x rfl
  case trap m t => exact fun _ _ _ _ => rel_trap m t t
  case call f xs => exact fun k ρ ρ' hρ => rel_call (hc.1 k ρ ρ' hρ) (hL xs hc.2 k ρ ρ' hρ)
  case ite a b c => exact fun k ρ ρ' hρ => rel_ite (hc.1 k ρ ρ' hρ) (hc.2.1 k ρ ρ' hρ) (hc.2.2 k ρ ρ' hρ)
  case op a o b => exact fun k ρ ρ' hρ => rel_op (hc.1 k ρ ρ' hρ) (hc.2 k ρ ρ' hρ)
  case intr i xs => exact fun k ρ ρ' hρ => rel_intr (hL xs hc k ρ ρ' hρ)
  case con c ts xs => exact fun k ρ ρ' hρ => rel_con (hL xs hc k ρ ρ' hρ)
  case lam ps b => exact leJ_lam hJ rfl hC hc
  case mtch e bs =>
    refine leJ_mtch hJ hc.1 (All2.of_map (All2.self fun b hb => ⟨rfl, rfl, fun y hy => hC y ?_, ?_⟩))
    · simp only [own, List.mem_flatMap]; exact ⟨b, hb, hy⟩
    · exact hc.2 (b.binds, b.body) (List.mem_map.2 ⟨b, hb, rfl⟩)
  case let_ n v e => exact leJ_let hJ (hC n (by simp [own])) hc.1 hc.2
  case letrec n t v e =>
    obtain ⟨ps, b, b', h1, h2, h3, h4⟩ := hrec n t v e rfl
    exact leJ_letrec hJ h1 h2 (hC n (by simp [own])) h3 h4 hc.2
  case pi v e => exact fun k ρ ρ' hρ => rel_pi (hc k ρ ρ' hρ)
  case piApp e t => exact fun k ρ ρ' hρ => rel_piApp (hc k ρ ρ' hρ)

end Tic.Core
