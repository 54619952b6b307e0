import Verif.OptSpec
/-
Helper: a computable check for `WellNamed`, used to show that concrete programs
meet the hypotheses of the optimizer theorems.
-/
namespace Tic.Core

mutual
/-- Free variables as a list. -/
def fv : Expr → List Name
  | .bool _ => []
  | .int _ => []
  | .str _ => []
  | .name x => [x]
  | .call f xs => fv f ++ fvL xs
  | .ite c t e => fv c ++ fv t ++ fv e
  | .op a _ b => fv a ++ fv b
  | .intr _ xs => fvL xs
  | .lam ps b => (fv b).filter fun x => !(ps.map (·.1)).contains x
  | .mtch e bs => fv e ++ fvB bs
  | .con _ _ xs => fvL xs
  | .let_ n v e => fv v ++ (fv e).filter fun x => !(x == n)
  | .letrec n _ v e => (fv v ++ fv e).filter fun x => !(x == n)
  | .pi _ e => fv e
  | .piApp e _ => fv e
  | .trap _ _ => []
/-- ... of a list. -/
def fvL : List Expr → List Name
  | [] => []
  | e :: es => fv e ++ fvL es
/-- ... of branches. -/
def fvB : List Branch → List Name
  | [] => []
  | .mk _ ns e :: bs => ((fv e).filter fun x => !ns.contains x) ++ fvB bs
end

mutual
theorem mem_fv {x : Name} : ∀ {e : Expr}, x ∈ fv e ↔ Free x e
  | .bool _ => by simp [fv, Free]
  | .int _ => by simp [fv, Free]
  | .str _ => by simp [fv, Free]
  | .name y => by simp [fv, Free]
  | .call f xs => by simp [fv, Free, mem_fv (e := f), mem_fvL (es := xs)]
  | .ite c t e => by simp [fv, Free, mem_fv (e := c), mem_fv (e := t), mem_fv (e := e)]
  | .op a _ b => by simp [fv, Free, mem_fv (e := a), mem_fv (e := b)]
  | .intr _ xs => by simp [fv, Free, mem_fvL (es := xs)]
  | .lam ps b => by simp only [fv, Free, List.mem_filter, mem_fv (e := b)]; simp [and_comm]
  | .mtch e bs => by simp [fv, Free, mem_fv (e := e), mem_fvB (bs := bs)]
  | .con _ _ xs => by simp [fv, Free, mem_fvL (es := xs)]
  | .let_ n v e => by simp only [fv, Free, List.mem_append, List.mem_filter, mem_fv (e := v), mem_fv (e := e)]; simp [and_comm]
  | .letrec n _ v e => by simp only [fv, Free, List.mem_append, List.mem_filter, mem_fv (e := v), mem_fv (e := e)]; simp [and_comm]
  | .pi _ e => by simp [fv, Free, mem_fv (e := e)]
  | .piApp e _ => by simp [fv, Free, mem_fv (e := e)]
  | .trap _ _ => by simp [fv, Free]
theorem mem_fvL {x : Name} : ∀ {es : List Expr}, x ∈ fvL es ↔ FreeL x es
  | [] => by simp [fvL, FreeL]
  | e :: es => by simp [fvL, FreeL, mem_fv (e := e), mem_fvL (es := es)]
theorem mem_fvB {x : Name} : ∀ {bs : List Branch}, x ∈ fvB bs ↔ FreeB x bs
  | [] => by simp [fvB, FreeB]
  | .mk c ns e :: bs => by simp only [fvB, FreeB, List.mem_append, List.mem_filter, mem_fv (e := e), mem_fvB (bs := bs)]; simp [and_comm]
end

mutual
/-- Recursive definitions are functions. -/
def recB : Expr → Bool
  | .bool _ => true
  | .int _ => true
  | .str _ => true
  | .name _ => true
  | .call f xs => recB f && recBL xs
  | .ite c t e => recB c && recB t && recB e
  | .op a _ b => recB a && recB b
  | .intr _ xs => recBL xs
  | .lam _ b => recB b
  | .mtch e bs => decide (bs.map Branch.ctor).Nodup && recB e && recBB bs
  | .con _ _ xs => recBL xs
  | .let_ _ v e => recB v && recB e
  | .letrec _ _ v e => (recLam v).isSome && recB v && recB e
  | .pi _ e => recB e
  | .piApp e _ => recB e
  | .trap _ _ => true
/-- ... in a list. -/
def recBL : List Expr → Bool
  | [] => true
  | e :: es => recB e && recBL es
/-- ... in branches. -/
def recBB : List Branch → Bool
  | [] => true
  | .mk _ _ e :: bs => recB e && recBB bs
end

mutual
theorem recB_ok : ∀ {e : Expr}, recB e = true → WellShaped e
  | .bool _, _ => by rw [wellShaped_iff]; simp [children, NodeOK]
  | .int _, _ => by rw [wellShaped_iff]; simp [children, NodeOK]
  | .str _, _ => by rw [wellShaped_iff]; simp [children, NodeOK]
  | .name y, _ => by rw [wellShaped_iff]; simp [children, NodeOK]
  | .trap _ _, _ => by rw [wellShaped_iff]; simp [children, NodeOK]
  | .call f xs, h => by
    simp only [recB, Bool.and_eq_true] at h
    rw [wellShaped_iff]; simp only [children, NodeOK, true_and, List.mem_cons, forall_eq_or_imp, List.mem_map]
    exact ⟨recB_ok h.1, by rintro _ ⟨a, ha, rfl⟩; exact recBL_ok h.2 a ha⟩
  | .ite c t e, h => by
    simp only [recB, Bool.and_eq_true] at h
    rw [wellShaped_iff]; simp only [children, NodeOK, true_and, List.mem_cons, forall_eq_or_imp, List.not_mem_nil, false_implies, implies_true, and_true]
    exact ⟨recB_ok h.1.1, recB_ok h.1.2, recB_ok h.2⟩
  | .op a _ b, h => by
    simp only [recB, Bool.and_eq_true] at h
    rw [wellShaped_iff]; simp only [children, NodeOK, true_and, List.mem_cons, forall_eq_or_imp, List.not_mem_nil, false_implies, implies_true, and_true]
    exact ⟨recB_ok h.1, recB_ok h.2⟩
  | .intr _ xs, h => by
    simp only [recB] at h
    rw [wellShaped_iff]; simp only [children, NodeOK, true_and, List.mem_map]
    rintro _ ⟨a, ha, rfl⟩; exact recBL_ok h a ha
  | .lam ps b, h => by
    simp only [recB] at h
    rw [wellShaped_iff]; simp only [children, NodeOK, true_and, List.mem_cons, forall_eq_or_imp, List.not_mem_nil, false_implies, implies_true, and_true]
    exact recB_ok h
  | .mtch e bs, h => by
    simp only [recB, Bool.and_eq_true] at h
    rw [wellShaped_iff]; simp only [children, NodeOK, true_and, List.mem_cons, forall_eq_or_imp, List.mem_map]
    exact ⟨of_decide_eq_true h.1.1, recB_ok h.1.2, by rintro _ ⟨a, ha, rfl⟩; exact recBB_ok h.2 a ha⟩
  | .con _ _ xs, h => by
    simp only [recB] at h
    rw [wellShaped_iff]; simp only [children, NodeOK, true_and, List.mem_map]
    rintro _ ⟨a, ha, rfl⟩; exact recBL_ok h a ha
  | .let_ n v e, h => by
    simp only [recB, Bool.and_eq_true] at h
    rw [wellShaped_iff]; simp only [children, NodeOK, true_and, List.mem_cons, forall_eq_or_imp, List.not_mem_nil, false_implies, implies_true, and_true]
    exact ⟨recB_ok h.1, recB_ok h.2⟩
  | .letrec n t v e, h => by
    simp only [recB, Bool.and_eq_true] at h
    rw [wellShaped_iff]; simp only [children, NodeOK, List.mem_cons, forall_eq_or_imp, List.not_mem_nil, false_implies, implies_true, and_true]
    exact ⟨h.1.1, recB_ok h.1.2, recB_ok h.2⟩
  | .pi _ e, h => by
    simp only [recB] at h
    rw [wellShaped_iff]; simp only [children, NodeOK, true_and, List.mem_cons, forall_eq_or_imp, List.not_mem_nil, false_implies, implies_true, and_true]
    exact recB_ok h
  | .piApp e _, h => by
    simp only [recB] at h
    rw [wellShaped_iff]; simp only [children, NodeOK, true_and, List.mem_cons, forall_eq_or_imp, List.not_mem_nil, false_implies, implies_true, and_true]
    exact recB_ok h
theorem recBL_ok : ∀ {es : List Expr}, recBL es = true → ∀ e ∈ es, WellShaped e
  | [], _ => by simp
  | e :: es, h => by
    simp only [recBL, Bool.and_eq_true] at h
    have h1 := recB_ok (e := e) h.1
    have h2 := recBL_ok h.2
    intro a ha
    rcases List.mem_cons.1 ha with rfl | ha
    · exact h1
    · exact h2 a ha
theorem recBB_ok : ∀ {bs : List Branch}, recBB bs = true → ∀ b ∈ bs, WellShaped b.body
  | [], _ => by simp
  | .mk c ns e :: bs, h => by
    simp only [recBB, Bool.and_eq_true] at h
    have h1 := recB_ok (e := e) h.1
    have h2 := recBB_ok h.2
    intro a ha
    rcases List.mem_cons.1 ha with rfl | ha
    · exact h1
    · exact h2 a ha
end

/-- Scoping of definitions after the names `X`. -/
def scopeB (X : List Name) : List ValueDef → Bool
  | [] => true
  | d :: ds => (fv d.value).all X.contains && scopeB (d.name :: X) ds

/-- The check. -/
def wnB (p : Program) : Bool :=
  decide (p.defs.flatMap fun d => d.name :: binders d.value).Nodup && scopeB [] p.defs && p.defs.all fun d => recB d.value

theorem scopeB_ok : ∀ {ds : List ValueDef} {X : List Name}, scopeB X ds = true →
    ∀ pre d post, ds = pre ++ d :: post → ∀ x, Free x d.value → x ∈ pre.map (·.name) ++ X
  | [], X, _, pre, d, post, h, x, hx => by simp at h
  | d :: ds, X, h, pre, d', post, he, x, hx => by
    simp only [scopeB, Bool.and_eq_true] at h
    cases pre with
    | nil =>
      simp only [List.nil_append, List.cons.injEq] at he
      obtain ⟨rfl, rfl⟩ := he
      have := List.all_eq_true.1 h.1 x (mem_fv.2 hx)
      simpa using this
    | cons a pre =>
      simp only [List.cons_append, List.cons.injEq] at he
      obtain ⟨rfl, he⟩ := he
      have := scopeB_ok h.2 pre d' post he x hx
      simp at this ⊢
      rcases this with h | h | h
      · exact .inr (.inl h)
      · exact .inl h
      · exact .inr (.inr h)

theorem wnB_ok {p : Program} (h : wnB p = true) : WellNamed p := by
  simp only [wnB, Bool.and_eq_true, decide_eq_true_eq] at h
  refine ⟨h.1.1, fun pre d post he x hx => ?_, fun d hd => ?_⟩
  · simpa using scopeB_ok h.1.2 pre d post he x hx
  · exact recB_ok (List.all_eq_true.1 h.2 d hd)

end Tic.Core
