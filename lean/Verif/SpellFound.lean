/-
In an item without errors every name is a definition, a use of something that was brought in, or part of a name `m.x`.
-/
import Verif.SpellShow

namespace Tic.Spell

open Tic.Resolve

/-! ### Names around a dot -/

/-- The names of `m.x`. -/
def dots : Option Name → Option Name → List Name
  | some ns, n => ns :: n.toList
  | none, _ => []

mutual
def dotTy : Ty → List Name
  | .fn a b => dotTy a ++ dotTy b
  | .named ns name args => dots ns name ++ dotTys args
  | .paren t => dotTy t
  | _ => []
def dotTys : Tys → List Name
  | .nil => []
  | .cons t ts => dotTy t ++ dotTys ts
end

def dotAnn : Option Ty → List Name
  | some t => dotTy t
  | none => []

mutual
def dotExpr : Expr → List Name
  | .nsName ns n => ns.toList ++ n.toList
  | .apply f a => dotExpr f ++ dotExpr a
  | .binary f a => dotExpr f ++ dotExpr a
  | .letE _ ty v r => dotAnn ty ++ (dotExpr v ++ dotExpr r)
  | .matchE d cs => dotExpr d ++ dotCases cs
  | .ifE c t e => dotExpr c ++ (dotExpr t ++ dotExpr e)
  | .lambda _ b => dotExpr b
  | .paren e => dotExpr e
  | _ => []
def dotCases : Cases → List Name
  | .nil => []
  | .cons ns ctor _ body rest => dots ns ctor ++ (dotExpr body ++ dotCases rest)
end

def dotField : FieldSyntax → List Name
  | .recur => []
  | .type t => dotTy t

/-- The names around dots in an item: `m` and `x` in `m.x`. -/
def dotItem : Item → List Name
  | .importI .. => []
  | .typeI _ _ _ _ _ cases => cases.flatMap fun c => c.fields.flatMap dotField
  | .valueI _ _ ty v => dotAnn ty ++ dotExpr v

/-! ### What is recorded -/

section
-- `B t`: something that can be found.
variable (B : Target → Prop)

/-- Recorded as the place of a definition or as a use of something that can be found. -/
def Recorded (o : SOut) (n : Name) : Prop := (∃ d ∈ o.defs, d.node = n.node) ∨ ∃ r ∈ o.refs, r.2 = n.node ∧ B r.1

/-- What is in scope can be found. -/
def Brought (env : Env) : Prop := (∀ m, B (.here m)) ∧ ∀ ns x t, Binding.sym ns x t ∈ env → B t

variable {B}

theorem Recorded.left {a b : SOut} {n} : Recorded B a n → Recorded B (a ++ b) n
  | .inl ⟨d, h, e⟩ => .inl ⟨d, List.mem_append_left _ h, e⟩
  | .inr ⟨d, h, e⟩ => .inr ⟨d, List.mem_append_left _ h, e⟩
theorem Recorded.right {a b : SOut} {n} : Recorded B b n → Recorded B (a ++ b) n
  | .inl ⟨d, h, e⟩ => .inl ⟨d, List.mem_append_right _ h, e⟩
  | .inr ⟨d, h, e⟩ => .inr ⟨d, List.mem_append_right _ h, e⟩

theorem errs_append {a b : SOut} (h : (a ++ b).errs = []) : a.errs = [] ∧ b.errs = [] := List.append_eq_nil_iff.1 h

variable (B) in
/-- All are recorded, or names around dots. -/
def Knowns (o : SOut) (q ns : List Name) : Prop := ∀ n ∈ ns, Recorded B o n ∨ n ∈ q

theorem Knowns.append {a b : SOut} {q q' ns ns'} (h : Knowns B a q ns) (h' : Knowns B b q' ns') : Knowns B (a ++ b) (q ++ q') (ns ++ ns') := by
  intro n hn
  rcases List.mem_append.1 hn with hn | hn
  · exact (h n hn).imp .left fun h => List.mem_append_left _ h
  · exact (h' n hn).imp .right fun h => List.mem_append_right _ h

theorem Knowns.nil {o q} : Knowns B o q [] := fun n hn => nomatch hn
theorem Knowns.dots {o} {q : List Name} : Knowns B o q q := fun _ hn => .inr hn
theorem Knowns.one {o n} (h : Recorded B o n) : Knowns B o [] [n] := fun m hm => by rw [List.mem_singleton.1 hm]; exact .inl h
theorem Knowns.left {a b : SOut} {q ns} (h : Knowns B a q ns) : Knowns B (a ++ b) q ns := fun n hn => (h n hn).imp .left id
theorem Knowns.right {a b : SOut} {q ns} (h : Knowns B b q ns) : Knowns B (a ++ b) q ns := fun n hn => (h n hn).imp .right id

theorem find_brought {ns x} : ∀ {env : Env} {t}, Brought B env → env.find ns x = some t → B t
  | .sym ns' y t' :: env, t, hb, h => by
    rw [Env.find] at h
    split at h
    · cases h; exact hb.2 _ _ _ (List.mem_cons_self ..)
    · exact find_brought (env := env) ⟨hb.1, fun ns x t h => hb.2 ns x t (List.mem_cons_of_mem _ h)⟩ h
  | .mod _ _ :: env, t, hb, h => find_brought (env := env) ⟨hb.1, fun ns x t h => hb.2 ns x t (List.mem_cons_of_mem _ h)⟩ h

theorem brought_here {env : Env} {ns x m} (h : Brought B env) : Brought B (.sym ns x (.here m) :: env) := by
  refine ⟨h.1, fun ns' y t ht => ?_⟩
  rcases List.mem_cons.1 ht with e | ht
  · cases e; exact h.1 m
  · exact h.2 _ _ _ ht

theorem useName_known {ns undef} {env : Env} {n} (hb : Brought B env) (h : (useName ns undef env n).2.errs = []) : Recorded B (useName ns undef env n).2 n := by
  unfold useName at *
  split
  · rename_i e; exact .inr ⟨_, List.mem_singleton.2 rfl, rfl, find_brought hb e⟩
  · rename_i e; rw [e] at h; cases h

/-! ### Types -/

mutual
theorem ty_known {env : Env} (hb : Brought B env) : ∀ t, (specTy env t).2.errs = [] → Knowns B (specTy env t).2 (dotTy t) (namesTy t)
  | .int, _ => .nil
  | .bool, _ => .nil
  | .string, _ => .nil
  | .missing, _ => .nil
  | .fn a b, h => by
    rw [specTy] at h ⊢
    obtain ⟨h1, h2⟩ := errs_append h
    exact (ty_known hb a h1).append (ty_known hb b h2)
  | .paren t, h => by
    rw [specTy] at h ⊢
    exact ty_known hb t h
  | .named (some ns) (some n) args, h => by
    rw [specTy] at h ⊢
    obtain ⟨h1, h2⟩ := errs_append h
    exact Knowns.append (ns := [ns, n]) .dots (tys_known hb args h2)
  | .named none (some n) args, h => by
    rw [specTy] at h ⊢
    obtain ⟨h1, h2⟩ := errs_append h
    exact Knowns.append (q := []) (ns := [n]) (.one (useName_known hb h1)) (tys_known hb args h2)
  | .named none none args, h => by
    rw [specTy] at h ⊢
    obtain ⟨h1, h2⟩ := errs_append h
    exact Knowns.append (q := []) (ns := []) .nil (tys_known hb args h2)
  | .named (some ns) none args, h => by
    rw [specTy] at h ⊢
    obtain ⟨h1, h2⟩ := errs_append h
    exact Knowns.append (ns := [ns]) .dots (tys_known hb args h2)
theorem tys_known {env : Env} (hb : Brought B env) : ∀ ts, (specTys env ts).2.errs = [] → Knowns B (specTys env ts).2 (dotTys ts) (namesTys ts)
  | .nil, _ => .nil
  | .cons t ts, h => by
    rw [specTys] at h ⊢
    obtain ⟨h1, h2⟩ := errs_append h
    exact (ty_known hb t h1).append (tys_known hb ts h2)
end

theorem useTyVar_known {env : Env} {n b} (hb : Brought B env) (h : (useTyVar env n b).2.2.2.errs = []) :
    Recorded B (useTyVar env n b).2.2.2 n ∧ Brought B (useTyVar env n b).2.1 := by
  unfold useTyVar at *
  split
  · rename_i e; exact ⟨.inr ⟨_, List.mem_singleton.2 rfl, rfl, find_brought hb e⟩, hb⟩
  rename_i e
  rw [e] at h
  simp only at h
  split
  · exact ⟨.inl ⟨_, List.mem_singleton.2 rfl, rfl⟩, brought_here hb⟩
  · rename_i e; rw [if_neg e] at h; cases h

mutual
theorem tyV_known : ∀ (t : Ty) {env : Env}, Brought B env → (specTyV env t).out.errs = [] →
    Knowns B (specTyV env t).out (dotTy t) (namesTy t) ∧ Brought B (specTyV env t).env
  | .int, _, hb, _ => ⟨.nil, hb⟩
  | .bool, _, hb, _ => ⟨.nil, hb⟩
  | .string, _, hb, _ => ⟨.nil, hb⟩
  | .missing, _, hb, _ => ⟨.nil, hb⟩
  | .fn a b, env, hb, h => by
    rw [specTyV] at h ⊢
    obtain ⟨h1, h2⟩ := errs_append h
    obtain ⟨a1, a2⟩ := tyV_known a hb h1
    obtain ⟨b1, b2⟩ := tyV_known b a2 h2
    exact ⟨a1.append b1, b2⟩
  | .paren t, env, hb, h => by
    rw [specTyV] at h ⊢
    exact tyV_known t hb h
  | .named (some ns) (some n) args, env, hb, h => by
    rw [specTyV] at h ⊢
    obtain ⟨h1, h2⟩ := errs_append h
    obtain ⟨h3, h4⟩ := tysV_known args hb h2
    exact ⟨Knowns.append (ns := [ns, n]) .dots h3, h4⟩
  | .named none (some n) args, env, hb, h => by
    rw [specTyV] at h ⊢
    obtain ⟨h1, h2⟩ := errs_append h
    obtain ⟨k1, k2⟩ := useTyVar_known hb h1
    obtain ⟨h3, h4⟩ := tysV_known args k2 h2
    exact ⟨Knowns.append (q := []) (ns := [n]) (.one k1) h3, h4⟩
  | .named none none args, env, hb, h => by
    rw [specTyV] at h ⊢
    obtain ⟨h1, h2⟩ := errs_append h
    obtain ⟨h3, h4⟩ := tysV_known args hb h2
    exact ⟨Knowns.append (q := []) (ns := []) .nil h3, h4⟩
  | .named (some ns) none args, env, hb, h => by
    rw [specTyV] at h ⊢
    obtain ⟨h1, h2⟩ := errs_append h
    obtain ⟨h3, h4⟩ := tysV_known args hb h2
    exact ⟨Knowns.append (ns := [ns]) .dots h3, h4⟩
theorem tysV_known : ∀ (ts : Tys) {env : Env}, Brought B env → (specTysV env ts).out.errs = [] →
    Knowns B (specTysV env ts).out (dotTys ts) (namesTys ts) ∧ Brought B (specTysV env ts).env
  | .nil, _, hb, _ => ⟨.nil, hb⟩
  | .cons a b, env, hb, h => by
    rw [specTysV] at h ⊢
    obtain ⟨h1, h2⟩ := errs_append h
    obtain ⟨a1, a2⟩ := tyV_known a hb h1
    obtain ⟨b1, b2⟩ := tysV_known b a2 h2
    exact ⟨a1.append b1, b2⟩
end

theorem ann_known {t : Option Ty} {env : Env} (hb : Brought B env) (h : (specAnn env t).out.errs = []) :
    Knowns B (specAnn env t).out (dotAnn t) (namesAnn t) ∧ Brought B (specAnn env t).env := by
  cases t with
  | none => exact ⟨.nil, hb⟩
  | some t => exact tyV_known t hb h

/-! ### Expressions -/

theorem oDef_known {n k v} : Knowns B (oDef n k v) [] [n] := .one (.inl ⟨_, List.mem_singleton.2 rfl, rfl⟩)

theorem vars_known : ∀ ns, Knowns B (oVars ns) [] ns
  | [] => .nil
  | n :: ns => (oDef_known (n := n)).append (vars_known ns)

theorem values_brought : ∀ {ns : List Name} {env : Env}, Brought B env → Brought B (env.values ns)
  | [], _, h => h
  | _ :: ns, _, h => values_brought (ns := ns) (brought_here h)

theorem ctor_known {env : Env} {ns ctor} (hb : Brought B env) (h : (specCtor env ns ctor).errs = []) :
    Knowns B (specCtor env ns ctor) (dots ns ctor) (ns.toList ++ ctor.toList) := by
  match ns, ctor, h with
  | some ns, some n, h => exact .dots
  | none, some n, h => exact .one (useName_known hb h)
  | none, none, _ => exact .nil
  | some ns, none, _ => exact .dots

mutual
theorem expr_known : ∀ (e : Expr) {env : Env}, Brought B env → (specExpr env e).errs = [] → Knowns B (specExpr env e) (dotExpr e) (namesExpr e)
  | .name (some n), env, hb, h => by
    rw [specExpr] at h ⊢
    exact .one (useName_known hb h)
  | .name none, _, _, _ => .nil
  | .nsName ns n, _, _, _ => .dots
  | .apply f a, env, hb, h => by
    rw [specExpr] at h ⊢
    obtain ⟨h1, h2⟩ := errs_append h
    exact (expr_known f hb h1).append (expr_known a hb h2)
  | .binary f a, env, hb, h => by
    rw [specExpr] at h ⊢
    obtain ⟨h1, h2⟩ := errs_append h
    exact (expr_known f hb h1).append (expr_known a hb h2)
  | .letE (some n) ty v r, env, hb, h => by
    rw [specExpr] at h ⊢
    obtain ⟨h1, h⟩ := errs_append h
    obtain ⟨h2, h⟩ := errs_append h
    obtain ⟨h3, h4⟩ := errs_append h
    obtain ⟨a1, a2⟩ := ann_known hb h1
    have b1 := expr_known v a2 h2
    have c1 := expr_known r (brought_here hb) h4
    intro m hm
    rw [namesExpr, Option.toList_some, List.singleton_append, List.mem_cons] at hm
    rcases hm with rfl | hm
    · exact .inl (.right (.right (.left (.inl ⟨_, List.mem_singleton.2 rfl, rfl⟩))))
    · exact a1.append (b1.append (Knowns.right c1)) m hm
  | .letE none ty v r, env, hb, h => by
    rw [specExpr] at h ⊢
    obtain ⟨h1, h⟩ := errs_append h
    obtain ⟨h2, h4⟩ := errs_append h
    obtain ⟨a1, a2⟩ := ann_known hb h1
    have b1 := expr_known v a2 h2
    exact a1.append (b1.append (expr_known r hb h4))
  | .matchE d cs, env, hb, h => by
    rw [specExpr] at h ⊢
    obtain ⟨h1, h2⟩ := errs_append h
    exact (expr_known d hb h1).append (cases_known cs hb h2)
  | .ifE c t e, env, hb, h => by
    rw [specExpr] at h ⊢
    obtain ⟨h1, h⟩ := errs_append h
    obtain ⟨h2, h3⟩ := errs_append h
    exact (expr_known c hb h1).append ((expr_known t hb h2).append (expr_known e hb h3))
  | .literal, _, _, _ => .nil
  | .hole, _, _, _ => .nil
  | .missing, _, _, _ => .nil
  | .lambda (some n) b, env, hb, h => by
    rw [specExpr] at h ⊢
    obtain ⟨h1, h2⟩ := errs_append h
    exact oDef_known.append (expr_known b (brought_here hb) h2)
  | .lambda none b, env, hb, h => by
    rw [specExpr] at h ⊢
    exact expr_known b hb h
  | .paren e, env, hb, h => by
    rw [specExpr] at h ⊢
    exact expr_known e hb h
theorem cases_known : ∀ (cs : Cases) {env : Env}, Brought B env → (specCases env cs).errs = [] → Knowns B (specCases env cs) (dotCases cs) (namesCases cs)
  | .nil, _, _, _ => .nil
  | .cons ns ctor vars body rest, env, hb, h => by
    rw [specCases] at h ⊢
    obtain ⟨h1, h⟩ := errs_append h
    obtain ⟨h2, h⟩ := errs_append h
    obtain ⟨h3, h4⟩ := errs_append h
    show Knowns _ _ _ (ns.toList ++ (ctor.toList ++ (vars ++ (namesExpr body ++ namesCases rest))))
    rw [← List.append_assoc]
    exact (ctor_known hb h1).append ((vars_known vars).append ((expr_known body (values_brought hb) h3).append (cases_known rest hb h4)))
end

/-! ### Items -/

theorem params_known : ∀ ns, Knowns B (oParams ns) [] ns
  | [] => .nil
  | n :: ns => (oDef_known (n := n)).append (params_known ns)

theorem params_brought : ∀ {ns : List Name} {env : Env}, Brought B env → Brought B (env.params ns)
  | [], _, h => h
  | _ :: ns, _, h => params_brought (ns := ns) (brought_here h)

theorem fields_known {env : Env} (hb : Brought B env) : ∀ {fs : List FieldSyntax}, (specFields env fs).2.errs = [] →
    Knowns B (specFields env fs).2 (fs.flatMap dotField) (fs.flatMap namesField)
  | [], _ => .nil
  | .recur :: fs, h => fields_known hb (fs := fs) h
  | .type t :: fs, h => by
    obtain ⟨h1, h2⟩ := errs_append h
    exact (ty_known hb t h1).append (fields_known hb h2)

theorem typeCases_known {env : Env} (hb : Brought B env) {ty ps vis} : ∀ {cs : List CaseSyntax} {names : List String},
    (specTypeCases env ty ps vis cs names).2.errs = [] → Knowns B (specTypeCases env ty ps vis cs names).2
      (cs.flatMap fun c => c.fields.flatMap dotField) (cs.flatMap fun c => c.name.toList ++ c.fields.flatMap namesField)
  | [], _, _ => .nil
  | c :: cs, names, h => by
    rw [List.flatMap_cons, List.flatMap_cons]
    rw [specTypeCases] at h ⊢
    cases hn : c.name with
    | none =>
      simp only [hn] at h ⊢
      obtain ⟨h1, h2⟩ := errs_append h
      exact (fields_known hb h1).append (typeCases_known hb h2)
    | some n =>
      simp only [hn] at h ⊢
      split at h
      · obtain ⟨-, h⟩ := errs_append h
        obtain ⟨h, -⟩ := errs_append h
        cases h
      rename_i hne
      rw [if_neg hne]
      obtain ⟨h1, h⟩ := errs_append h
      obtain ⟨-, h2⟩ := errs_append h
      have a := fields_known hb h1
      have b := typeCases_known hb h2
      intro m hm
      rw [Option.toList_some, List.append_assoc, List.singleton_append, List.mem_cons] at hm
      rcases hm with rfl | hm
      · exact .inl (.right (.left (.inl ⟨_, List.mem_singleton.2 rfl, rfl⟩)))
      · exact a.append (Knowns.right b) m hm

theorem expose_known {unit : List (Export Target)} : ∀ {ns : List Name}, (specExpose unit ns).errs = [] → Knowns B (specExpose unit ns) [] ns
  | [], _ => .nil
  | n :: ns, h => by
    rw [specExpose] at h ⊢
    obtain ⟨h1, h2⟩ := errs_append h
    refine Knowns.append (q := []) (ns := [n]) (fun m hm => ?_) (expose_known h2)
    rw [List.mem_singleton.1 hm]
    split at h1
    · cases h1
    rename_i hne
    rw [if_neg hne]
    obtain ⟨d, ds, e⟩ := List.exists_cons_of_ne_nil hne
    have hd : d ∈ exposedDefs unit n := by rw [e]; simp
    refine .inl (.inl ⟨d, hd, ?_⟩)
    obtain ⟨_, _, hd⟩ := List.mem_filterMap.1 hd
    obtain ⟨_, _, rfl⟩ := Option.map_eq_some_iff.1 hd
    rfl

/-- In an item whose syntax is complete and which has no scope errors, every name is recorded, or is part of a name `m.x`. -/
theorem item_known {me : Nat} {env : Env} {i : Item} (hb : Brought B env) (hw : WholeItem i) (h : (specItem me env i).errs = []) :
    Knowns B (specItem me env i) (dotItem i) (namesItem i) := by
  match i, hw, h with
  | .importI node .noPath name exposed, hw, _ => exact absurd rfl hw
  | .importI node (.failed e m) name exposed, _, h => cases h
  | .importI node (.ok unit) (some n) exposed, _, h =>
    obtain ⟨h1, h2⟩ := errs_append h
    refine Knowns.append (q := []) (ns := [n]) (fun m hm => ?_) (expose_known h2)
    rw [List.mem_singleton.1 hm]
    exact .inl (.inl ⟨_, List.mem_singleton.2 rfl, rfl⟩)
  | .importI node (.ok unit) none exposed, _, h =>
    obtain ⟨h1, h2⟩ := errs_append h
    exact Knowns.append (q := []) (ns := []) .nil (expose_known h2)
  | .valueI ex name ty v, hw, h =>
    obtain ⟨h1, h⟩ := errs_append h
    obtain ⟨h2, h3⟩ := errs_append h
    obtain ⟨a1, a2⟩ := ann_known hb h1
    have b := expr_known v a2 h3
    intro m hm
    rcases List.mem_append.1 hm with hm | hm
    · match name, hm with
      | some n, hm =>
        rw [List.mem_singleton.1 hm]
        exact .inl (.right (.left (.inl ⟨_, List.mem_singleton.2 rfl, rfl⟩)))
    · exact a1.append (Knowns.right b) m hm
  | .typeI node ex exc name params cases, hw, h =>
    obtain ⟨h1, h⟩ := errs_append h
    obtain ⟨h2, h3⟩ := errs_append h
    have b := typeCases_known (params_brought hb) h2
    intro m hm
    rcases List.mem_append.1 hm with hm | hm
    · match name, hm with
      | some n, hm =>
        rw [List.mem_singleton.1 hm]
        exact .inl (.right (.right (.inl ⟨_, List.mem_singleton.2 rfl, rfl⟩)))
    · exact (params_known params).append (Knowns.left b) m hm

end

end Tic.Spell
