/-
The names of an item are the name nodes of its tree, spelled with their tokens.
-/
import Verif.Spell
import Verif.UnitSpan

namespace Tic.Spell

open Tic.Parser
open Tic.Units
open Tic.Lower (Source Text VName VTy VEx VCase VField VCtor VItem item nameOf names tyOf tys exprOf exprs caseOf cases varsOf varLists
  namespaceIn nameIn fieldOf ctorOf paramsOf paramLists exposedOf exposedLists itemOf)
open Tic.Resolve (Name Ty Tys Expr Cases FieldSyntax CaseSyntax Item)
open Tic.Hover (descendants)

section
variable (nd : Nat → Nat) (s : Source) (Q : Name → Prop)

/-- All names of a name, a type, ... have a property. -/
def qN (v : VName) : Prop := Q (toName nd v)
def qNs (vs : List VName) : Prop := ∀ v ∈ vs, qN nd Q v
def qT (t : VTy) : Prop := ∀ n ∈ namesTy (toTy nd t), Q n
def qE (e : VEx) : Prop := ∀ n ∈ namesExpr (toExpr nd e), Q n
def qC (c : VCase) : Prop := ∀ n ∈ namesCases (toCases nd [c]), Q n
def qF (f : VField) : Prop := ∀ n ∈ namesField (toField nd f), Q n
def qK (c : VCtor) : Prop := ∀ n ∈ (toCtor nd c).name.toList ++ (toCtor nd c).fields.flatMap namesField, Q n
def optP {α : Type} (p : α → Prop) (o : Option α) : Prop := ∀ a, o = some a → p a

theorem optP_get {α : Type} {p : α → Prop} {l : List α} (h : ∀ a ∈ l, p a) (i : Nat) : optP p l[i]? := fun a ha => h a (List.mem_of_getElem? ha)

variable {nd s Q}

theorem q_name {o : Option VName} (h : optP (qN nd Q) o) : ∀ n ∈ (o.map (toName nd)).toList, Q n := by
  intro n hn
  cases o with
  | none => simp at hn
  | some v => simp at hn; subst hn; exact h v rfl
theorem q_names {l : List VName} (h : qNs nd Q l) : ∀ n ∈ l.map (toName nd), Q n := by
  intro n hn
  obtain ⟨v, hv, rfl⟩ := List.mem_map.1 hn
  exact h v hv
theorem q_ty {o : Option VTy} (h : optP (qT nd Q) o) : ∀ n ∈ namesTy (toTyO nd o), Q n := by
  cases o with
  | none => simp [toTyO, namesTy]
  | some t => exact h t rfl
theorem q_tys : ∀ {l : List VTy}, (∀ t ∈ l, qT nd Q t) → ∀ n ∈ namesTys (toTys nd l), Q n
  | [], _, n, hn => by simp [toTys, namesTys] at hn
  | t :: ts, h, n, hn => by
    rw [toTys, namesTys, List.mem_append] at hn
    exact hn.elim (h t (by simp) n) (q_tys (fun t ht => h t (by simp [ht])) n)
theorem q_ann {o : Option VTy} (h : optP (qT nd Q) o) : ∀ n ∈ namesAnn (o.map (toTy nd)), Q n := by
  cases o with
  | none => simp [namesAnn]
  | some t => exact h t rfl
theorem q_expr {o : Option VEx} (h : optP (qE nd Q) o) : ∀ n ∈ namesExpr (toExprO nd o), Q n := by
  cases o with
  | none => simp [toExprO, namesExpr]
  | some t => exact h t rfl
theorem q_vars {o : Option (List VName)} (h : optP (qNs nd Q) o) : ∀ n ∈ (o.getD []).map (toName nd), Q n := by
  cases o with
  | none => simp
  | some l => exact q_names (h l rfl)
theorem q_case {ns c vs b} (h1 : optP (qN nd Q) ns) (h2 : optP (qN nd Q) c) (h3 : optP (qNs nd Q) vs) (h4 : optP (qE nd Q) b) : qC nd Q (.mk ns c vs b) := by
  intro n hn
  simp only [toCases, namesCases, List.mem_append, List.append_nil] at hn
  rcases hn with hn | hn | hn | hn
  · exact q_name h1 n hn
  · exact q_name h2 n hn
  · exact q_vars h3 n hn
  · exact q_expr h4 n hn
theorem q_cases : ∀ {l : List VCase}, (∀ c ∈ l, qC nd Q c) → ∀ n ∈ namesCases (toCases nd l), Q n
  | [], _, n, hn => by simp [toCases, namesCases] at hn
  | .mk ns c vs b :: cs, h, n, hn => by
    rw [toCases, namesCases] at hn
    simp only [List.mem_append] at hn
    have h1 := h (.mk ns c vs b) (by simp) n
    simp only [toCases, namesCases, List.mem_append, List.append_nil] at h1
    rcases hn with hn | hn | hn | hn | hn
    · exact h1 (.inl hn)
    · exact h1 (.inr (.inl hn))
    · exact h1 (.inr (.inr (.inl hn)))
    · exact h1 (.inr (.inr (.inr hn)))
    · exact q_cases (fun c hc => h c (by simp [hc])) n hn

theorem q_ns (cs : List Elem) (h : ∀ v ∈ names s cs, qN nd Q v) : optP (qN nd Q) (namespaceIn s cs) := by
  unfold namespaceIn
  split
  · exact optP_get h _
  · exact nofun
theorem q_nameIn (cs : List Elem) (h : ∀ v ∈ names s cs, qN nd Q v) : optP (qN nd Q) (nameIn s cs) := by
  unfold nameIn
  split <;> exact optP_get h _

variable (nd s Q)

/-- The names read from an element, or its children. -/
def Here (e : Elem) : Prop :=
  optP (qN nd Q) (nameOf s e) ∧ optP (qT nd Q) (tyOf s e) ∧ optP (qE nd Q) (exprOf s e) ∧ optP (qC nd Q) (caseOf s e) ∧ optP (qNs nd Q) (varsOf s e)
def Heres (cs : List Elem) : Prop :=
  (∀ v ∈ names s cs, qN nd Q v) ∧ (∀ t ∈ tys s cs, qT nd Q t) ∧ (∀ e ∈ exprs s cs, qE nd Q e) ∧ (∀ c ∈ cases s cs, qC nd Q c) ∧
    ∀ l ∈ varLists s cs, qNs nd Q l

/-- The name nodes have the property. -/
def Nodes (l : List Elem) : Prop := ∀ d ∈ l, ∀ v, nameOf s d = some v → qN nd Q v

variable {nd s Q}

mutual
theorem here_all : ∀ e : Elem, Nodes nd s Q (descendants e) → Here nd s Q e
  | .token _ _, _ => ⟨nofun, nofun, nofun, nofun, nofun⟩
  | .trivia _ _, _ => ⟨nofun, nofun, nofun, nofun, nofun⟩
  | .node id k sp f cs, h => by
    obtain ⟨h1, h2, h3, h4, h5⟩ := heres_all cs fun d hd => h d (by rw [Hover.descendants_node]; exact List.mem_cons_of_mem _ hd)
    refine ⟨fun v hv => h _ (by rw [Hover.descendants_node]; simp) v hv, fun t ht => ?_, fun e he => ?_, fun c hc => ?_, fun l hl => ?_⟩
    · have n0 := q_ns cs h1
      have n1 := q_nameIn cs h1
      have t0 := optP_get h2 0
      have t1 := optP_get h2 1
      rw [tyOf.eq_def] at ht
      simp only at ht
      split at ht <;> cases ht <;> intro n hn <;> simp only [toTy, namesTy, List.mem_append, List.not_mem_nil] at hn
      · exact hn.elim (q_ty t0 n) (q_ty t1 n)
      · exact hn.elim (q_name n0 n) fun hn => hn.elim (q_name n1 n) (q_tys h2 n)
      · exact q_ty t0 n hn
    · have n0 := optP_get h1 0
      have n1 := optP_get h1 1
      have t0 := optP_get h2 0
      have e0 := optP_get h3 0
      have e1 := optP_get h3 1
      have e2 := optP_get h3 2
      rw [exprOf.eq_def] at he
      simp only at he
      split at he <;> cases he <;> intro n hn <;> simp only [toExpr, namesExpr, List.mem_append, List.not_mem_nil] at hn
      · exact q_name n0 n hn
      · exact hn.elim (q_name n0 n) (q_name n1 n)
      · exact hn.elim (q_expr e0 n) (q_expr e1 n)
      · exact hn.elim (q_expr e0 n) (q_expr e1 n)
      · exact hn.elim (q_name n0 n) fun hn => hn.elim (q_ann t0 n) fun hn => hn.elim (q_expr e0 n) (q_expr e1 n)
      · exact hn.elim (q_expr e0 n) (q_cases h4 n)
      · exact hn.elim (q_expr e0 n) fun hn => hn.elim (q_expr e1 n) (q_expr e2 n)
      · exact hn.elim (q_name n0 n) (q_expr e0 n)
      · exact q_expr e0 n hn
    · rw [caseOf.eq_def] at hc
      simp only at hc
      split at hc <;> cases hc
      exact q_case (q_ns cs h1) (q_nameIn cs h1) (optP_get h5 0) (optP_get h3 0)
    · cases k <;> cases hl
      exact h1
theorem heres_all : ∀ cs : List Elem, Nodes nd s Q (descendants.go cs) → Heres nd s Q cs
  | [], _ => by simp [Heres, names, tys, exprs, cases, varLists]
  | c :: cs, h => by
    obtain ⟨h1, h2, h3, h4, h5⟩ := here_all c fun d hd => h d (by rw [Hover.go_cons]; exact List.mem_append_left _ hd)
    obtain ⟨g1, g2, g3, g4, g5⟩ := heres_all cs fun d hd => h d (by rw [Hover.go_cons]; exact List.mem_append_right _ hd)
    have key : ∀ {α : Type} {p : α → Prop} {o : Option α} {l : List α}, optP p o → (∀ a ∈ l, p a) → ∀ a ∈ o.toList ++ l, p a := by
      intro α p o l ho hl a ha
      rcases List.mem_append.1 ha with ha | ha
      · exact ho a (by simpa using ha)
      · exact hl a ha
    have fm : ∀ {α : Type} (f : Elem → Option α), (c :: cs).filterMap f = (f c).toList ++ cs.filterMap f := by
      intro α f
      rw [List.filterMap_cons]
      cases f c <;> rfl
    refine ⟨?_, ?_, ?_, ?_, ?_⟩
    · rw [names, fm]; exact key h1 g1
    · rw [tys]; exact key h2 g2
    · rw [exprs]; exact key h3 g3
    · rw [cases]; exact key h4 g4
    · rw [varLists, fm]; exact key h5 g5
end

theorem nodes_child {cs : List Elem} {c : Elem} (h : Nodes nd s Q (descendants.go cs)) (hc : c ∈ cs) : Nodes nd s Q (descendants c) := by
  induction cs with
  | nil => cases hc
  | cons a cs ih =>
    rcases List.mem_cons.1 hc with rfl | hc
    · exact fun d hd => h d (by rw [Hover.go_cons]; exact List.mem_append_left _ hd)
    · exact ih (fun d hd => h d (by rw [Hover.go_cons]; exact List.mem_append_right _ hd)) hc

theorem nodes_node {id k sp f cs} (h : Nodes nd s Q (descendants (.node id k sp f cs))) : Nodes nd s Q (descendants.go cs) :=
  fun d hd => h d (by rw [Hover.descendants_node]; exact List.mem_cons_of_mem _ hd)

theorem field_all {e : Elem} (h : Nodes nd s Q (descendants e)) : optP (qF nd Q) (fieldOf s e) := by
  intro x hx
  match e, h with
  | .node id k sp f cs, h =>
    have := (heres_all cs (nodes_node h)).2.1
    cases k <;> cases hx
    · exact nofun
    · exact q_ty (optP_get this 0)

theorem ctor_all {e : Elem} (h : Nodes nd s Q (descendants e)) : optP (qK nd Q) (ctorOf s e) := by
  intro x hx
  match e, h with
  | .node id k sp f cs, h =>
    have h1 := (heres_all cs (nodes_node h)).1
    cases k <;> cases hx
    intro n hn
    rcases List.mem_append.1 hn with hn | hn
    · exact q_name (optP_get h1 0) n hn
    · obtain ⟨y, hy, hn⟩ := List.mem_flatMap.1 hn
      obtain ⟨z, hz, rfl⟩ := List.mem_map.1 hy
      obtain ⟨c, hc, hz⟩ := List.mem_filterMap.1 hz
      exact field_all (nodes_child (nodes_node h) hc) z hz n hn

theorem lists_all {e : Elem} (h : Nodes nd s Q (descendants e)) : optP (qNs nd Q) (paramsOf s e) ∧ optP (qNs nd Q) (exposedOf s e) := by
  match e, h with
  | .token _ _, _ => exact ⟨nofun, nofun⟩
  | .trivia _ _, _ => exact ⟨nofun, nofun⟩
  | .node id k sp f cs, h =>
    have h1 := (heres_all cs (nodes_node h)).1
    refine ⟨fun x hx => ?_, fun x hx => ?_⟩ <;> cases k <;> cases hx <;> exact h1

theorem item_all (lookup : Lookup) {e : Elem} {i : VItem} (h : Nodes nd s Q (descendants e)) (hi : itemOf s e = some i) :
    ∀ n ∈ namesItem (toItem lookup nd i), Q n := by
  match e, h, hi with
  | .node id k sp f cs, h, hi =>
    have hc := nodes_node h
    obtain ⟨h1, h2, h3, -, -⟩ := heres_all cs hc
    have hp : ∀ l ∈ paramLists s cs, qNs nd Q l := by
      intro l hl
      obtain ⟨c, hc', hl⟩ := List.mem_filterMap.1 hl
      exact (lists_all (nodes_child hc hc')).1 l hl
    have hx : ∀ l ∈ exposedLists s cs, qNs nd Q l := by
      intro l hl
      obtain ⟨c, hc', hl⟩ := List.mem_filterMap.1 hl
      exact (lists_all (nodes_child hc hc')).2 l hl
    cases k <;> cases hi <;> intro n hn <;> simp only [toItem, namesItem, List.mem_append] at hn
    · exact hn.elim (q_name (optP_get h1 0) n) (q_vars (optP_get hx 0) n)
    · rcases hn with hn | hn | hn
      · exact q_name (optP_get h1 0) n hn
      · exact q_vars (optP_get hp 0) n hn
      · obtain ⟨y, hy, hn⟩ := List.mem_flatMap.1 hn
        obtain ⟨z, hz, rfl⟩ := List.mem_map.1 hy
        obtain ⟨c, hc', hz⟩ := List.mem_filterMap.1 hz
        exact ctor_all (nodes_child hc hc') z hz n hn
    · exact hn.elim (q_name (optP_get h1 0) n) fun hn => hn.elim (q_ann (optP_get h2 0) n) (q_expr (optP_get h3 0) n)

/-- Every name of the item of a tree is one of its name nodes. -/
theorem root_all (lookup : Lookup) {t : Elem} (h : Nodes nd s Q (descendants t)) : ∀ n ∈ namesItem (toItemO lookup nd (item s t)), Q n := by
  cases hi : item s t with
  | none => simp [toItemO, namesItem, namesAnn, namesExpr]
  | some v =>
    match t, h, hi with
    | .node id k sp f cs, h, hi =>
      rw [Lower.item] at hi
      obtain ⟨c, hc, hv⟩ := List.mem_filterMap.1 (List.mem_of_getElem? hi)
      exact item_all lookup (nodes_child (nodes_node h) hc) hv
end

end Tic.Spell
