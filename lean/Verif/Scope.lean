import Verif.Walk
import Verif.Logrel2
/-
Scoping: binders, well-named expressions, and the frame for proving that a
rewriting pass preserves results.
-/
namespace Tic.Core

mutual
/-- All names bound inside an expression. -/
def binders : Expr → List Name
  | .bool _ => []
  | .int _ => []
  | .str _ => []
  | .name _ => []
  | .call f xs => binders f ++ bindersL xs
  | .ite c t e => binders c ++ binders t ++ binders e
  | .op a _ b => binders a ++ binders b
  | .intr _ xs => bindersL xs
  | .lam ps b => ps.map (·.1) ++ binders b
  | .mtch e bs => binders e ++ bindersB bs
  | .con _ _ xs => bindersL xs
  | .let_ n v e => n :: (binders v ++ binders e)
  | .letrec n _ v e => n :: (binders v ++ binders e)
  | .pi _ e => binders e
  | .piApp e _ => binders e
  | .trap _ _ => []
/-- ... in a list of expressions. -/
def bindersL : List Expr → List Name
  | [] => []
  | e :: es => binders e ++ bindersL es
/-- ... in a list of branches. -/
def bindersB : List Branch → List Name
  | [] => []
  | .mk _ ns e :: bs => ns ++ binders e ++ bindersB bs
end

/-- `e'` is a subexpression of `e`. -/
inductive SubE (e' : Expr) : Expr → Prop
  | refl : SubE e' e'
  | step {e : Expr} {c : List Name × Expr} : c ∈ children e → SubE e' c.2 → SubE e' e

/-- A recursive definition is a function; the branches of a match are for different constructors. -/
def NodeOK : Expr → Prop
  | .letrec _ _ v _ => (recLam v).isSome = true
  | .mtch _ bs => (bs.map Branch.ctor).Nodup
  | _ => True

/-- Inside `e`, every recursive definition is a function and every match has at most one branch
per constructor. -/
def WellShaped (e : Expr) : Prop := ∀ e', SubE e' e → NodeOK e'

/-- How often `y` is bound in `e`. -/
def cnt (y : Name) (e : Expr) : Nat := (binders e).count y

/-- Names bound by the node itself. -/
def own : Expr → List Name
  | .lam ps _ => ps.map (·.1)
  | .mtch _ bs => bs.flatMap Branch.binds
  | .let_ n _ _ => [n]
  | .letrec n _ _ _ => [n]
  | _ => []

theorem count_bindersL (y : Name) (xs : List Expr) :
    (bindersL xs).count y = ((xs.map fun x => (([] : List Name), x)).map fun c => cnt y c.2).sum := by
  induction xs with
  | nil => rfl
  | cons x xs ih => simp only [bindersL, List.count_append, ih, List.map_cons, List.sum_cons, cnt]

theorem count_bindersB (y : Name) (bs : List Branch) :
    (bindersB bs).count y = (bs.flatMap Branch.binds).count y +
      ((bs.map fun b => (b.binds, b.body)).map fun c => cnt y c.2).sum := by
  induction bs with
  | nil => rfl
  | cons b bs ih =>
    cases b
    simp only [bindersB, List.count_append, ih, List.map_cons, List.sum_cons, cnt, Branch.body, List.flatMap_cons, Branch.binds]
    omega

theorem cnt_eq (y : Name) (e : Expr) : cnt y e = (own e).count y + ((children e).map fun c => cnt y c.2).sum := by
  cases e <;> simp only [children, List.map_cons, List.map_nil, List.sum_cons, List.sum_nil, own, List.count_nil, ← count_bindersL]
  case call f xs => simp only [cnt, binders, List.count_append]; omega
  case ite a b c => simp only [cnt, binders, List.count_append]; omega
  case op a o b => simp only [cnt, binders, List.count_append]; omega
  case intr => simp only [cnt, binders]; omega
  case lam => simp only [cnt, binders, List.count_append]; omega
  case mtch e bs =>
    have := count_bindersB y bs
    simp only [cnt, binders, List.count_append] at this ⊢; omega
  case con => simp only [cnt, binders]; omega
  case let_ n v e => simp only [cnt, binders, List.count_append, List.count_cons, List.count_nil]; omega
  case letrec n t v e => simp only [cnt, binders, List.count_append, List.count_cons, List.count_nil]; omega
  case pi => simp only [cnt, binders]; omega
  case piApp => simp only [cnt, binders]; omega
  all_goals simp [cnt, binders]

theorem own_of_scope {e : Expr} {c : List Name × Expr} (h : c ∈ children e) {y : Name} (hy : y ∈ c.1) : y ∈ own e := by
  have hL : ∀ (xs : List Expr), c ∈ xs.map (fun x => (([] : List Name), x)) → y ∈ ([] : List Name) := by
    intro xs hc
    obtain ⟨x, hx, rfl⟩ := List.mem_map.1 hc
    exact hy
  cases e <;> simp only [children, List.mem_cons, List.not_mem_nil, or_false] at h
  case call f xs =>
    rcases h with rfl | h
    · cases hy
    · exact absurd (hL _ h) (by simp)
  case ite a b c => rcases h with rfl | rfl | rfl <;> cases hy
  case op a o b => rcases h with rfl | rfl <;> cases hy
  case intr i xs => exact absurd (hL _ h) (by simp)
  case lam ps b => subst h; exact hy
  case mtch e bs =>
    rcases h with rfl | h
    · cases hy
    · obtain ⟨b, hb, rfl⟩ := List.mem_map.1 h
      simp only [own, List.mem_flatMap]; exact ⟨b, hb, hy⟩
  case con c ts xs => exact absurd (hL _ h) (by simp)
  case let_ n v e => rcases h with rfl | rfl; cases hy; exact hy
  case letrec n t v e => rcases h with rfl | rfl <;> exact hy
  case pi v e => subst h; cases hy
  case piApp v e => subst h; cases hy

theorem free_iff {x : Name} {e : Expr} : Free x e ↔ e = .name x ∨ ∃ c ∈ children e, x ∉ c.1 ∧ Free x c.2 := by
  have hL : ∀ xs : List Expr, FreeL x xs ↔ ∃ c ∈ xs.map (fun x => (([] : List Name), x)), x ∉ c.1 ∧ Free x c.2 := by
    intro xs; rw [FreeL_iff]
    constructor
    · rintro ⟨e, he, hf⟩; exact ⟨([], e), List.mem_map.2 ⟨e, he, rfl⟩, by simp, hf⟩
    · rintro ⟨c, hc, -, hf⟩
      obtain ⟨e, he, rfl⟩ := List.mem_map.1 hc
      exact ⟨e, he, hf⟩
  have hB : ∀ bs : List Branch, FreeB x bs ↔ ∃ c ∈ bs.map (fun b => (b.binds, b.body)), x ∉ c.1 ∧ Free x c.2 := by
    intro bs; rw [FreeB_iff]
    constructor
    · rintro ⟨b, hb, hn, hf⟩; exact ⟨(b.binds, b.body), List.mem_map.2 ⟨b, hb, rfl⟩, hn, hf⟩
    · rintro ⟨c, hc, hn, hf⟩
      obtain ⟨b, hb, rfl⟩ := List.mem_map.1 hc
      exact ⟨b, hb, hn, hf⟩
  cases e <;> simp only [children, Free, reduceCtorEq, false_or, List.mem_cons, List.not_mem_nil, or_false,
    exists_eq_or_imp, exists_eq_left, not_false_eq_true, true_and, hL, hB, false_and, exists_const]
  case name y => simp [eq_comm]
  case letrec n t v e => rw [and_or_left]

theorem le_sum_map {α : Type} (f : α → Nat) {l : List α} {c : α} (h : c ∈ l) : f c ≤ (l.map f).sum := by
  induction l with
  | nil => cases h
  | cons a l ih =>
    rcases List.mem_cons.1 h with rfl | h
    · simp
    · have := ih h; simp; omega

/-- Well named in scope `X`: binders are distinct and differ from everything in
scope, free names are in scope, and recursive definitions are functions. -/
structure Good (X : List Name) (e : Expr) : Prop where
  uniq : ∀ y, cnt y e ≤ 1
  disj : ∀ y ∈ X, cnt y e = 0
  scope : ∀ x, Free x e → x ∈ X
  recs : WellShaped e

theorem Good.child {X : List Name} {e : Expr} (h : Good X e) {c : List Name × Expr} (hc : c ∈ children e) :
    Good (c.1 ++ X) c.2 := by
  have hle : ∀ y, cnt y c.2 ≤ ((children e).map fun c => cnt y c.2).sum := fun y =>
    le_sum_map (fun c : List Name × Expr => cnt y c.2) hc
  refine ⟨fun y => ?_, fun y hy => ?_, fun x hx => ?_, fun e' hs => h.recs e' (.step hc hs)⟩
  · have := h.uniq y; have := cnt_eq y e; have := hle y; omega
  · rcases List.mem_append.1 hy with hy | hy
    · have h1 : 0 < (own e).count y := List.count_pos_iff.2 (own_of_scope hc hy)
      have := h.uniq y; have := cnt_eq y e; have := hle y; omega
    · have := h.disj y hy; have := cnt_eq y e; have := hle y; omega
  · by_cases hb : x ∈ c.1
    · exact List.mem_append_left _ hb
    · exact List.mem_append_right _ (h.scope x (free_iff.2 (.inr ⟨c, hc, hb, hx⟩)))

theorem children_mapSub (g : Expr → Expr) (e : Expr) : children (mapSub g e) = (children e).map fun c => (c.1, g c.2) := by
  cases e <;> simp [children, mapSub, Branch.binds, Branch.body, Function.comp_def]

theorem own_mapSub (g : Expr → Expr) (e : Expr) : own (mapSub g e) = own e := by
  cases e <;> simp only [own, mapSub]
  case mtch e bs =>
    simp only [List.flatMap, List.map_map]; congr 1

theorem cnt_mapSub {g : Expr → Expr} {e : Expr} {y : Name} (h : ∀ c ∈ children e, cnt y (g c.2) ≤ cnt y c.2) :
    cnt y (mapSub g e) ≤ cnt y e := by
  rw [cnt_eq, cnt_eq y e, own_mapSub, children_mapSub, List.map_map]
  refine Nat.add_le_add_left ?_ _
  generalize children e = cs at h
  induction cs with
  | nil => simp
  | cons c cs ih =>
    simp only [List.map_cons, List.sum_cons, Function.comp_def]
    have := h c (by simp)
    have := ih fun c hc => h c (by simp [hc])
    simp only [Function.comp_def] at this
    omega

theorem SubE.cases_iff {e' e : Expr} : SubE e' e ↔ e' = e ∨ ∃ c ∈ children e, SubE e' c.2 := by
  constructor
  · intro h
    cases h with
    | refl => exact .inl rfl
    | step hc hs => exact .inr ⟨_, hc, hs⟩
  · rintro (rfl | ⟨c, hc, hs⟩)
    · exact .refl
    · exact .step hc hs

theorem wellShaped_iff {e : Expr} : WellShaped e ↔ NodeOK e ∧ ∀ c ∈ children e, WellShaped c.2 := by
  constructor
  · intro h
    exact ⟨h e .refl, fun c hc e' hs => h e' (.step hc hs)⟩
  · rintro ⟨h1, h2⟩ e' hs
    rcases SubE.cases_iff.1 hs with rfl | ⟨c, hc, hs⟩
    · exact h1
    · exact h2 c hc e' hs

theorem nodeOK_mapSub {g : Expr → Expr} {e : Expr} (h : NodeOK e)
    (hrec : ∀ n t v b, e = .letrec n t v b → (recLam (g v)).isSome = true) : NodeOK (mapSub g e) := by
  cases e <;> simp only [mapSub, NodeOK] at h ⊢
  case letrec n t v b => exact hrec _ _ _ _ rfl
  case mtch e bs =>
    rw [List.map_map]
    have : (Branch.ctor ∘ fun b => Branch.mk b.ctor b.binds (g b.body)) = Branch.ctor := by
      funext b; cases b; rfl
    first | rwa [this] | (rw [show (bs.map _) = bs.map Branch.ctor from List.map_congr_left fun b _ => by cases b; rfl]; exact h)

theorem Good.mapSub {X : List Name} {e : Expr} (h : Good X e) {g : Expr → Expr}
    (hg : ∀ c ∈ children e, Good (c.1 ++ X) (g c.2) ∧ ∀ y, cnt y (g c.2) ≤ cnt y c.2)
    (hrec : ∀ n t v b, e = .letrec n t v b → (recLam (g v)).isSome = true) : Good X (mapSub g e) := by
  have hc : ∀ y, cnt y (Core.mapSub g e) ≤ cnt y e := fun y => cnt_mapSub fun c hc => (hg c hc).2 y
  refine ⟨fun y => Nat.le_trans (hc y) (h.uniq y), fun y hy => ?_, fun x hx => ?_, ?_⟩
  · have := hc y; have := h.disj y hy; omega
  · rcases free_iff.1 hx with he | ⟨c, hc, hb, hf⟩
    · cases e <;> simp [Core.mapSub] at he
      subst he; exact h.scope _ (by simp [Free])
    · rw [children_mapSub] at hc
      obtain ⟨c', hc', rfl⟩ := List.mem_map.1 hc
      rcases List.mem_append.1 ((hg c' hc').1.scope x hf) with h1 | h1
      · exact absurd h1 hb
      · exact h1
  · rw [wellShaped_iff]
    refine ⟨nodeOK_mapSub (h.recs e .refl) hrec, fun c hc => ?_⟩
    · rw [children_mapSub] at hc
      obtain ⟨c', hc', rfl⟩ := List.mem_map.1 hc
      exact (hg c' hc').1.recs

/-- In all environments that agree on `X`, `e'` matches `e`. -/
def Le (s : Mode) (X : List Name) (e e' : Expr) : Prop :=
  ∀ k ρ ρ', (∀ x ∈ X, LookRel s k ρ ρ' x) → RelD s k ρ e ρ' e'

variable {s : Mode} {X : List Name}

theorem Le.refl {e : Expr} (h : ∀ x, Free x e → x ∈ X) : Le s X e e :=
  fun _ _ _ hρ => fund e fun x hx => hρ x (h x hx)

theorem Le.trans {e e' e'' : Expr} (h : Le s X e e') (h' : Le s X e' e'') : Le s X e e'' :=
  fun k ρ ρ' hρ => (h k ρ ρ' hρ).trans fun j => h' j ρ' ρ' fun x _ => LookRel.refl s j ρ' x

theorem Le.scope {X' : List Name} {e e' : Expr} (h : Le s X e e') (hx : ∀ x ∈ X, x ∈ X') : Le s X' e e' :=
  fun k ρ ρ' hρ => h k ρ ρ' fun x hm => hρ x (hx x hm)

/-- The values of a recursive definition are related functions. -/
def RecOK (s : Mode) (X : List Name) (v v' : Expr) : Prop :=
  (recLam v = none ∧ recLam v' = none) ∨ ∃ ps b b', recLam v = some (ps, b) ∧ recLam v' = some (ps, b') ∧ Le s (ps ++ X) b b'

theorem lookRel_append {k : Nat} {ρ ρ' : Env} (h : ∀ x ∈ X, LookRel s k ρ ρ' x) {j : Nat} (hj : j ≤ k) {ps : List Name} {vs vs' : List Val}
    (hv : Vs s j vs vs') (hl : ps.length = vs.length) : ∀ x ∈ ps ++ X, LookRel s j (bindAll ρ ps vs) (bindAll ρ' ps vs') x := by
  intro x hx
  refine LookRel.bindAll hv hl fun hn => ?_
  rcases List.mem_append.1 hx with h1 | h1
  · exact absurd h1 hn
  · exact (h x h1).mono hj

theorem lookRel_cons {k : Nat} {ρ ρ' : Env} (h : ∀ x ∈ X, LookRel s k ρ ρ' x) {j : Nat} (hj : j ≤ k) {y : Name} {v v' : Val}
    (hv : V s j v v') : ∀ x ∈ y :: X, LookRel s j ((y, v) :: ρ) ((y, v') :: ρ') x := by
  intro x hx
  refine LookRel.cons hv fun hn => ?_
  rcases List.mem_cons.1 hx with h1 | h1
  · exact absurd h1 hn
  · exact (h x h1).mono hj

theorem le_let {n : Name} {v v' e e' : Expr} (hv : Le s X v v') (he : Le s (n :: X) e e') :
    Le s X (.let_ n v e) (.let_ n v' e') := by
  intro k ρ ρ' hρ
  exact rel_let (hv k ρ ρ' hρ) fun j hj w w' hw => he j _ _ (lookRel_cons hρ hj hw)

theorem le_letrec {n : Name} {t t' : Ty} {v v' e e' : Expr} (hv : RecOK s (n :: X) v v') (he : Le s (n :: X) e e') :
    Le s X (.letrec n t v e) (.letrec n t' v' e') := by
  intro k ρ ρ' hρ
  refine rel_letrec ?_
  rcases hv with h | ⟨ps, b, b', h1, h2, h3⟩
  · exact .inl h
  · have hV : ∀ j, j ≤ k → V s j (.rclo ρ n ps b) (.rclo ρ' n ps b') := by
      intro j hj
      refine FR_rclo rfl fun i hi hself vs vs' hvs hl => ?_
      refine h3 i _ _ fun x hx => LookRel.cons hself fun hxn => LookRel.bindAll hvs hl fun hxp => ?_
      rcases List.mem_append.1 hx with h | h
      · exact absurd h hxp
      · rcases List.mem_cons.1 h with h | h
        · exact absurd h hxn
        · exact (hρ x h).mono (by omega)
    exact .inr ⟨ps, b, ps, b', h1, h2, hV, he k _ _ (lookRel_cons hρ (Nat.le_refl _) (hV k (Nat.le_refl _)))⟩

theorem le_lam {ps ps' : List (Name × Ty)} {b b' : Expr} (hp : ps.map (·.1) = ps'.map (·.1))
    (h : Le s (ps.map (·.1) ++ X) b b') : Le s X (.lam ps b) (.lam ps' b') := by
  intro k ρ ρ' hρ
  have hl : ps.length = ps'.length := by have := congrArg List.length hp; simpa using this
  refine rel_lam hl fun j hj vs vs' hv hl => ?_
  rw [← hp]
  exact h j _ _ (lookRel_append hρ (by omega) hv (by simpa using hl))

theorem le_mtch {e e' : Expr} {bs bs' : List Branch} (he : Le s X e e')
    (h : All2 (fun b b' => b.ctor = b'.ctor ∧ b.binds = b'.binds ∧ Le s (b.binds ++ X) b.body b'.body) bs bs') :
    Le s X (.mtch e bs) (.mtch e' bs') := by
  intro k ρ ρ' hρ
  refine rel_mtch (he k ρ ρ' hρ) (relBr_all2 (h.imp ?_))
  rintro b b' ⟨h1, h2, h3⟩
  refine ⟨h1, by rw [h2], fun j hj fs fs' hf hl => ?_⟩
  rw [← h2]
  exact h3 j _ _ (lookRel_append hρ hj hf hl)

/-- Rewriting the immediate subexpressions. -/
theorem le_mapSub {g g' : Expr → Expr} {e : Expr} (hn : ∀ x, e = .name x → x ∈ X)
    (hc : ∀ c ∈ children e, Le s (c.1 ++ X) (g c.2) (g' c.2))
    (hrec : ∀ n t v b, e = .letrec n t v b → RecOK s (n :: X) (g v) (g' v)) :
    Le s X (mapSub g e) (mapSub g' e) := by
  have hL : ∀ (xs : List Expr), (∀ c ∈ xs.map (fun x => (([] : List Name), x)), Le s (c.1 ++ X) (g c.2) (g' c.2)) →
      ∀ k ρ ρ', (∀ x ∈ X, LookRel s k ρ ρ' x) → All2 (fun e e' => RelD s k ρ e ρ' e') (xs.map g) (xs.map g') := by
    intro xs hx k ρ ρ' hρ
    refine All2.of_map (All2.self fun x hm => ?_)
    exact hx ([], x) (List.mem_map.2 ⟨x, hm, rfl⟩) k ρ ρ' hρ
  cases e <;> simp only [children, List.mem_cons, List.not_mem_nil, or_false, forall_eq_or_imp, forall_eq, List.nil_append] at hc <;>
    simp only [mapSub]
  case bool b => exact fun _ _ _ _ => rel_bool b
  case int b => exact fun _ _ _ _ => rel_int b
  case str b => exact fun _ _ _ _ => rel_str b
  case name x => exact fun _ _ _ hρ => rel_name (hρ x (hn x rfl))
  case trap m t => exact fun _ _ _ _ => rel_trap m t t
  case call f xs => exact fun k ρ ρ' hρ => rel_call (hc.1 k ρ ρ' hρ) (hL xs hc.2 k ρ ρ' hρ)
  case ite a b c => exact fun k ρ ρ' hρ => rel_ite (hc.1 k ρ ρ' hρ) (hc.2.1 k ρ ρ' hρ) (hc.2.2 k ρ ρ' hρ)
  case op a o b => exact fun k ρ ρ' hρ => rel_op (hc.1 k ρ ρ' hρ) (hc.2 k ρ ρ' hρ)
  case intr i xs => exact fun k ρ ρ' hρ => rel_intr (hL xs hc k ρ ρ' hρ)
  case con c ts xs => exact fun k ρ ρ' hρ => rel_con (hL xs hc k ρ ρ' hρ)
  case lam ps b => exact le_lam rfl hc
  case mtch e bs =>
    refine le_mtch hc.1 (All2.of_map (All2.self fun b hb => ⟨rfl, rfl, ?_⟩))
    exact hc.2 (b.binds, b.body) (List.mem_map.2 ⟨b, hb, rfl⟩)
  case let_ n v e => exact le_let hc.1 hc.2
  case letrec n t v e => exact le_letrec (hrec n t v e rfl) hc.2
  case pi v e => exact fun k ρ ρ' hρ => rel_pi (hc k ρ ρ' hρ)
  case piApp e t => exact fun k ρ ρ' hρ => rel_piApp (hc k ρ ρ' hρ)

theorem mapSub_id (e : Expr) : mapSub id e = e := by
  cases e <;> simp [mapSub]
  case mtch e bs =>
    refine List.map_id'' ?_ _
    intro b; cases b; rfl

end Tic.Core
