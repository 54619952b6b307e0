import Verif.Inline
import Verif.InlineSimpleOK
/-
Helper: renaming of binders does not matter, and `create_copy` only renames binders.
-/
namespace Tic.Core

mutual
/-- `e'` is `e` with all names replaced by their images (types are not compared). -/
inductive Ren (σ : Name → Name) : Expr → Expr → Prop
  | bool (b) : Ren σ (.bool b) (.bool b)
  | int (b) : Ren σ (.int b) (.int b)
  | str (b) : Ren σ (.str b) (.str b)
  | name (x) : Ren σ (.name x) (.name (σ x))
  | call {f f' xs xs'} : Ren σ f f' → RenL σ xs xs' → Ren σ (.call f xs) (.call f' xs')
  | ite {a a' b b' c c'} : Ren σ a a' → Ren σ b b' → Ren σ c c' → Ren σ (.ite a b c) (.ite a' b' c')
  | op {a a' b b'} (o) : Ren σ a a' → Ren σ b b' → Ren σ (.op a o b) (.op a' o b')
  | intr {xs xs'} (i) : RenL σ xs xs' → Ren σ (.intr i xs) (.intr i xs')
  | lam {ps ps' b b'} : ps'.map (·.1) = (ps.map (·.1)).map σ → Ren σ b b' → Ren σ (.lam ps b) (.lam ps' b')
  | mtch {e e' bs bs'} : Ren σ e e' → RenB σ bs bs' → Ren σ (.mtch e bs) (.mtch e' bs')
  | con {xs xs'} (c ts ts') : RenL σ xs xs' → Ren σ (.con c ts xs) (.con c ts' xs')
  | let_ {v v' e e'} (n) : Ren σ v v' → Ren σ e e' → Ren σ (.let_ n v e) (.let_ (σ n) v' e')
  | letrec {v v' e e'} (n t t') : Ren σ v v' → Ren σ e e' → Ren σ (.letrec n t v e) (.letrec (σ n) t' v' e')
  | pi {e e'} (v v') : Ren σ e e' → Ren σ (.pi v e) (.pi v' e')
  | piApp {e e'} (t t') : Ren σ e e' → Ren σ (.piApp e t) (.piApp e' t')
  | trap (m t t') : Ren σ (.trap m t) (.trap m t')
/-- ... for lists. -/
inductive RenL (σ : Name → Name) : List Expr → List Expr → Prop
  | nil : RenL σ [] []
  | cons {e e' es es'} : Ren σ e e' → RenL σ es es' → RenL σ (e :: es) (e' :: es')
/-- ... for branches. -/
inductive RenB (σ : Name → Name) : List Branch → List Branch → Prop
  | nil : RenB σ [] []
  | cons {e e' bs bs'} (c ns) : Ren σ e e' → RenB σ bs bs' → RenB σ (.mk c ns e :: bs) (.mk c (ns.map σ) e' :: bs')
end

theorem RenL.all2 {σ : Name → Name} : ∀ {es es' : List Expr}, RenL σ es es' → All2 (Ren σ) es es'
  | _, _, .nil => trivial
  | _, _, .cons h hs => ⟨h, hs.all2⟩

theorem RenB.all2 {σ : Name → Name} : ∀ {bs bs' : List Branch}, RenB σ bs bs' →
    All2 (fun b b' => b.ctor = b'.ctor ∧ b'.binds = b.binds.map σ ∧ Ren σ b.body b'.body) bs bs'
  | _, _, .nil => trivial
  | _, _, .cons _ _ h hs => ⟨⟨rfl, rfl, h⟩, hs.all2⟩

theorem All2.mem_left {α β : Type} {P : α → β → Prop} : ∀ {as : List α} {bs : List β}, All2 P as bs →
    All2 (fun a b => a ∈ as ∧ b ∈ bs ∧ P a b) as bs
  | [], [], _ => trivial
  | a :: as, b :: bs, ⟨h1, h2⟩ => ⟨⟨by simp, by simp, h1⟩, (All2.mem_left h2).imp fun _ _ h => ⟨by simp [h.1], by simp [h.2.1], h.2.2⟩⟩

theorem All2.right {α β : Type} {P : α → β → Prop} : ∀ {as : List α} {bs : List β}, All2 P as bs → ∀ b ∈ bs, ∃ a ∈ as, P a b
  | [], [], _, _, h => by cases h
  | a :: as, b :: bs, ⟨h1, h2⟩, x, hx => by
    rcases List.mem_cons.1 hx with rfl | hx
    · exact ⟨a, by simp, h1⟩
    · obtain ⟨a', ha, h⟩ := All2.right h2 x hx
      exact ⟨a', by simp [ha], h⟩

theorem All2.left {α β : Type} {P : α → β → Prop} : ∀ {as : List α} {bs : List β}, All2 P as bs → ∀ a ∈ as, ∃ b ∈ bs, P a b
  | [], [], _, _, h => by cases h
  | a :: as, b :: bs, ⟨h1, h2⟩, x, hx => by
    rcases List.mem_cons.1 hx with rfl | hx
    · exact ⟨b, by simp, h1⟩
    · obtain ⟨a', ha, h⟩ := All2.left h2 x hx
      exact ⟨a', by simp [ha], h⟩

theorem All2.map_eq {α β γ : Type} {P : α → β → Prop} {f : α → γ} {g : β → γ} (h : ∀ a b, P a b → f a = g b) :
    ∀ {as : List α} {bs : List β}, All2 P as bs → as.map f = bs.map g
  | [], [], _ => rfl
  | _ :: _, _ :: _, ⟨h1, h2⟩ => by rw [List.map_cons, List.map_cons, h _ _ h1, All2.map_eq h h2]

/-- The names of `e`. -/
def Occ (y : Name) (e : Expr) : Prop := Free y e ∨ y ∈ binders e

/-- `x` on the left and `x'` on the right are the same. -/
def LookRel2 (s : Mode) (k : Nat) (ρ : Env) (x : Name) (ρ' : Env) (x' : Name) : Prop :=
  (lookup x ρ = .panic ∧ lookup x' ρ' = .panic) ∨ ∃ v v', lookup x ρ = .ok v ∧ lookup x' ρ' = .ok v' ∧ V s k v v'

variable {s : Mode}

theorem LookRel2.mono {k j : Nat} (hj : j ≤ k) {ρ ρ' : Env} {x x' : Name} (h : LookRel2 s k ρ x ρ' x') : LookRel2 s j ρ x ρ' x' := by
  rcases h with h | ⟨v, v', h1, h2, h3⟩
  · exact .inl h
  · exact .inr ⟨v, v', h1, h2, h3.mono hj⟩

theorem LookRel2.cons {k : Nat} {ρ ρ' : Env} {x x' y y' : Name} {v v' : Val} (hv : V s k v v') (hy : x = y ↔ x' = y')
    (h : x ≠ y → LookRel2 s k ρ x ρ' x') : LookRel2 s k ((y, v) :: ρ) x ((y', v') :: ρ') x' := by
  by_cases hxy : x = y
  · subst hxy
    have := hy.1 rfl
    subst this
    exact .inr ⟨v, v', by simp [lookup], by simp [lookup], hv⟩
  · have hxy' : x' ≠ y' := fun h' => hxy (hy.2 h')
    rcases h hxy with ⟨h1, h2⟩ | ⟨w, w', h1, h2, h3⟩
    · exact .inl ⟨by simp [lookup, Ne.symm hxy, h1], by simp [lookup, Ne.symm hxy', h2]⟩
    · exact .inr ⟨w, w', by simp [lookup, Ne.symm hxy, h1], by simp [lookup, Ne.symm hxy', h2], h3⟩

theorem LookRel2.bindAll {k : Nat} {σ : Name → Name} {x : Name} {ps : List Name} : ∀ {vs vs' : List Val} {ρ ρ' : Env}, Vs s k vs vs' → ps.length = vs.length →
    (∀ y ∈ ps, σ x = σ y → x = y) →
    (x ∉ ps → LookRel2 s k ρ x ρ' (σ x)) → LookRel2 s k (bindAll ρ ps vs) x (bindAll ρ' (ps.map σ) vs') (σ x) := by
  induction ps with
  | nil => intro vs vs' ρ ρ' hv hl hi h; exact h (by simp)
  | cons p ps ih =>
    intro vs vs' ρ ρ' hv hl hi h
    cases hv with
    | nil => simp at hl
    | cons h1 h2 =>
      simp only [Core.bindAll, List.map_cons]
      refine ih h2 (by simpa using hl) (fun y hy => hi y (by simp [hy])) fun hx => ?_
      exact LookRel2.cons h1 ⟨fun h => by rw [h], fun h => hi p (by simp) h⟩ fun hxp => h (by simp [hx, hxp])

theorem Ren.recLam {σ : Name → Name} : ∀ {v v' : Expr}, Ren σ v v' →
    (recLam v = none ∧ recLam v' = none) ∨ ∃ ps b b', recLam v = some (ps, b) ∧ recLam v' = some (ps.map σ, b') ∧ Ren σ b b' := by
  intro v
  induction v using Expr.strong with
  | _ v ih =>
    intro v' h
    cases h with
    | lam hp hb => exact .inr ⟨_, _, _, recLam_lam _ _, by rw [recLam_lam, hp], hb⟩
    | pi v v' h =>
      rw [recLam_pi, recLam_pi]
      exact ih _ (by simp only [Expr.pi.sizeOf_spec]; omega) h
    | _ => exact .inl ⟨rfl, rfl⟩

/-- Renaming of binders does not matter. -/
theorem ren_rel {σ : Name → Name} {S : Name → Prop} (hS : ∀ x y, S x → S y → σ x = σ y → x = y) (e : Expr) :
    ∀ {e' : Expr}, Ren σ e e' → (∀ y, Occ y e → S y) → ∀ {k : Nat} {ρ ρ' : Env},
      (∀ x, Free x e → LookRel2 s k ρ x ρ' (σ x)) → RelD s k ρ e ρ' e' := by
  induction e using Expr.strong with
  | _ e ih =>
    intro e' hR hO k ρ ρ' h
    have hsc : ∀ c ∈ children e, ∀ y, Occ y c.2 → S y := by
      intro c hc y hy
      rcases hy with hy | hy
      · by_cases hm : y ∈ c.1
        · exact hO y (.inr (own_sub_binders (own_of_scope hc hm)))
        · exact hO y (.inl (free_iff.2 (.inr ⟨c, hc, hm, hy⟩)))
      · exact hO y (.inr (child_sub_binders hc hy))
    have hfr : ∀ c ∈ children e, ∀ y, Free y c.2 → y ∉ c.1 → LookRel2 s k ρ y ρ' (σ y) :=
      fun c hc y hy hm => h y (free_iff.2 (.inr ⟨c, hc, hm, hy⟩))
    have hown : ∀ y ∈ own e, S y := fun y hy => hO y (.inr (own_sub_binders hy))
    have h0 : ∀ a, ([], a) ∈ children e → ∀ a', Ren σ a a' → RelD s k ρ a ρ' a' := fun a ha a' hr =>
      ih a (mem_children_size ha) hr (hsc _ ha) fun x hx => hfr _ ha x hx (by simp)
    have hL : ∀ es es' : List Expr, (∀ a ∈ es, ([], a) ∈ children e) → RenL σ es es' → All2 (fun e e' => RelD s k ρ e ρ' e') es es' := by
      intro es es' hm hr
      refine hr.all2.mem_left.imp fun a a' h => h0 a (hm a h.1) a' h.2.2
    cases hR with
    | bool b => exact rel_bool b
    | int b => exact rel_int b
    | str b => exact rel_str b
    | trap m t t' => exact rel_trap m t t'
    | name x =>
      refine rel_var fun j hj => CE.succ ?_
      rcases h x (by simp [Free]) with ⟨h1, h2⟩ | ⟨v, v', h1, h2, h3⟩
      · simp only [eval_name, h1, h2]; exact CE.panic
      · simp only [eval_name, h1, h2]; exact CE.ok (h3.mono hj)
    | call hf hx => exact rel_call (h0 _ (by simp [children]) _ hf) (hL _ _ (fun a ha => by simp [children, ha]) hx)
    | ite ha hb hc => exact rel_ite (h0 _ (by simp [children]) _ ha) (h0 _ (by simp [children]) _ hb) (h0 _ (by simp [children]) _ hc)
    | op o ha hb => exact rel_op (h0 _ (by simp [children]) _ ha) (h0 _ (by simp [children]) _ hb)
    | intr i hx => exact rel_intr (hL _ _ (fun a ha => by simp [children, ha]) hx)
    | con c t t' hx => exact rel_con (hL _ _ (fun a ha => by simp [children, ha]) hx)
    | pi v v' he => exact rel_pi (h0 _ (by simp [children]) _ he)
    | piApp t t' he => exact rel_piApp (h0 _ (by simp [children]) _ he)
    | @lam ps ps' b b' hp hb =>
      have hl : ps.length = ps'.length := by have := congrArg List.length hp; simpa using this.symm
      have hc : (ps.map (·.1), b) ∈ children (Expr.lam ps b) := by simp [children]
      refine rel_lam hl fun j hj vs vs' hv hl => ?_
      rw [hp]
      refine ih b (mem_children_size hc) hb (hsc _ hc) fun x hx => ?_
      refine LookRel2.bindAll hv (by simpa using hl) (fun y hy he => hS x y (hsc _ hc x (.inl hx)) (hown y (own_of_scope hc hy)) he) fun hn => ?_
      exact (hfr _ hc x hx hn).mono (by omega)
    | @mtch a a' bs bs' ha hb =>
      refine rel_mtch (h0 _ (by simp [children]) _ ha) (relBr_all2 (hb.all2.mem_left.imp ?_))
      rintro b b' ⟨hb1, -, h1, h2, h3⟩
      have hc : (b.binds, b.body) ∈ children (Expr.mtch a bs) := by
        simp only [children, List.mem_cons, List.mem_map]; exact .inr ⟨b, hb1, rfl⟩
      refine ⟨h1, by rw [h2]; simp, fun j hj fs fs' hf hl => ?_⟩
      rw [h2]
      refine ih b.body (mem_children_size hc) h3 (hsc _ hc) fun x hx => ?_
      refine LookRel2.bindAll hf hl (fun y hy he => hS x y (hsc _ hc x (.inl hx)) (hown y (own_of_scope hc hy)) he) fun hn => ?_
      exact (hfr _ hc x hx hn).mono hj
    | @let_ v v' b b' n hv hb =>
      have hc : ([n], b) ∈ children (Expr.let_ n v b) := by simp [children]
      refine rel_let (h0 _ (by simp [children]) _ hv) fun j hj w w' hw => ?_
      refine ih b (mem_children_size hc) hb (hsc _ hc) fun x hx => ?_
      refine LookRel2.cons hw ⟨fun h => by rw [h], fun he => hS x n (hsc _ hc x (.inl hx)) (hown n (by simp [own])) he⟩ fun hn => ?_
      exact (hfr _ hc x hx (by simpa using hn)).mono hj
    | @letrec v v' b b' n t t' hv hb =>
      have hc : ([n], b) ∈ children (Expr.letrec n t v b) := by simp [children]
      have hcv : ([n], v) ∈ children (Expr.letrec n t v b) := by simp [children]
      have hSn : S n := hown n (by simp [own])
      refine rel_letrec ?_
      rcases hv.recLam with hr | ⟨ps, d, d', h1, h2, h3⟩
      · exact .inl hr
      · refine .inr ⟨ps, d, _, d', h1, h2, ?_⟩
        have hOd : ∀ y, Occ y d → S y := by
          intro y hy
          by_cases hm : y ∈ ps
          · exact hsc _ hcv y (.inr ((recLam_binders h1).2 (.inl hm)))
          · rcases hy with hy | hy
            · exact hsc _ hcv y (.inl ((recLam_free h1).2 ⟨hm, hy⟩))
            · exact hsc _ hcv y (.inr ((recLam_binders h1).2 (.inr hy)))
        have hV : ∀ j, j ≤ k → V s j (.rclo ρ n ps d) (.rclo ρ' (σ n) (ps.map σ) d') := by
          intro j hj
          refine FR_rclo (by simp) fun i hi hself vs vs' hvs hl => ?_
          refine ih d (Nat.lt_trans (recLam_size h1) (mem_children_size hcv)) h3 hOd fun x hx => ?_
          refine LookRel2.cons hself ⟨fun h => by rw [h], fun he => hS x n (hOd x (.inl hx)) hSn he⟩ fun hxn => ?_
          refine LookRel2.bindAll hvs hl (fun y hy he => hS x y (hOd x (.inl hx)) (hsc _ hcv y (.inr ((recLam_binders h1).2 (.inl hy)))) he) fun hxp => ?_
          exact (hfr _ hcv x ((recLam_free h1).2 ⟨hxp, hx⟩) (by simpa using hxn)).mono (by omega)
        refine ⟨hV, ih b (mem_children_size hc) hb (hsc _ hc) fun x hx => ?_⟩
        refine LookRel2.cons (hV k (Nat.le_refl _)) ⟨fun h => by rw [h], fun he => hS x n (hsc _ hc x (.inl hx)) hSn he⟩ fun hn => ?_
        exact hfr _ hc x hx (by simpa using hn)

/-- `RelD` in either direction: `true` is from the first to the second expression. -/
def Rel2 (d : Bool) (s : Mode) (k : Nat) (ρ : Env) (e : Expr) (ρ' : Env) (e' : Expr) : Prop :=
  match d with
  | true => RelD s k ρ e ρ' e'
  | false => RelD s k ρ e' ρ' e

/-- Bindings of variables that do not occur are irrelevant. -/
theorem RelD.env {ρ ρ2 : Env} {a b : Expr} (h : ∀ j, RelD s j ρ a ρ b) (hx : ∀ y, Free y a ∨ Free y b → lookup y ρ2 = lookup y ρ) (j : Nat) :
    RelD s j ρ2 a ρ2 b := by
  refine RelD.weaken (ρ' := ρ) ?_ fun y hy => hx y (.inr hy)
  refine RelD.trans (e' := a) (ρ' := ρ) (fund a fun y hy => ?_) h
  exact (LookRel.refl s j ρ y).congr (hx y (.inl hy)) rfl

theorem Rel2.env {d : Bool} {ρ ρ2 : Env} {a b : Expr} (h : ∀ j, Rel2 d s j ρ a ρ b) (hx : ∀ y, Free y a ∨ Free y b → lookup y ρ2 = lookup y ρ) (j : Nat) :
    Rel2 d s j ρ2 a ρ2 b := by
  cases d
  · exact RelD.env h (fun y hy => hx y hy.symm) j
  · exact RelD.env h hx j

theorem Rel2.trans {d : Bool} {k : Nat} {ρ ρ' : Env} {a b c : Expr} (hk : Rel2 d s k ρ a ρ' b)
    (h' : ∀ j, Rel2 d s j ρ' b ρ' c) (hk' : Rel2 d s k ρ b ρ' c) (h2 : ∀ j, Rel2 d s j ρ' a ρ' b) : Rel2 d s k ρ a ρ' c := by
  cases d
  · exact RelD.trans (e := c) hk' h2
  · exact RelD.trans (e := a) hk h'

end Tic.Core
