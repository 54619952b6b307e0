import Verif.Lambda
import Verif.OptSpec
import Verif.InlineSimpleOK
/-
Correctness of the closure-compiling evaluator: compiling well-named expressions never panics, and
running the result simulates the tree-walking evaluator step by step.
-/
namespace Tic.Core

/-- Every intrinsic inside `e` has at least the arguments it uses. -/
def ArgsOK (e : Expr) : Prop := ∀ i xs, SubE (.intr i xs) e → i.arity ≤ xs.length

theorem ArgsOK.child {e : Expr} (h : ArgsOK e) {c : List Name × Expr} (hc : c ∈ children e) : ArgsOK c.2 :=
  fun i xs hs => h i xs (.step hc hs)

/-- induction from the end of a list -/
theorem snocInd {α : Type} {P : List α → Prop} (nil : P []) (snoc : ∀ l x, P l → P (l ++ [x])) (l : List α) : P l := by
  have : ∀ l : List α, P l.reverse := by
    intro l
    induction l with
    | nil => exact nil
    | cons x l ih => rw [List.reverse_cons]; exact snoc _ _ ih
  have := this l.reverse
  rwa [List.reverse_reverse] at this

/-! ## The resolver -/

/-- The resolver with the given stack. -/
def rof (st : List Name) : Resolver := Resolver.addAll {} st

theorem rof_append (st xs : List Name) : (rof st).addAll xs = rof (st ++ xs) := by
  simp [rof, Resolver.addAll, List.foldl_append]

theorem rof_add (st : List Name) (x : Name) : (rof st).add x = rof (st ++ [x]) := by
  rw [← rof_append]; rfl

theorem rof_stack : ∀ (st : List Name), (rof st).stack = st := by
  intro st
  suffices h : ∀ (xs : List Name) (r : Resolver), (r.addAll xs).stack = r.stack ++ xs by
    have := h st {}
    simpa [rof] using this
  intro xs
  induction xs with
  | nil => intro r; simp [Resolver.addAll]
  | cons x xs ih =>
    intro r
    have := ih (r.add x)
    simp only [Resolver.addAll, List.foldl_cons] at this ⊢
    rw [this]
    simp [Resolver.add]

theorem rof_snoc_names (st : List Name) (x : Name) : (rof (st ++ [x])).names =
    (x, st.length) :: (rof st).names.filter (fun p => p.1 ≠ x) := by
  rw [← rof_add, Resolver.add, rof_stack]

theorem rof_keys : ∀ (st : List Name) (p : Name × Nat), p ∈ (rof st).names → p.1 ∈ st := by
  intro st
  induction st using snocInd with
  | nil => intro p hp; cases hp
  | snoc st x ih =>
    intro p hp
    rw [rof_snoc_names] at hp
    rcases List.mem_cons.1 hp with rfl | hp
    · simp
    · exact List.mem_append_left _ (ih p (List.mem_filter.1 hp).1)

theorem rof_filter {st : List Name} {x : Name} (hx : x ∉ st) :
    (rof st).names.filter (fun p => p.1 ≠ x) = (rof st).names := by
  rw [List.filter_eq_self]
  intro p hp
  have := rof_keys st p hp
  simp only [ne_eq, decide_not, Bool.not_eq_eq_eq_not, Bool.not_true, decide_eq_false_iff_not]
  intro h
  rw [h] at this
  exact hx this

theorem rof_remove {st : List Name} {x : Name} (hx : x ∉ st) : (rof (st ++ [x])).remove x = some (rof st) := by
  rw [Resolver.remove, rof_stack, if_pos (by simp)]
  rw [rof_snoc_names, List.filter_cons_of_neg (by simp), List.filter_filter]
  simp only [Bool.and_self, List.dropLast_concat]
  rw [rof_filter hx]
  have := rof_stack st
  cases h : rof st
  rw [h] at this
  simp only at this
  rw [this]

theorem rof_removeAll (xs : List Name) : ∀ {st : List Name}, (st ++ xs).Nodup →
    (rof (st ++ xs)).removeAll xs.reverse = some (rof st) := by
  induction xs using snocInd with
  | nil => intro st _; simp [Resolver.removeAll]
  | snoc xs x ih =>
    intro st h
    rw [← List.append_assoc] at h
    rw [List.reverse_append, List.reverse_singleton, List.singleton_append, ← List.append_assoc,
      Resolver.removeAll, rof_remove (by
        intro hx
        have := (List.nodup_append.1 h).2.2 x hx x (by simp)
        exact this rfl)]
    exact ih (List.nodup_append.1 h).1

theorem assoc_filter {α : Type} {x y : Name} (h : x ≠ y) : ∀ (l : List (Name × α)),
    assoc x (l.filter (fun p => p.1 ≠ y)) = assoc x l := by
  intro l
  induction l with
  | nil => rfl
  | cons p l ih =>
    obtain ⟨z, a⟩ := p
    by_cases hz : z = y
    · rw [List.filter_cons_of_neg (by simp [hz]), ih, assoc, if_neg (by rw [hz]; exact Ne.symm h)]
    · rw [List.filter_cons_of_pos (by simp [hz]), assoc, assoc, ih]

theorem rof_assoc : ∀ {st : List Name}, st.Nodup → ∀ {i : Nat} {x : Name}, st[i]? = some x →
    assoc x (rof st).names = some i := by
  intro st
  induction st using snocInd with
  | nil => intro _ i x h; simp at h
  | snoc st y ih =>
    intro hn i x h
    rw [rof_snoc_names, assoc]
    have hy : y ∉ st := fun hx => (List.nodup_append.1 hn).2.2 y hx y (by simp) rfl
    by_cases hi : i < st.length
    · rw [List.getElem?_append_left hi] at h
      have hx : x ∈ st := List.mem_of_getElem? h
      have hxy : y ≠ x := fun e => hy (e ▸ hx)
      rw [if_neg hxy, assoc_filter (Ne.symm hxy)]
      exact ih (List.nodup_append.1 hn).1 h
    · rw [List.getElem?_append_right (by omega)] at h
      have : i - st.length = 0 := by
        by_cases h0 : i - st.length = 0
        · exact h0
        · rw [List.getElem?_eq_none (by simp; omega)] at h; cases h
      rw [this] at h
      simp only [List.getElem?_cons_zero, Option.some.injEq] at h
      rw [if_pos h]
      congr 1
      omega

theorem rof_length {st : List Name} (h : st.Nodup) : (rof st).names.length = st.length := by
  induction st using snocInd with
  | nil => rfl
  | snoc st x ih =>
    have hx : x ∉ st := fun hx => (List.nodup_append.1 h).2.2 x hx x (by simp) rfl
    rw [rof_snoc_names, rof_filter hx]
    simp [ih (List.nodup_append.1 h).1]

/-! ## Scopes -/

theorem Good.shrink {X X' : List Name} {e : Expr} (h : Good X e) (h1 : ∀ x ∈ X', x ∈ X)
    (h2 : ∀ x, Free x e → x ∈ X') : Good X' e :=
  ⟨h.uniq, fun y hy => h.disj y (h1 y hy), h2, h.recs⟩

theorem Good.own_nodup {X : List Name} {e : Expr} (h : Good X e) : (own e).Nodup := by
  rw [List.nodup_iff_count]
  intro y
  have := h.uniq y
  have := cnt_eq y e
  omega

theorem Good.own_new {X : List Name} {e : Expr} (h : Good X e) {y : Name} (hy : y ∈ own e) : y ∉ X := by
  intro hx
  have := h.disj y hx
  have := cnt_eq y e
  have := List.count_pos_iff.2 hy
  omega

/-- the names of known values -/
abbrev gkeys (G : List (Name × LVal)) : List Name := G.map (·.1)

theorem assoc_isSome {α : Type} {x : Name} {l : List (Name × α)} : x ∈ l.map (·.1) ↔ ∃ a, assoc x l = some a := by
  induction l with
  | nil => simp [assoc]
  | cons p l ih =>
    obtain ⟨y, a⟩ := p
    simp only [List.map_cons, List.mem_cons, assoc]
    by_cases h : y = x
    · simp [h]
    · rw [if_neg h, ← ih]
      constructor
      · rintro (h' | h')
        · exact absurd h'.symm h
        · exact h'
      · exact Or.inr

/-! ## Free names -/

structure FNOK (X : List Name) (free : Name → Prop) (acc res : List Name) : Prop where
  keep : ∀ x ∈ acc, x ∈ res
  free : ∀ x, free x → x ∈ res
  sub : ∀ x ∈ res, x ∈ X
  nodup : res.Nodup

/-- `free_names` of a well-named expression finds every free name, and only names in scope. -/
theorem freeNames_ok : ∀ (e : Expr) (X acc : List Name), Good X e → (∀ x ∈ acc, x ∈ X) → acc.Nodup →
    FNOK X (fun x => Free x e) acc (freeNames e acc) := by
  have hlist : ∀ (es : List Expr), (∀ e ∈ es, ∀ (X acc : List Name), Good X e → (∀ x ∈ acc, x ∈ X) → acc.Nodup →
      FNOK X (fun x => Free x e) acc (freeNames e acc)) → ∀ (X acc : List Name), (∀ e ∈ es, Good X e) →
      (∀ x ∈ acc, x ∈ X) → acc.Nodup → FNOK X (fun x => FreeL x es) acc (freeNamesL es acc) := by
    intro es
    induction es with
    | nil => intro _ X acc _ ha hn; exact ⟨fun _ h => h, (fun _ h => nomatch h), ha, hn⟩
    | cons e es ih =>
      intro h X acc hg ha hn
      have h1 := h e (by simp) X acc (hg e (by simp)) ha hn
      have h2 := ih (fun e he => h e (by simp [he])) X _ (fun e he => hg e (by simp [he])) h1.sub h1.nodup
      refine ⟨fun x hx => h2.keep x (h1.keep x hx), fun x hx => ?_, h2.sub, h2.nodup⟩
      rcases hx with hx | hx
      · exact h2.keep x (h1.free x hx)
      · exact h2.free x hx
  have hbr : ∀ (bs : List Branch), (∀ b ∈ bs, ∀ (X acc : List Name), Good X b.body → (∀ x ∈ acc, x ∈ X) → acc.Nodup →
      FNOK X (fun x => Free x b.body) acc (freeNames b.body acc)) → ∀ (X acc : List Name),
      (∀ b ∈ bs, Good (b.binds ++ X) b.body) → (∀ b ∈ bs, ∀ y ∈ b.binds, y ∉ X) →
      (∀ x ∈ acc, x ∈ X) → acc.Nodup → FNOK X (fun x => FreeB x bs) acc (freeNamesB bs acc) := by
    intro bs
    induction bs with
    | nil => intro _ X acc _ _ ha hn; exact ⟨fun _ h => h, (fun _ h => nomatch h), ha, hn⟩
    | cons b bs ih =>
      obtain ⟨c, ns, e⟩ := b
      intro h X acc hg hd ha hn
      have h1 := h (.mk c ns e) (by simp) (ns ++ X) acc (hg (.mk c ns e) (by simp))
        (fun x hx => List.mem_append_right _ (ha x hx)) hn
      have hns : ∀ y ∈ ns, y ∉ X := hd (.mk c ns e) (by simp)
      have h2 := ih (fun e he => h e (by simp [he])) X
        ((freeNames e acc).filter (fun x => x ∉ ns)) (fun e he => hg e (by simp [he]))
        (fun e he => hd e (by simp [he]))
        (by
          intro x hx
          obtain ⟨hx1, hx2⟩ := List.mem_filter.1 hx
          rcases List.mem_append.1 (h1.sub x hx1) with h' | h'
          · simp [h'] at hx2
          · exact h') (h1.nodup.filter _)
      refine ⟨fun x hx => h2.keep x (List.mem_filter.2 ⟨h1.keep x hx, ?_⟩), fun x hx => ?_, h2.sub, h2.nodup⟩
      · have := ha x hx
        simp only [decide_eq_true_eq]
        exact fun h' => hns x h' this
      · rcases hx with ⟨hx1, hx2⟩ | hx
        · exact h2.keep x (List.mem_filter.2 ⟨h1.free x hx2, by simpa using hx1⟩)
        · exact h2.free x hx
  intro e
  induction e using Expr.childInd with
  | _ e ih =>
  intro X acc hg ha hn
  have hleaf : ∀ {P : Name → Prop}, (∀ x, ¬ P x) → FNOK X P acc acc := fun h =>
    ⟨fun _ h => h, fun x hx => absurd hx (h x), ha, hn⟩
  have hlet : ∀ {n : Name} {v e : Expr} {Y : List Name}, n ∉ X → Good Y v → (∀ x ∈ X, x ∈ Y) → (∀ x ∈ Y, x ∈ n :: X) →
      Good (n :: X) e →
      (∀ X acc, Good X v → (∀ x ∈ acc, x ∈ X) → acc.Nodup → FNOK X (fun x => Free x v) acc (freeNames v acc)) →
      (∀ X acc, Good X e → (∀ x ∈ acc, x ∈ X) → acc.Nodup → FNOK X (fun x => Free x e) acc (freeNames e acc)) →
      FNOK X (fun x => (x ≠ n ∧ (Free x v ∨ Free x e))) acc
        ((freeNames e (freeNames v acc)).filter (fun x => x ≠ n)) := by
    intro n v e Y hnX hgv hY1 hY2 hge iv ie
    have h1 := iv Y acc hgv (fun x hx => hY1 x (ha x hx)) hn
    have h2 := ie (n :: X) (freeNames v acc) hge (fun x hx => hY2 x (h1.sub x hx)) h1.nodup
    refine ⟨fun x hx => List.mem_filter.2 ⟨h2.keep x (h1.keep x hx), ?_⟩, fun x hx => List.mem_filter.2 ⟨?_, by simpa using hx.1⟩, ?_, h2.nodup.filter _⟩
    · have := ha x hx
      simp only [ne_eq, decide_not, Bool.not_eq_eq_eq_not, Bool.not_true, decide_eq_false_iff_not]
      exact fun h => hnX (h ▸ this)
    · rcases hx.2 with h | h
      · exact h2.keep x (h1.free x h)
      · exact h2.free x h
    · intro x hx
      obtain ⟨hx1, hx2⟩ := List.mem_filter.1 hx
      rcases List.mem_cons.1 (h2.sub x hx1) with h | h
      · simp [h] at hx2
      · exact h
  cases e with
  | bool b => exact hleaf (fun x h => h)
  | int i => exact hleaf (fun x h => h)
  | str s => exact hleaf (fun x h => h)
  | trap m t => exact hleaf (fun x h => h)
  | name n =>
    have hnX := hg.scope n rfl
    simp only [freeNames]
    split
    · rename_i h
      exact ⟨fun _ h => h, fun x hx => by cases hx; exact h, ha, hn⟩
    · rename_i h
      refine ⟨fun _ h => List.mem_append_left _ h, fun x hx => by cases hx; simp, fun x hx => ?_, ?_⟩
      · rcases List.mem_append.1 hx with h' | h'
        · exact ha x h'
        · rw [List.mem_singleton.1 h']; exact hnX
      · rw [List.nodup_append]
        exact ⟨hn, by simp, fun a ha b hb => by rw [List.mem_singleton.1 hb]; exact fun e => h (e ▸ ha)⟩
  | call f xs =>
    have hf : Good X f := hg.child (c := ([], f)) (by simp [children])
    have hxs : ∀ e ∈ xs, Good X e := fun e he => hg.child (c := ([], e)) (by simp [children, he])
    have h1 := ih ([], f) (by simp [children]) X acc hf ha hn
    have h2 := hlist xs (fun e he => ih ([], e) (by simp [children, he])) X _ hxs h1.sub h1.nodup
    refine ⟨fun x hx => h2.keep x (h1.keep x hx), fun x hx => ?_, h2.sub, h2.nodup⟩
    rcases hx with hx | hx
    · exact h2.keep x (h1.free x hx)
    · exact h2.free x hx
  | ite c t e =>
    have h1 := ih ([], c) (by simp [children]) X acc (hg.child (c := ([], c)) (by simp [children])) ha hn
    have h2 := ih ([], t) (by simp [children]) X _ (hg.child (c := ([], t)) (by simp [children])) h1.sub h1.nodup
    have h3 := ih ([], e) (by simp [children]) X _ (hg.child (c := ([], e)) (by simp [children])) h2.sub h2.nodup
    refine ⟨fun x hx => h3.keep x (h2.keep x (h1.keep x hx)), fun x hx => ?_, h3.sub, h3.nodup⟩
    rcases hx with hx | hx | hx
    · exact h3.keep x (h2.keep x (h1.free x hx))
    · exact h3.keep x (h2.free x hx)
    · exact h3.free x hx
  | op a o b =>
    have h1 := ih ([], a) (by simp [children]) X acc (hg.child (c := ([], a)) (by simp [children])) ha hn
    have h2 := ih ([], b) (by simp [children]) X _ (hg.child (c := ([], b)) (by simp [children])) h1.sub h1.nodup
    refine ⟨fun x hx => h2.keep x (h1.keep x hx), fun x hx => ?_, h2.sub, h2.nodup⟩
    rcases hx with hx | hx
    · exact h2.keep x (h1.free x hx)
    · exact h2.free x hx
  | intr i xs =>
    exact hlist xs (fun e he => ih ([], e) (by simp [children, he])) X acc
      (fun e he => hg.child (c := ([], e)) (by simp [children, he])) ha hn
  | con c ts xs =>
    exact hlist xs (fun e he => ih ([], e) (by simp [children, he])) X acc
      (fun e he => hg.child (c := ([], e)) (by simp [children, he])) ha hn
  | lam ps b =>
    have h1 := ih (ps.map (·.1), b) (by simp [children]) (ps.map (·.1) ++ X) acc
      (hg.child (c := (ps.map (·.1), b)) (by simp [children])) (fun x hx => List.mem_append_right _ (ha x hx)) hn
    have hps : ∀ y ∈ ps.map (·.1), y ∉ X := fun y hy => hg.own_new (by simpa [own] using hy)
    refine ⟨fun x hx => List.mem_filter.2 ⟨h1.keep x hx, ?_⟩, fun x hx => List.mem_filter.2 ⟨h1.free x hx.2, by simpa using hx.1⟩, ?_, h1.nodup.filter _⟩
    · simp only [decide_eq_true_eq]
      exact fun h' => hps x h' (ha x hx)
    · intro x hx
      obtain ⟨hx1, hx2⟩ := List.mem_filter.1 hx
      rcases List.mem_append.1 (h1.sub x hx1) with h | h
      · simp only [decide_eq_true_eq] at hx2
        exact absurd h hx2
      · exact h
  | mtch d bs =>
    have h1 := ih ([], d) (by simp [children]) X acc (hg.child (c := ([], d)) (by simp [children])) ha hn
    have h2 := hbr bs (fun b hb => ih (b.binds, b.body) (by
        simp only [children, List.mem_cons, List.mem_map]
        exact .inr ⟨b, hb, rfl⟩)) X _
      (fun b hb => hg.child (c := (b.binds, b.body)) (by
        simp only [children, List.mem_cons, List.mem_map]
        exact .inr ⟨b, hb, rfl⟩))
      (fun b hb y hy => hg.own_new (by
        simp only [own, List.mem_flatMap]
        exact ⟨b, hb, hy⟩)) h1.sub h1.nodup
    refine ⟨fun x hx => h2.keep x (h1.keep x hx), fun x hx => ?_, h2.sub, h2.nodup⟩
    rcases hx with hx | hx
    · exact h2.keep x (h1.free x hx)
    · exact h2.free x hx
  | let_ n v e =>
    have hnX : n ∉ X := hg.own_new (by simp [own])
    have hgv : Good X v := hg.child (c := ([], v)) (by simp [children])
    have hge : Good (n :: X) e := hg.child (c := ([n], e)) (by simp [children])
    have := hlet hnX hgv (fun _ h => h) (fun _ h => List.mem_cons_of_mem _ h) hge
      (ih ([], v) (by simp [children])) (ih ([n], e) (by simp [children]))
    refine ⟨this.keep, fun x hx => this.free x ?_, this.sub, this.nodup⟩
    rcases hx with hx | hx
    · exact ⟨fun e => hnX (e ▸ hgv.scope x hx), .inl hx⟩
    · exact ⟨hx.1, .inr hx.2⟩
  | letrec n t v e =>
    have hnX : n ∉ X := hg.own_new (by simp [own])
    have hgv : Good (n :: X) v := hg.child (c := ([n], v)) (by simp [children])
    have hge : Good (n :: X) e := hg.child (c := ([n], e)) (by simp [children])
    exact hlet hnX hgv (fun _ h => List.mem_cons_of_mem _ h) (fun _ h => h) hge
      (ih ([n], v) (by simp [children])) (ih ([n], e) (by simp [children]))
  | pi v e => exact ih ([], e) (by simp [children]) X acc (hg.child (c := ([], e)) (by simp [children])) ha hn
  | piApp e t => exact ih ([], e) (by simp [children]) X acc (hg.child (c := ([], e)) (by simp [children])) ha hn

end Tic.Core
