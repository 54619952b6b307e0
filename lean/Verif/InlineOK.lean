import Verif.Rebuild
/-
Helper: the inlining walk keeps results and scoping.
-/
namespace Tic.Core

variable {d : Bool} {s : Mode}

/-- Inlinable values. -/
abbrev InlMap := Name → Option (Expr × Nat)

/-- The inlinable values of the names in scope are expressions over the scope. -/
def StatOK (G : InlMap) (X : List Name) : Prop :=
  ∀ x ∈ X, ∀ v c, G x = some (v, c) → ∃ X0, (∀ y ∈ X0, y ∈ X) ∧ Good X0 v

/-- The environments agree on the scope, and on the right every inlinable name has the value of
its expression. -/
structure JJ (d : Bool) (s : Mode) (G : InlMap) (X : List Name) (k : Nat) (ρ ρ' : Env) : Prop where
  look : ∀ x ∈ X, LookRel s k ρ ρ' x
  inl : ∀ x ∈ X, ∀ v c, G x = some (v, c) → ∀ j, Rel2 d s j ρ' (.name x) ρ' v

theorem JJ.right {G : InlMap} {X : List Name} {k : Nat} {ρ ρ' : Env} (h : JJ d s G X k ρ ρ') (j : Nat) : JJ d s G X j ρ' ρ' :=
  ⟨fun x _ => LookRel.refl s j ρ' x, h.inl⟩

theorem JJ.congr {G G' : InlMap} {X : List Name} {k : Nat} {ρ ρ' : Env} (h : JJ d s G X k ρ ρ') (hg : ∀ x ∈ X, G' x = G x) : JJ d s G' X k ρ ρ' :=
  ⟨h.look, fun x hx v c hv => h.inl x hx v c (by rw [← hg x hx]; exact hv)⟩

theorem JJ.ext {G : InlMap} {X ns : List Name} {k j : Nat} {ρ ρ' ρ2 ρ2' : Env} (h : JJ d s G X k ρ ρ') (hs : StatOK G X) (hj : j ≤ k)
    (hns : ∀ y ∈ ns, y ∉ X ∧ G y = none) (he : Ext s j ns ρ ρ' ρ2 ρ2') : JJ d s G (ns ++ X) j ρ2 ρ2' := by
  refine ⟨fun x hx => ?_, fun x hx v c hv i => ?_⟩
  · by_cases hm : x ∈ ns
    · exact he.new x hm
    · exact ((h.look x ((List.mem_append.1 hx).resolve_left hm)).mono hj).congr (he.old x hm) (he.old' x hm)
  · have hm : x ∉ ns := fun hm => by rw [(hns x hm).2] at hv; cases hv
    have hx' := (List.mem_append.1 hx).resolve_left hm
    obtain ⟨X0, hX0, hg⟩ := hs x hx' v c hv
    refine Rel2.env (h.inl x hx' v c hv) (fun y hy => ?_) i
    rcases hy with hy | hy
    · simp only [Free] at hy; subst hy; exact he.old' y hm
    · exact he.old' y fun hyn => (hns y hyn).1 (hX0 y (hg.scope y hy))

theorem StatOK.ext {G : InlMap} {X ns : List Name} (h : StatOK G X) (hns : ∀ y ∈ ns, G y = none) : StatOK G (ns ++ X) := by
  intro x hx v c hv
  have hm : x ∉ ns := fun hm => by rw [hns x hm] at hv; cases hv
  obtain ⟨X0, h1, h2⟩ := h x ((List.mem_append.1 hx).resolve_left hm) v c hv
  exact ⟨X0, fun y hy => List.mem_append_right _ (h1 y hy), h2⟩

theorem StatOK.congr {G G' : InlMap} {X : List Name} (h : StatOK G X) (hg : ∀ x ∈ X, G' x = G x) : StatOK G' X :=
  fun x hx v c hv => h x hx v c (by rw [← hg x hx]; exact hv)

/-- What has to hold before an expression is visited. -/
structure IPre (X : List Name) (e : Expr) (st : InlSt) : Prop where
  good : Good X e
  xlt : ∀ x : Nat, x ∈ X → x < st.next
  blt : ∀ y : Nat, 0 < cnt y e → y < st.next
  bnone : ∀ y : Nat, 0 < cnt y e → st.get y = none
  fnone : ∀ y : Nat, st.next ≤ y → st.get y = none
  stat : StatOK st.get X

/-- What holds afterwards, apart from the state. -/
structure IRes (d : Bool) (s : Mode) (G : InlMap) (X : List Name) (e e' : Expr) : Prop where
  good : Good X e'
  rel : ∀ k ρ ρ', JJ d s G X k ρ ρ' → Rel2 d s k ρ e ρ' e'
  recs : ∀ ps b, recLam e = some (ps, b) → ∃ b', recLam e' = some (ps, b') ∧ ∀ k ρ ρ', JJ d s G (ps ++ X) k ρ ρ' → Rel2 d s k ρ b ρ' b'

/-- What holds afterwards. -/
structure IPost (d : Bool) (s : Mode) (X : List Name) (e : Expr) (st : InlSt) (e' : Expr) (st' : InlSt) : Prop extends IRes d s st.get X e e' where
  le : st.next ≤ st'.next
  get : ∀ y : Nat, y < st.next → cnt y e = 0 → st'.get y = st.get y
  fnone : ∀ y : Nat, st'.next ≤ y → st'.get y = none
  cold : ∀ y : Nat, y < st.next → cnt y e' ≤ cnt y e
  cnew : ∀ y : Nat, st'.next ≤ y → cnt y e' = 0

theorem IRes.congr {G G' : InlMap} {X : List Name} {e e' : Expr} (h : IRes d s G X e e') (hg : ∀ x ∈ X, G' x = G x)
    (hb : ∀ y, 0 < cnt y e → G' y = G y) : IRes d s G' X e e' := by
  refine ⟨h.good, fun k ρ ρ' hJ => h.rel k ρ ρ' (hJ.congr fun x hx => (hg x hx).symm), fun ps b hr => ?_⟩
  obtain ⟨b', h1, h2⟩ := h.recs ps b hr
  refine ⟨b', h1, fun k ρ ρ' hJ => h2 k ρ ρ' (hJ.congr fun x hx => ?_)⟩
  rcases List.mem_append.1 hx with hx | hx
  · exact (hb x (mem_binders_iff.1 ((recLam_binders hr).2 (.inl hx)))).symm
  · exact (hg x hx).symm

/-! ### One node -/

theorem checkForInline_free {e : Expr} {x : Name} {c : Nat} (h : checkForInline e = some (x, c)) : Free x e := by
  induction e using Expr.childInd generalizing c with
  | _ e ih =>
    cases e <;> simp only [checkForInline, reduceCtorEq] at h
    case name n => cases h; simp [Free]
    case call f xs =>
      obtain ⟨⟨x0, c0⟩, h1, h2⟩ := Option.map_eq_some_iff.1 h
      cases h2
      exact .inl (ih ([], f) (by simp [children]) h1)
    case piApp f t => exact ih ([], f) (by simp [children]) h

theorem inlineAt_cnt {e a : Expr} {x : Name} {c : Nat} (h : checkForInline e = some (x, c)) (y : Name) :
    cnt y (inlineAt a e) = cnt y e + cnt y a := by
  induction e using Expr.childInd generalizing c with
  | _ e ih =>
    cases e <;> simp only [checkForInline, reduceCtorEq] at h
    case name n => simp [inlineAt, cnt, binders]
    case call f xs =>
      obtain ⟨⟨x0, c0⟩, h1, h2⟩ := Option.map_eq_some_iff.1 h
      cases h2
      have := ih ([], f) (by simp [children]) h1
      simp only [inlineAt, cnt, binders, List.count_append] at this ⊢; omega
    case piApp f t =>
      have := ih ([], f) (by simp [children]) h
      simp only [inlineAt, cnt, binders] at this ⊢; omega

theorem inlineAt_free {e a : Expr} {x : Name} {c : Nat} (h : checkForInline e = some (x, c)) {y : Name} (hy : Free y (inlineAt a e)) :
    Free y e ∨ Free y a := by
  induction e using Expr.childInd generalizing c with
  | _ e ih =>
    cases e <;> simp only [checkForInline, reduceCtorEq] at h
    case name n => exact .inr hy
    case call f xs =>
      obtain ⟨⟨x0, c0⟩, h1, h2⟩ := Option.map_eq_some_iff.1 h
      cases h2
      simp only [inlineAt, Free] at hy ⊢
      rcases hy with hy | hy
      · rcases ih ([], f) (by simp [children]) h1 hy with h | h
        · exact .inl (.inl h)
        · exact .inr h
      · exact .inl (.inr hy)
    case piApp f t => exact ih ([], f) (by simp [children]) h hy

theorem inlineAt_shaped {e a : Expr} {x : Name} {c : Nat} (h : checkForInline e = some (x, c)) (he : WellShaped e) (hd : WellShaped a) :
    WellShaped (inlineAt a e) := by
  induction e using Expr.childInd generalizing c with
  | _ e ih =>
    cases e <;> simp only [checkForInline, reduceCtorEq] at h
    case name n => exact hd
    case call f xs =>
      obtain ⟨⟨x0, c0⟩, h1, h2⟩ := Option.map_eq_some_iff.1 h
      cases h2
      rw [wellShaped_iff] at he ⊢
      refine ⟨trivial, fun c hc => ?_⟩
      simp only [inlineAt, children, List.mem_cons] at hc
      rcases hc with rfl | hc
      · exact ih ([], f) (by simp [children]) h1 (he.2 ([], f) (by simp [children]))
      · exact he.2 c (by simp only [children, List.mem_cons]; exact .inr hc)
    case piApp f t =>
      rw [wellShaped_iff] at he ⊢
      refine ⟨trivial, fun c hc => ?_⟩
      simp only [inlineAt, children, List.mem_cons, List.not_mem_nil, or_false] at hc
      subst hc
      exact ih ([], f) (by simp [children]) h (he.2 ([], f) (by simp [children]))

theorem inlineAt_rel {e a : Expr} {x : Name} {c : Nat} (h : checkForInline e = some (x, c)) {k : Nat} {ρ ρ' : Env}
    (hd : Rel2 d s k ρ (.name x) ρ' a) (hl : ∀ y, Free y e → LookRel s k ρ ρ' y) : Rel2 d s k ρ e ρ' (inlineAt a e) := by
  induction e using Expr.childInd generalizing c with
  | _ e ih =>
    cases e <;> simp only [checkForInline, reduceCtorEq] at h
    case name n => cases h; exact hd
    case call f xs =>
      obtain ⟨⟨x0, c0⟩, h1, h2⟩ := Option.map_eq_some_iff.1 h
      cases h2
      have h2 := ih ([], f) (by simp [children]) h1 fun y hy => hl y (.inl hy)
      have h3 : All2 (fun a a' => RelD s k ρ a ρ' a') xs xs := All2.self fun a ha => fund a fun y hy => hl y (.inr (FreeL_iff.2 ⟨a, ha, hy⟩))
      cases d
      · exact rel_call h2 h3
      · exact rel_call h2 h3
    case piApp f t =>
      have h2 := ih ([], f) (by simp [children]) h hl
      cases d
      · exact rel_piApp h2
      · exact rel_piApp h2

theorem recLam_notInline {e : Expr} {ps : List Name} {b : Expr} (h : recLam e = some (ps, b)) : checkForInline e = none := by
  rcases recLam_cases h with ⟨ps', rfl, -⟩ | ⟨a, e', rfl, -⟩ <;> rfl

theorem rel2_fund {k : Nat} {ρ ρ' : Env} {e : Expr} (h : ∀ x, Free x e → LookRel s k ρ ρ' x) : Rel2 d s k ρ e ρ' e := by
  cases d <;> exact fund e h

theorem IRes.refl {X : List Name} {e : Expr} {G : InlMap} (h : Good X e) : IRes d s G X e e := by
  refine ⟨h, fun k ρ ρ' hJ => rel2_fund fun x hx => hJ.look x (h.scope x hx), fun ps b hr => ⟨b, hr, fun k ρ ρ' hJ => rel2_fund fun x hx => hJ.look x ?_⟩⟩
  by_cases hm : x ∈ ps
  · exact List.mem_append_left _ hm
  · exact List.mem_append_right _ (h.scope x ((recLam_free hr).2 ⟨hm, hx⟩))

/-- Inlining at one node. -/
theorem inlineNode_ok {X : List Name} {e : Expr} {st : InlSt} (h : IPre X e st) :
    IPost d s X e st (inlineNode e st).1 (inlineNode e st).2 ∧ (inlineNode e st).2.inl = st.inl := by
  have hrefl : IPost d s X e st e st ∧ st.inl = st.inl :=
    ⟨{ toIRes := .refl h.good, le := Nat.le_refl _, get := fun _ _ _ => rfl, fnone := h.fnone, cold := fun _ _ => Nat.le_refl _,
       cnew := fun y hy => by by_cases hc : cnt y e = 0; exact hc; have := h.blt y (by omega); omega }, rfl⟩
  unfold inlineNode
  cases hc : checkForInline e with
  | none => exact hrefl
  | some p =>
    obtain ⟨x, calls⟩ := p
    dsimp only
    cases hg : st.get x with
    | none => exact hrefl
    | some q =>
      obtain ⟨v, need⟩ := q
      dsimp only
      split
      · have hx : x ∈ X := h.good.scope x (checkForInline_free hc)
        obtain ⟨X0, h1, h2⟩ := h.stat x hx v need hg
        obtain ⟨c1, c2, c3, c4, c5, c6, c7⟩ := createCopy_ok (s := s) (st := st) h2 fun x hx => h.xlt x (h1 x hx)
        have hget : (createCopy v st).2.get = st.get := by unfold InlSt.get; rw [c2]
        have hcold : ∀ y : Nat, y < st.next → cnt y (createCopy v st).1 = 0 := fun y hy => by
          by_cases hz : cnt y (createCopy v st).1 = 0
          · exact hz
          · have := c4 y (by omega); omega
        have hcnt := inlineAt_cnt (a := (createCopy v st).1) hc
        refine ⟨{ good := ⟨fun y => ?_, fun y hy => ?_, fun y hy => ?_, inlineAt_shaped hc h.good.recs c6⟩, rel := fun k ρ ρ' hJ => ?_, recs := fun ps b hr => ?_, le := c1, get := fun y _ _ => by rw [hget], fnone := fun y hy => by rw [hget]; exact h.fnone y (Nat.le_trans c1 hy), cold := fun y hy => ?_, cnew := fun y hy => ?_ }, c2⟩
        · rw [hcnt]
          by_cases hy : (y : Nat) < st.next
          · rw [hcold y hy]; have := h.good.uniq y; omega
          · have : cnt y e = 0 := by
              by_cases hz : cnt y e = 0
              · exact hz
              · exact absurd (h.blt y (by omega)) hy
            have := c3 y; omega
        · rw [hcnt, h.good.disj y hy, hcold y (h.xlt y hy)]
        · rcases inlineAt_free hc hy with hy | hy
          · exact h.good.scope y hy
          · exact h1 y (h2.scope y (c5 y hy))
        · refine inlineAt_rel hc ?_ fun y hy => hJ.look y (h.good.scope y hy)
          have h3 := hJ.inl x hx v need hg
          have h4 : ∀ j, Rel2 d s j ρ' v ρ' (createCopy v st).1 := fun i => c7 d i ρ' ρ' fun y _ => LookRel.refl s i ρ' y
          have h5 : RelD s k ρ (.name x) ρ' (.name x) := rel_name (hJ.look x hx)
          have h6 : Rel2 d s k ρ v ρ' (createCopy v st).1 := c7 d k ρ ρ' fun y hy => hJ.look y (h1 y (h2.scope y hy))
          cases d
          · exact RelD.trans (e := (createCopy v st).1) (RelD.trans (e := (createCopy v st).1) h6 h3) fun j => fund _ fun y _ => LookRel.refl s j ρ' y
          · exact h5.trans fun j => RelD.trans (e := .name x) (h3 j) h4
        · rw [recLam_notInline hr] at hc; cases hc
        · rw [hcnt, hcold y hy]; omega
        · rw [hcnt]
          have hy' : (createCopy v st).2.next ≤ y := hy
          have h3 : cnt y e = 0 := by
            by_cases hz : cnt y e = 0
            · exact hz
            · have := h.blt y (by omega); omega
          have h4 : cnt y (createCopy v st).1 = 0 := by
            by_cases hz : cnt y (createCopy v st).1 = 0
            · exact hz
            · exact absurd (c4 y (by omega)).2 (Nat.not_lt.2 hy')
          omega
      · exact hrefl

theorem IPost.pre {X : List Name} {e e' : Expr} {st st' : InlSt} (h : IPre X e st) (h' : IPost d s X e st e' st') (hi : st'.inl = st.inl) :
    IPre X e' st' := by
  have hget : st'.get = st.get := by unfold InlSt.get; rw [hi]
  refine ⟨h'.good, fun x hx => Nat.lt_of_lt_of_le (h.xlt x hx) h'.le, fun y hy => ?_, fun y hy => ?_, h'.fnone, h.stat.congr fun x _ => by rw [hget]⟩
  · by_cases hz : y < st'.next
    · exact hz
    · have := h'.cnew y (by omega); omega
  · rw [hget]
    by_cases hz : y < st.next
    · exact h.bnone y (by have := h'.cold y hz; omega)
    · exact h.fnone y (by omega)

/-! ### Lists of subexpressions -/

/-- What is known about visiting expressions with `g`. -/
def GoOK (d : Bool) (s : Mode) (g : Expr → InlSt → Option (Expr × InlSt)) : Prop :=
  ∀ X e st e' st', IPre X e st → g e st = some (e', st') → IPost d s X e st e' st'

theorem sum_pos_of_mem {α : Type} {f : α → Nat} {l : List α} {c : α} (h : c ∈ l) (hp : 0 < f c) : 0 < (l.map f).sum := by
  have := le_sum_map f h; omega

theorem goL_ok {g : Expr → InlSt → Option (Expr × InlSt)} (hg : GoOK d s g) {X : List Name} :
    ∀ (cs : List (List Name × Expr)) (st : InlSt) (es' : List Expr) (st' : InlSt),
    (∀ c ∈ cs, Good (c.1 ++ X) c.2) → (∀ y, (cs.map fun c => cnt y c.2).sum ≤ 1) →
    (∀ c ∈ cs, ∀ y : Nat, y ∈ c.1 → y < st.next ∧ y ∉ X ∧ st.get y = none ∧ (cs.map fun c => cnt y c.2).sum = 0) →
    (∀ x : Nat, x ∈ X → x < st.next) → (∀ y : Nat, 0 < (cs.map fun c => cnt y c.2).sum → y < st.next ∧ st.get y = none) →
    (∀ y : Nat, st.next ≤ y → st.get y = none) → StatOK st.get X →
    goL g (cs.map (·.2)) st = some (es', st') →
    All2 (fun c e' => IRes d s st.get (c.1 ++ X) c.2 e') cs es' ∧ st.next ≤ st'.next ∧
    (∀ y : Nat, y < st.next → (cs.map fun c => cnt y c.2).sum = 0 → st'.get y = st.get y) ∧
    (∀ y : Nat, st'.next ≤ y → st'.get y = none) ∧
    (∀ y : Nat, y < st.next → (es'.map (cnt y)).sum ≤ (cs.map fun c => cnt y c.2).sum) ∧
    (∀ y : Nat, st.next ≤ y → (es'.map (cnt y)).sum ≤ 1) ∧
    (∀ y : Nat, st'.next ≤ y → (es'.map (cnt y)).sum = 0) := by
  intro cs
  induction cs with
  | nil =>
    intro st es' st' _ _ _ _ _ hf _ h
    simp only [List.map_nil, goL, Option.some.injEq, Prod.mk.injEq] at h
    obtain ⟨rfl, rfl⟩ := h
    exact ⟨trivial, Nat.le_refl _, fun _ _ _ => rfl, hf, fun _ _ => by simp, fun _ _ => by simp, fun _ _ => by simp⟩
  | cons c cs ih =>
    intro st es' st' hgood hu ho hx hb hf hst h
    simp only [List.map_cons, goL] at h
    obtain ⟨⟨e1, st1⟩, h1, h2⟩ := Option.bind_eq_some_iff.1 h
    obtain ⟨⟨es2, st2⟩, h3, h4⟩ := Option.bind_eq_some_iff.1 h2
    simp only [Option.some.injEq, Prod.mk.injEq] at h4
    obtain ⟨rfl, rfl⟩ := h4
    simp only [List.map_cons, List.sum_cons] at hu ho hb
    have hX1 : ∀ x : Nat, x ∈ X → cnt x c.2 = 0 := fun x hx => (hgood c (by simp)).disj x (by simp [hx])
    have hcX : ∀ y ∈ c.1, y ∉ X ∧ st.get y = none := fun y hy => ⟨(ho c (by simp) y hy).2.1, (ho c (by simp) y hy).2.2.1⟩
    have hpre : IPre (c.1 ++ X) c.2 st := by
      refine ⟨hgood c (by simp), fun x hx' => ?_, fun y hy => (hb y (by omega)).1, fun y hy => (hb y (by omega)).2, hf, hst.ext fun y hy => (hcX y hy).2⟩
      rcases List.mem_append.1 hx' with h | h
      · exact (ho c (by simp) x h).1
      · exact hx x h
    have hp := hg _ _ _ _ _ hpre h1
    have hXget : ∀ x ∈ X, st1.get x = st.get x := fun x hx' => hp.get x (hx x hx') (hX1 x hx')
    obtain ⟨i1, i2, i3, i4, i5, i6, i7⟩ := ih st1 es2 st2 (fun d hd => hgood d (by simp [hd])) (fun y => by have := hu y; omega)
      (fun d hd y hy => by
        obtain ⟨o1, o2, o3, o4⟩ := ho d (by simp [hd]) y hy
        exact ⟨Nat.lt_of_lt_of_le o1 hp.le, o2, by rw [hp.get y o1 (by omega)]; exact o3, by omega⟩)
      (fun x hx' => Nat.lt_of_lt_of_le (hx x hx') hp.le)
      (fun y hy => by
        obtain ⟨b1, b2⟩ := hb y (by omega)
        exact ⟨Nat.lt_of_lt_of_le b1 hp.le, by rw [hp.get y b1 (by have := hu y; omega)]; exact b2⟩)
      hp.fnone (hst.congr hXget) h3
    refine ⟨⟨hp.toIRes, ?_⟩, Nat.le_trans hp.le i2, fun y hy hz => ?_, i4, fun y hy => ?_, fun y hy => ?_, fun y hy => ?_⟩
    · refine i1.mem_left.imp fun d e' ⟨hd, _, hr⟩ => hr.congr (fun x hx' => ?_) fun y hy => ?_
      · rcases List.mem_append.1 hx' with h | h
        · obtain ⟨o1, o2, o3, o4⟩ := ho d (by simp [hd]) x h
          exact (hp.get x o1 (by omega)).symm
        · exact (hXget x h).symm
      · have hs : 0 < (cs.map fun c => cnt y c.2).sum := sum_pos_of_mem (f := fun c : List Name × Expr => cnt y c.2) hd hy
        exact (hp.get y (hb y (by omega)).1 (by have := hu y; omega)).symm
    · simp only [List.map_cons, List.sum_cons] at hz
      rw [i3 y (Nat.lt_of_lt_of_le hy hp.le) (by omega), hp.get y hy (by omega)]
    · simp only [List.map_cons, List.sum_cons]
      have h1 := hp.cold y hy
      have h2 := i5 y (Nat.lt_of_lt_of_le hy hp.le)
      show cnt y e1 + _ ≤ _
      omega
    · simp only [List.map_cons, List.sum_cons]
      have hz : (cs.map fun c => cnt y c.2).sum = 0 := by
        by_cases hz : (cs.map fun c => cnt y c.2).sum = 0
        · exact hz
        · have := (hb y (by omega)).1; omega
      by_cases hlt : y < st1.next
      · have h2 := i5 y hlt
        have h3 := hp.good.uniq y
        show cnt y e1 + _ ≤ _
        omega
      · have h2 := i6 y (by omega)
        have h3 := hp.cnew y (by omega)
        show cnt y e1 + _ ≤ _
        omega
    · simp only [List.map_cons, List.sum_cons]
      have h2 := i7 y hy
      have h3 := hp.cnew y (Nat.le_trans i2 hy)
      show cnt y e1 + _ = _
      omega

end Tic.Core
