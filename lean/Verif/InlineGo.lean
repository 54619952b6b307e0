import Verif.InlineOK
import Verif.LambdaOK
/-
Helper: the inlining walk keeps results and scoping (continued).
-/
namespace Tic.Core

variable {d : Bool} {s : Mode}

theorem sum_zero_of_ge {X : List Name} {e : Expr} {st : InlSt} (h : IPre X e st) {y : Nat} (hy : st.next ≤ y) :
    (own e).count y = 0 ∧ ((children e).map fun c => cnt y c.2).sum = 0 := by
  have h1 : cnt y e = 0 := by
    by_cases hz : cnt y e = 0
    · exact hz
    · have := h.blt y (by omega); omega
  rw [cnt_eq] at h1; omega

/-- Visiting the subexpressions of anything but a `let`. -/
theorem goSub_ok {g : Expr → InlSt → Option (Expr × InlSt)} (hg : GoOK d s g) {X : List Name} {e e' : Expr} {st st' : InlSt}
    (h : IPre X e st) (hl : ∀ n v b, e ≠ .let_ n v b) (he : goSub g e st = some (e', st')) : IPost d s X e st e' st' := by
  have he' : ((goL g ((children e).map (·.2)) st).bind fun r => some (rebuild e r.1, r.2)) = some (e', st') := by
    cases e <;> first | exact he | exact absurd rfl (hl _ _ _)
  obtain ⟨⟨es', st1⟩, h1, h2⟩ := Option.bind_eq_some_iff.1 he'
  simp only [Option.some.injEq, Prod.mk.injEq] at h2
  obtain ⟨rfl, rfl⟩ := h2
  have hcnt : ∀ y, cnt y e = (own e).count y + ((children e).map fun c => cnt y c.2).sum := fun y => cnt_eq y e
  have hown : ∀ c ∈ children e, ∀ y : Nat, y ∈ c.1 → 0 < (own e).count y := fun c hc y hy => List.count_pos_iff.2 (own_of_scope hc hy)
  have hns : ∀ c ∈ children e, ∀ y ∈ c.1, y ∉ X ∧ st.get y = none := fun c hc y hy => by
    have h1 := hown c hc y hy
    have h2 := hcnt y
    exact ⟨fun hx => by have := h.good.disj y hx; omega, h.bnone y (by omega)⟩
  obtain ⟨g1, g2, g3, g4, g5, g6, g7⟩ := goL_ok hg (X := X) (children e) st es' st1 (fun c hc => h.good.child hc)
    (fun y => by have := h.good.uniq y; rw [hcnt] at this; omega)
    (fun c hc y hy => by
      have h1 := hown c hc y hy
      have h2 := hcnt y
      have h3 := h.good.uniq y
      exact ⟨h.blt y (by omega), (hns c hc y hy).1, (hns c hc y hy).2, by omega⟩)
    h.xlt (fun y hy => ⟨h.blt y (by rw [hcnt]; omega), h.bnone y (by rw [hcnt]; omega)⟩) h.fnone h.stat h1
  have hlen : es'.length = (children e).length := g1.length.symm
  have hrec0 : ∀ n t v b v' b', e = .letrec n t v b → es' = [v', b'] → IRes d s st.get ([n] ++ X) v v' := by
    intro n t v b v' b' h1 h2
    subst h1; subst h2
    exact g1.1
  have hgood : Good X (rebuild e es') := by
    refine good_rebuild h.good (g1.imp fun c c' hr => hr.good) (fun n t v b v' b' h1 h2 => ?_) (fun y => ?_) fun y hy => ?_
    · have hr := hrec0 n t v b v' b' h1 h2
      have := h.good.recSome h1
      obtain ⟨⟨ps, a⟩, hd⟩ := Option.isSome_iff_exists.1 this
      obtain ⟨d', hd', -⟩ := hr.recs ps a hd
      rw [hd']; rfl
    · by_cases hy : (y : Nat) < st.next
      · have := g5 y hy; have h2 := h.good.uniq y; rw [hcnt] at h2; omega
      · have := sum_zero_of_ge h (Nat.not_lt.1 hy); have := g6 y (Nat.not_lt.1 hy); omega
    · have h2 := h.good.disj y hy
      rw [hcnt] at h2
      have := g5 y (h.xlt y hy); omega
  refine { good := hgood, rel := fun k ρ ρ' hJ => ?_, recs := fun ps b hr => ?_, le := g2, get := fun y hy hz => g3 y hy (by rw [hcnt] at hz; omega), fnone := g4, cold := fun y hy => ?_, cnew := fun y hy => ?_ }
  · refine rel2_rebuild (fun x hx => rel_name (hJ.look x (h.good.scope x (by subst hx; simp [Free])))) ?_ ?_
    · refine g1.mem_left.imp fun c c' ⟨hc, _, hr⟩ j hj ρ2 ρ2' hE => ?_
      exact hr.rel j ρ2 ρ2' (hJ.ext h.stat hj (hns c hc) hE)
    · intro n t v b v' b' h1 h2
      have hr := hrec0 n t v b v' b' h1 h2
      obtain ⟨⟨ps, a⟩, hd⟩ := Option.isSome_iff_exists.1 (h.good.recSome h1)
      obtain ⟨d', hd', hrel⟩ := hr.recs ps a hd
      refine ⟨ps, a, d', hd, hd', fun j hj ρ2 ρ2' hE => hrel j ρ2 ρ2' ?_⟩
      rw [← List.append_assoc]
      refine hJ.ext h.stat hj (fun y hy => ?_) hE
      have hb : 0 < cnt y e := by
        subst h1
        rcases List.mem_append.1 hy with hy | hy
        · exact mem_binders_iff.1 (by rw [binders]; exact List.mem_cons_of_mem _ (List.mem_append_left _ ((recLam_binders hd).2 (.inl hy))))
        · rw [List.mem_singleton.1 hy]; exact mem_binders_iff.1 (by rw [binders]; exact List.mem_cons_self)
      exact ⟨fun hx => by have := h.good.disj y hx; omega, h.bnone y hb⟩
  · rcases recLam_cases hr with ⟨ps', rfl, rfl⟩ | ⟨a, e0, rfl, h0⟩
    · cases es' with
      | nil => simp [children] at hlen
      | cons b' es' => cases es' with
        | cons _ _ => simp [children] at hlen
        | nil => exact ⟨b', recLam_lam _ _, fun k ρ ρ' hJ => g1.1.rel k ρ ρ' hJ⟩
    · cases es' with
      | nil => simp [children] at hlen
      | cons b' es' => cases es' with
        | cons _ _ => simp [children] at hlen
        | nil =>
          obtain ⟨d', h1, h2⟩ := g1.1.recs ps b h0
          exact ⟨d', by show recLam (.pi a b') = _; rw [recLam_pi]; exact h1, h2⟩
  · rw [cnt_rebuild hlen, hcnt]; have := g5 y hy; omega
  · rw [cnt_rebuild hlen, g7 y hy, (sum_zero_of_ge h (Nat.le_trans g2 hy)).1]

/-- On the right, the bound name has the value of the bound expression. -/
theorem rel_name_eval {ρ ρ' : Env} {x : Name} {v : Expr} {w : Val} {m : Nat} (hx : lookup x ρ = .ok w) (hm : eval m ρ' v = .ok w) (k : Nat) :
    RelD s k ρ (.name x) ρ' v := by
  intro j hj n
  cases n with
  | zero => exact CE.timeout
  | succ n =>
    intro hc ht
    refine ⟨m, ?_⟩
    simp only [evalC, hx, OutRel] at hc ht ⊢
    exact ⟨w, hm, V_refl s w _⟩

theorem rel_eval_name {ρ ρ' : Env} {x : Name} {v : Expr} {w : Val} {m : Nat} (hm : eval m ρ v = .ok w) (hx : lookup x ρ' = .ok w) (k : Nat) :
    RelD s k ρ v ρ' (.name x) := by
  intro j hj n hc ht
  have h1 : eval n ρ v = .ok w := by
    have h0 : eval n ρ v ≠ .timeout := by rw [← evalC_eval]; exact ht
    rw [← (eval_le (Nat.le_max_left n m) ρ v).eq h0, (eval_le (Nat.le_max_right n m) ρ v).eq (by rw [hm]; simp), hm]
  refine ⟨1, ?_⟩
  have h2 : (evalC n ρ v).2 = .ok w := by rw [evalC_eval]; exact h1
  rw [h2]
  exact ⟨w, hx, V_refl s w _⟩

/-- The environments under a `let`. -/
theorem jj_let {G : InlMap} {X : List Name} {n : Name} {v0 v : Expr} {j k : Nat} {ρ ρ' : Env} {w w' : Val} {m : Nat}
    (hst : StatOK G X) (hv : Good X v) (hn : n ∉ X) (hin : ∀ w c, G n = some (w, c) → w = v)
    (hJ : JJ d s G X k ρ ρ') (hj : j ≤ k) (hw : V s j w w') (hv0 : ∀ j, Rel2 d s j ρ' v0 ρ' v) (hm : eval m ρ' (if d then v else v0) = .ok w') :
    JJ d s G (n :: X) j ((n, w) :: ρ) ((n, w') :: ρ') := by
  have hne : ∀ x ∈ X, x ≠ n := fun x hx he => hn (he ▸ hx)
  have hlk : ∀ {x : Name} {u : Val} {ρ : Env}, x ≠ n → lookup x ((n, u) :: ρ) = lookup x ρ := fun h => by
    simp [lookup, Ne.symm h]
  refine ⟨fun x hx => ?_, fun x hx u c hu => ?_⟩
  · rcases List.mem_cons.1 hx with rfl | hx
    · exact .inr ⟨w, w', by simp [lookup], by simp [lookup], hw⟩
    · exact ((hJ.look x hx).mono hj).congr (hlk (hne x hx)) (hlk (hne x hx))
  · rcases List.mem_cons.1 hx with rfl | hx
    · rw [hin u c hu]
      intro i
      cases d with
      | true =>
        refine RelD.weaken (rel_name_eval (by simp [lookup]) hm i) fun y hy => ?_
        exact hlk (hne y (hv.scope y hy))
      | false =>
        refine RelD.trans (e := v) (e' := v) (ρ' := ρ') (fund v fun y hy => ?_) fun i => ?_
        · exact (LookRel.refl s i ρ' y).congr (hlk (hne y (hv.scope y hy))) rfl
        · exact RelD.trans (e := v) (hv0 i) fun i => rel_eval_name hm (by simp [lookup]) i
    · obtain ⟨X0, hX0, hgd⟩ := hst x hx u c hu
      refine Rel2.env (hJ.inl x hx u c hu) fun y hy => ?_
      rcases hy with hy | hy
      · simp only [Free] at hy; subst hy; exact hlk (hne y hx)
      · exact hlk (hne y (hX0 y (hgd.scope y hy)))

/-- A `let` in either direction. -/
theorem rel2_let {k : Nat} {ρ ρ' : Env} {n : Name} {v v' b b' : Expr} (hv : Rel2 d s k ρ v ρ' v')
    (hb : ∀ j, j ≤ k → ∀ w w', V s j w w' → (∃ m, eval m ρ' (if d then v' else v) = .ok w') → Rel2 d s j ((n, w) :: ρ) b ((n, w') :: ρ') b') :
    Rel2 d s k ρ (.let_ n v b) ρ' (.let_ n v' b') := by
  cases d
  · exact rel_let_eval hv hb
  · exact rel_let_eval hv hb

/-- Visiting the rest of a `let`. -/
theorem goRest_ok {X : List Name} {n : Name} {v b b' : Expr} {st st' : InlSt}
    (hst : StatOK st.get X) (hv : Good X v) (hn : n ∉ X) (hc : cnt n v = 0) (hu : ∀ y, cnt y v + cnt y b ≤ 1)
    (hvl : ∀ y : Nat, 0 < cnt y v → y < st.next)
    (hin : ∀ w c, st.get n = some (w, c) → w = v) (hp : IPost d s (n :: X) b st b' st') :
    Good X (.let_ n v b') ∧
    (∀ k ρ ρ' v0, JJ d s st.get X k ρ ρ' → Rel2 d s k ρ v0 ρ' v → (∀ j, Rel2 d s j ρ' v0 ρ' v) → Rel2 d s k ρ (.let_ n v0 b) ρ' (.let_ n v b')) := by
  refine ⟨good_let.2 ⟨hv, hp.good, hn, hc, fun y => ?_⟩, fun k ρ ρ' v0 hJ hr hr' => ?_⟩
  · by_cases hy : (y : Nat) < st.next
    · have := hp.cold y hy; have := hu y; omega
    · have h1 : cnt y v = 0 := by
        by_cases hz : cnt y v = 0
        · exact hz
        · exact absurd (hvl y (by omega)) hy
      have := hp.good.uniq y; omega
  · exact rel2_let hr fun j hj w w' hw ⟨m, hm⟩ => hp.rel j _ _ (jj_let hst hv hn hin hJ hj hw hr' hm)

theorem get_insert (st : InlSt) (x : Name) (v : Expr) (o : Option Nat) (y : Name) :
    (st.insert x v o).get y = if y = x then (match o with | some c => some (v, c) | none => st.get y) else st.get y := by
  cases o with
  | none => simp [InlSt.insert]
  | some c =>
    by_cases h : y = x
    · subst h; simp [InlSt.insert, InlSt.get]
    · simp [InlSt.insert, InlSt.get, h, Ne.symm h]

theorem next_insert (st : InlSt) (x : Name) (v : Expr) (o : Option Nat) : (st.insert x v o).next = st.next := by
  cases o <;> rfl

/-- Before the value of a `let` is visited. -/
theorem IPre.val {X : List Name} {n : Name} {v b : Expr} {st : InlSt} (h : IPre X (.let_ n v b) st) : IPre X v st :=
  ⟨(good_let.1 h.good).1, h.xlt, fun y hy => h.blt y (by rw [cnt_let]; omega), fun y hy => h.bnone y (by rw [cnt_let]; omega), h.fnone, h.stat⟩

theorem IPre.name {X : List Name} {n : Name} {v b : Expr} {st : InlSt} (h : IPre X (.let_ n v b) st) : (n : Nat) < st.next ∧ st.get n = none :=
  ⟨h.blt n (by rw [cnt_let]; simp; omega), h.bnone n (by rw [cnt_let]; simp; omega)⟩

/-- Before the rest of a `let` is visited. -/
theorem IPre.rest {X : List Name} {n : Name} {v v' b : Expr} {st st1 : InlSt} (h : IPre X (.let_ n v b) st) (o : Option Nat)
    (hp : IPost d s X v st v' st1) : IPre (n :: X) b (st1.insert n v' o) ∧ StatOK (st1.insert n v' o).get X ∧
    (∀ x ∈ X, (st1.insert n v' o).get x = st.get x) ∧ (∀ w c, (st1.insert n v' o).get n = some (w, c) → w = v') := by
  obtain ⟨g1, g2, g3, g4, g5⟩ := good_let.1 h.good
  have hX : ∀ x ∈ X, (st1.insert n v' o).get x = st.get x := fun x hx => by
    have hne : ¬ x = n := fun he => g3 (he ▸ hx)
    rw [get_insert, if_neg hne]
    exact hp.get x (h.xlt x hx) (g1.disj x hx)
  have hst : StatOK (st1.insert n v' o).get X := h.stat.congr hX
  have hin : ∀ w c, (st1.insert n v' o).get n = some (w, c) → w = v' := fun w c hw => by
    rw [get_insert, if_pos rfl] at hw
    cases o with
    | some c' => simp only [Option.some.injEq, Prod.mk.injEq] at hw; exact hw.1.symm
    | none =>
      dsimp only at hw
      rw [hp.get n h.name.1 g4, h.name.2] at hw; cases hw
  have hb : ∀ y : Nat, 0 < cnt y b → y < st.next ∧ st.get y = none := fun y hy => ⟨h.blt y (by rw [cnt_let]; omega), h.bnone y (by rw [cnt_let]; omega)⟩
  refine ⟨⟨g2, fun x hx => ?_, fun y hy => ?_, fun y hy => ?_, fun y hy => ?_, ?_⟩, hst, hX, hin⟩
  · rw [next_insert]
    rcases List.mem_cons.1 hx with rfl | hx
    · exact Nat.lt_of_lt_of_le h.name.1 hp.le
    · exact Nat.lt_of_lt_of_le (h.xlt x hx) hp.le
  · rw [next_insert]; exact Nat.lt_of_lt_of_le (hb y hy).1 hp.le
  · have hne : y ≠ n := fun he => by have := g2.disj n (by simp); rw [he] at hy; omega
    rw [get_insert, if_neg hne, hp.get y (hb y hy).1 (by have := g5 y; omega)]
    exact (hb y hy).2
  · rw [next_insert] at hy
    have h1 : (n : Nat) < st1.next := Nat.lt_of_lt_of_le h.name.1 hp.le
    have hne : y ≠ n := fun he => by rw [he] at hy; exact absurd h1 (Nat.not_lt.2 hy)
    rw [get_insert, if_neg hne]; exact hp.fnone y hy
  · intro x hx w c hw
    rcases List.mem_cons.1 hx with rfl | hx
    · refine ⟨X, fun y hy => List.mem_cons_of_mem _ hy, ?_⟩
      rw [hin w c hw]; exact hp.good
    · obtain ⟨X0, h1, h2⟩ := hst x hx w c hw
      exact ⟨X0, fun y hy => List.mem_cons_of_mem _ (h1 y hy), h2⟩

theorem IPost.refl {X : List Name} {e : Expr} {st : InlSt} (h : IPre X e st) : IPost d s X e st e st :=
  { toIRes := .refl h.good, le := Nat.le_refl _, get := fun _ _ _ => rfl, fnone := h.fnone, cold := fun _ _ => Nat.le_refl _,
    cnew := fun y hy => by by_cases hc : cnt y e = 0; exact hc; have := h.blt y (by omega); omega }

theorem insert_none (st : InlSt) (x : Name) (v : Expr) : st.insert x v none = st := rfl

/-- Visiting a `let` whose value was visited before. -/
theorem goLet_ok {X : List Name} {n : Name} {v v' b b' : Expr} {st st1 st' : InlSt}
    (h : IPre X (.let_ n v b) st) (o : Option Nat) (hp : IPost d s X v st v' st1) (hgo : IPre (n :: X) b (st1.insert n v' o) → IPost d s (n :: X) b (st1.insert n v' o) b' st') :
    IPost d s X (.let_ n v b) st (.let_ n v' b') st' := by
  obtain ⟨g1, g2, g3, g4, g5⟩ := good_let.1 h.good
  obtain ⟨r1, r2, r3, r4⟩ := h.rest o hp
  have hn := h.name.1
  have hb : ∀ y : Nat, 0 < cnt y b → y < st.next := fun y hy => h.blt y (by rw [cnt_let]; omega)
  have hle := hp.le
  have hge : ∀ y : Nat, st.next ≤ y → cnt y b = 0 := fun y hy => by
    by_cases hz : cnt y b = 0
    · exact hz
    · have := hb y (by omega); omega
  have t3 := hgo r1
  obtain ⟨t1, t2⟩ := goRest_ok r2 hp.good g3
    (by have := hp.cold n hn; omega)
    (fun y => by
      by_cases hy : (y : Nat) < st.next
      · have := hp.cold y hy; have := g5 y; omega
      · have := hge y (Nat.not_lt.1 hy); have := hp.good.uniq y; omega)
    (fun y hy => by
      rw [next_insert]
      by_cases hz : y < st1.next
      · exact hz
      · have := hp.cnew y (by omega); omega)
    r4 t3
  have hle2 := t3.le
  rw [next_insert] at hle2
  refine { good := t1, rel := fun k ρ ρ' hJ => t2 k ρ ρ' v (hJ.congr r3) (hp.rel k ρ ρ' hJ) fun j => hp.rel j ρ' ρ' (hJ.right j), recs := fun ps a hr => ?_, le := by omega, get := fun y hy hz => ?_, fnone := t3.fnone, cold := fun y hy => ?_, cnew := fun y hy => ?_ }
  · simp [recLam, stripPis] at hr
  · rw [cnt_let] at hz
    have hne : y ≠ n := fun he => by rw [he] at hz; simp at hz
    rw [t3.get y (by rw [next_insert]; omega) (by omega), get_insert, if_neg hne, hp.get y hy (by omega)]
  · rw [cnt_let, cnt_let]
    have h1 := hp.cold y hy
    have h2 := t3.cold y (by rw [next_insert]; omega)
    omega
  · rw [cnt_let]
    have h1 := hp.cnew y (by omega)
    have h2 := t3.cnew y hy
    have h3 : ¬ n = y := fun he => by
      rw [he] at hn; exact absurd hn (Nat.not_lt.2 (by omega))
    rw [if_neg h3]; omega

theorem IPost.trans {X : List Name} {e e1 e' : Expr} {st st1 st' : InlSt} (h1 : IPost d s X e st e1 st1) (hi : st1.inl = st.inl)
    (h2 : IPost d s X e1 st1 e' st') : IPost d s X e st e' st' := by
  have hget : st1.get = st.get := by unfold InlSt.get; rw [hi]
  have hle := h1.le
  have hle2 := h2.le
  refine { good := h2.good, rel := fun k ρ ρ' hJ => ?_, recs := fun ps a hr => ?_, le := by omega, get := fun y hy hz => ?_, fnone := h2.fnone, cold := fun y hy => ?_, cnew := h2.cnew }
  · exact (h1.rel k ρ ρ' hJ).trans (fun j => h2.rel j ρ' ρ' (by rw [hget]; exact hJ.right j)) (h2.rel k ρ ρ' (by rw [hget]; exact hJ)) fun j => h1.rel j ρ' ρ' (hJ.right j)
  · obtain ⟨d1, e1, f1⟩ := h1.recs ps a hr
    obtain ⟨d2, e2, f2⟩ := h2.recs ps d1 e1
    refine ⟨d2, e2, fun k ρ ρ' hJ => ?_⟩
    exact (f1 k ρ ρ' hJ).trans (fun j => f2 j ρ' ρ' (by rw [hget]; exact hJ.right j)) (f2 k ρ ρ' (by rw [hget]; exact hJ)) fun j => f1 j ρ' ρ' (hJ.right j)
  · have h3 := h1.cold y hy
    rw [h2.get y (by omega) (by omega), hget]
  · have h3 := h1.cold y hy
    have h4 := h2.cold y (by omega)
    omega

/-- The walk. -/
theorem inlineGo_ok : ∀ k, GoOK d s (inlineGo k)
  | 0 => fun _ _ _ _ _ _ h => by simp [inlineGo] at h
  | k + 1 => by
    intro X e st e' st' hpre h
    have ih := inlineGo_ok k
    have hother : (∀ n v b, e ≠ .let_ n v b) → (let r := inlineNode e st; goSub (inlineGo k) r.1 r.2) = some (e', st') → IPost d s X e st e' st' := by
      intro hl h
      dsimp only at h
      obtain ⟨n1, n2⟩ := inlineNode_ok (d := d) (s := s) hpre
      have hp1 := n1.pre hpre n2
      refine n1.trans n2 ?_
      generalize (inlineNode e st).1 = e1 at *
      generalize (inlineNode e st).2 = st1 at *
      by_cases hlet : ∃ n v b, e1 = .let_ n v b
      · obtain ⟨n, v, b, rfl⟩ := hlet
        obtain ⟨⟨b', st2⟩, h1, h2⟩ := Option.bind_eq_some_iff.1 h
        simp only [Option.some.injEq, Prod.mk.injEq] at h2
        obtain ⟨rfl, rfl⟩ := h2
        exact goLet_ok hp1 none (.refl hp1.val) fun hb => ih _ _ _ _ _ hb h1
      · exact goSub_ok ih hp1 (fun n v b he => hlet ⟨n, v, b, he⟩) h
    by_cases hlet : ∃ n v b, e = .let_ n v b
    · obtain ⟨n, v, b, rfl⟩ := hlet
      simp only [inlineGo] at h
      obtain ⟨⟨v', st1⟩, h1, h2⟩ := Option.bind_eq_some_iff.1 h
      dsimp only at h2
      obtain ⟨⟨b', st2⟩, h3, h4⟩ := Option.bind_eq_some_iff.1 h2
      simp only [Option.some.injEq, Prod.mk.injEq] at h4
      obtain ⟨rfl, rfl⟩ := h4
      exact goLet_ok hpre _ (ih _ _ _ _ _ hpre.val h1) fun hb => ih _ _ _ _ _ hb h3
    · refine hother (fun n v b he => hlet ⟨n, v, b, he⟩) ?_
      cases e <;> first | exact h | exact absurd ⟨_, _, _, rfl⟩ hlet

/-! ### The definitions -/

theorem inlineDefs_ok {fuel : Nat} : ∀ (ds : List ValueDef) (X : List Name) (st : InlSt) (ds' : List ValueDef) (st' : InlSt),
    IPre X (lets (defPairs ds) unit) st → inlineDefs fuel ds st = some (ds', st') →
    IPost d s X (lets (defPairs ds) unit) st (lets (defPairs ds') unit) st' ∧ All2 (fun a a' => a' = { a with value := a'.value }) ds ds' ∧
    ∀ e, (∀ x, Free x e → x ∈ ds.map (·.name) ++ X) → ∀ k ρ ρ', JJ d s st.get X k ρ ρ' → Rel2 d s k ρ (lets (defPairs ds) e) ρ' (lets (defPairs ds') e) := by
  intro ds
  induction ds with
  | nil =>
    intro X st ds' st' hp h
    simp only [inlineDefs, Option.some.injEq, Prod.mk.injEq] at h
    obtain ⟨rfl, rfl⟩ := h
    exact ⟨.refl hp, trivial, fun e he k ρ ρ' hJ => rel2_fund fun x hx => hJ.look x (by simpa using he x hx)⟩
  | cons a ds ih =>
    intro X st ds' st' hp h
    simp only [inlineDefs] at h
    obtain ⟨⟨v', st1⟩, h1, h2⟩ := Option.bind_eq_some_iff.1 h
    obtain ⟨⟨ds2, st2⟩, h3, h4⟩ := Option.bind_eq_some_iff.1 h2
    simp only [Option.some.injEq, Prod.mk.injEq] at h4
    obtain ⟨rfl, rfl⟩ := h4
    dsimp only at h3
    have hp : IPre X (.let_ a.name a.value (lets (defPairs ds) unit)) st := hp
    have hv := inlineGo_ok fuel (d := d) (s := s) _ _ _ _ _ hp.val h1
    obtain ⟨r1, r2, r3, r4⟩ := hp.rest ((checkInlinable v' false).or (checkSmall v')) hv
    obtain ⟨i1, i2, i3⟩ := ih _ _ _ _ r1 h3
    refine ⟨goLet_ok hp _ hv fun _ => i1, ⟨rfl, i2⟩, fun e he k ρ ρ' hJ => ?_⟩
    refine rel2_let (hv.rel k ρ ρ' hJ) fun j hj w w' hw ⟨m, hm⟩ => i3 e (fun x hx => ?_) j _ _ ?_
    · have := he x hx
      simp only [List.map_cons, List.cons_append, List.mem_cons, List.mem_append] at this ⊢
      rcases this with h | h | h
      · exact .inr (.inl h)
      · exact .inl h
      · exact .inr (.inr h)
    · exact jj_let r2 hv.good (good_let.1 hp.good).2.2.1 r4 (hJ.congr r3) hj hw (fun j => hv.rel j ρ' ρ' (hJ.right j)) hm

end Tic.Core
