import Verif.InlineSimple
import Verif.LeJ
/-
Helper: `inline_simple` satisfies `StepOK`.
-/
namespace Tic.Core

variable {s : Mode} {X : List Name}

theorem mem_binders_iff {y : Name} {e : Expr} : y ∈ binders e ↔ 0 < cnt y e := by
  rw [cnt, List.count_pos_iff]

theorem own_sub_binders {y : Name} {e : Expr} (h : y ∈ own e) : y ∈ binders e := by
  rw [mem_binders_iff, cnt_eq]
  have : 0 < (own e).count y := List.count_pos_iff.2 h
  omega

theorem child_sub_binders {y : Name} {e : Expr} {c : List Name × Expr} (hc : c ∈ children e) (h : y ∈ binders c.2) : y ∈ binders e := by
  rw [mem_binders_iff] at h ⊢
  rw [cnt_eq]
  have := le_sum_map (fun c : List Name × Expr => cnt y c.2) hc
  omega

theorem usesL_eq (x : Name) (ls : Bool) (xs : List Expr) :
    usesL x ls xs = ((xs.map fun x => (([] : List Name), x)).map fun c => uses x ls c.2).sum := by
  induction xs with
  | nil => rfl
  | cons a xs ih => simp only [usesL, ih, List.map_cons, List.sum_cons]

theorem usesB_eq (x : Name) (ls : Bool) (bs : List Branch) :
    usesB x ls bs = ((bs.map fun b => (b.binds, b.body)).map fun c => uses x ls c.2).sum := by
  induction bs with
  | nil => rfl
  | cons b bs ih => cases b; simp only [usesB, ih, List.map_cons, List.sum_cons, Branch.body]

/-- `1` for the name `x` itself. -/
def isName (x : Name) : Expr → Nat
  | .name y => if y = x then 1 else 0
  | _ => 0

theorem isName_other {x : Name} {e : Expr} (h : ∀ y, e ≠ .name y) : isName x e = 0 := by
  cases e <;> first | rfl | exact absurd rfl (h _)

/-- Occurrences of `x`. -/
theorem uses_eq (x : Name) (e : Expr) :
    uses x true e = isName x e + ((children e).map fun c => uses x true c.2).sum := by
  cases e <;> simp only [isName, uses, children, List.map_cons, List.map_nil, List.sum_cons, List.sum_nil, usesL_eq, usesB_eq, if_true] <;> omega

theorem esizeL_eq (xs : List Expr) : esizeL xs = ((xs.map fun x => (([] : List Name), x)).map fun c => esize c.2).sum := by
  induction xs with
  | nil => rfl
  | cons a xs ih => simp only [esizeL, ih, List.map_cons, List.sum_cons]

theorem esizeB_eq (bs : List Branch) : esizeB bs = ((bs.map fun b => (b.binds, b.body)).map fun c => esize c.2).sum := by
  induction bs with
  | nil => rfl
  | cons b bs ih => cases b; simp only [esizeB, ih, List.map_cons, List.sum_cons, Branch.body]

theorem esize_eq (e : Expr) : esize e = 1 + ((children e).map fun c => esize c.2).sum := by
  cases e <;> simp only [esize, children, List.map_cons, List.map_nil, List.sum_cons, List.sum_nil, esizeL_eq, esizeB_eq] <;> omega

mutual
theorem uses_false {x : Name} : ∀ {e : Expr}, uses x false e < 1000 → uses x true e = uses x false e
  | .bool _, _ => by simp [uses]
  | .int _, _ => by simp [uses]
  | .str _, _ => by simp [uses]
  | .trap _ _, _ => by simp [uses]
  | .name _, _ => by simp [uses]
  | .call f xs, h => by
    simp only [uses] at h ⊢
    rw [uses_false (e := f) (by omega), usesL_false (es := xs) (by omega)]
  | .intr _ xs, h => by
    simp only [uses] at h ⊢
    rw [usesL_false (es := xs) (by omega)]
  | .con _ _ xs, h => by
    simp only [uses] at h ⊢
    rw [usesL_false (es := xs) (by omega)]
  | .op a _ b, h => by
    simp only [uses] at h ⊢
    rw [uses_false (e := a) (by omega), uses_false (e := b) (by omega)]
  | .let_ _ a b, h => by
    simp only [uses] at h ⊢
    rw [uses_false (e := a) (by omega), uses_false (e := b) (by omega)]
  | .letrec _ _ a b, h => by
    simp only [uses] at h ⊢
    rw [uses_false (e := a) (by omega), uses_false (e := b) (by omega)]
  | .ite a b c, h => by
    simp only [uses] at h ⊢
    rw [uses_false (e := a) (by omega), uses_false (e := b) (by omega), uses_false (e := c) (by omega)]
  | .lam _ a, h => by
    simp only [uses, Bool.false_eq_true, if_false] at h ⊢
    split at h
    · rename_i h0
      simp only [if_true, h0]
      rw [uses_false (e := a) (by omega), h0]
    · omega
  | .mtch a bs, h => by
    simp only [uses] at h ⊢
    rw [uses_false (e := a) (by omega), usesB_false (bs := bs) (by omega)]
  | .pi _ a, h => by
    simp only [uses] at h ⊢
    rw [uses_false (e := a) (by omega)]
  | .piApp a _, h => by
    simp only [uses] at h ⊢
    rw [uses_false (e := a) (by omega)]
theorem usesL_false {x : Name} : ∀ {es : List Expr}, usesL x false es < 1000 → usesL x true es = usesL x false es
  | [], _ => by simp [usesL]
  | e :: es, h => by
    simp only [usesL] at h ⊢
    rw [uses_false (e := e) (by omega), usesL_false (es := es) (by omega)]
theorem usesB_false {x : Name} : ∀ {bs : List Branch}, usesB x false bs < 1000 → usesB x true bs = usesB x false bs
  | [], _ => by simp [usesB]
  | .mk c ns e :: bs, h => by
    simp only [usesB] at h ⊢
    rw [uses_false (e := e) (by omega), usesB_false (bs := bs) (by omega)]
end

theorem uses_one {x : Name} {ls : Bool} {e : Expr} (h : uses x ls e = 1) : uses x true e = 1 := by
  cases ls
  · rw [uses_false (by omega), h]
  · exact h

theorem mapSub_isName {g : Expr → Expr} {e : Expr} {y : Name} : mapSub g e = .name y ↔ e = .name y := by
  cases e <;> simp [mapSub]

theorem replUse_name (x : Name) (b : Expr) (y : Name) : replUse x b (.name y) = if y = x then b else .name y := by
  rw [replUse, walkPost_eq]; rfl

theorem replUse_other {x : Name} {b e : Expr} (h : ∀ y, e ≠ .name y) : replUse x b e = mapSub (replUse x b) e := by
  rw [replUse, walkPost_eq]
  have : ∀ y, mapSub (walkPost (replUseNode x b)) e ≠ .name y := fun y hy => h y (mapSub_isName.1 hy)
  show replUseNode x b (mapSub (walkPost (replUseNode x b)) e) = mapSub (walkPost (replUseNode x b)) e
  cases hm : mapSub (walkPost (replUseNode x b)) e <;> first | rfl | exact absurd hm (this _)

/-- Induction on expressions through their immediate subexpressions. -/
theorem Expr.childInd {P : Expr → Prop} (h : ∀ e, (∀ c ∈ children e, P c.2) → P e) (e : Expr) : P e :=
  Expr.strong (fun e ih => h e fun c hc => ih c.2 (mem_children_size hc)) e

theorem sum_map_add {α : Type} (f g : α → Nat) (k : Nat) (l : List α) :
    (l.map fun a => f a + g a * k).sum = (l.map f).sum + (l.map g).sum * k := by
  induction l with
  | nil => simp
  | cons a l ih => simp only [List.map_cons, List.sum_cons, ih, Nat.add_mul]; omega

theorem cnt_replUse (x y : Name) (b e : Expr) : cnt y (replUse x b e) = cnt y e + uses x true e * cnt y b := by
  induction e using Expr.childInd with
  | _ e ih =>
    by_cases hn : ∃ z, e = .name z
    · obtain ⟨z, rfl⟩ := hn
      rw [replUse_name]
      by_cases hz : z = x
      · simp [hz, uses, cnt, binders]
      · simp [hz, uses]
    · have hn' : ∀ z, e ≠ .name z := fun z hz => hn ⟨z, hz⟩
      rw [replUse_other hn', cnt_eq, own_mapSub, children_mapSub, List.map_map, cnt_eq y e, uses_eq]
      rw [isName_other hn']
      have : (children e).map ((fun c : List Name × Expr => cnt y c.2) ∘ fun c => (c.1, replUse x b c.2)) =
          (children e).map fun c => cnt y c.2 + uses x true c.2 * cnt y b :=
        List.map_congr_left fun c hc => ih c hc
      rw [this, sum_map_add]
      rw [Nat.zero_add]; omega

theorem esize_replUse (x : Name) (b e : Expr) : esize (replUse x b e) + uses x true e = esize e + uses x true e * esize b := by
  induction e using Expr.childInd with
  | _ e ih =>
    by_cases hn : ∃ z, e = .name z
    · obtain ⟨z, rfl⟩ := hn
      rw [replUse_name]
      by_cases hz : z = x
      · simp [hz, uses, esize]; omega
      · simp [hz, uses]
    · have hn' : ∀ z, e ≠ .name z := fun z hz => hn ⟨z, hz⟩
      rw [replUse_other hn', esize_eq, children_mapSub, List.map_map, esize_eq e, uses_eq]
      rw [isName_other hn']
      have h1 : ∀ l : List (List Name × Expr), (∀ c ∈ l, esize (replUse x b c.2) + uses x true c.2 = esize c.2 + uses x true c.2 * esize b) →
          (l.map ((fun c : List Name × Expr => esize c.2) ∘ fun c => (c.1, replUse x b c.2))).sum + (l.map fun c => uses x true c.2).sum =
          (l.map fun c => esize c.2).sum + (l.map fun c => uses x true c.2).sum * esize b := by
        intro l
        induction l with
        | nil => simp
        | cons a l ihl =>
          intro h
          have h2 := ihl fun c hc => h c (by simp [hc])
          have h3 := h a (by simp)
          simp only [List.map_cons, List.sum_cons, Function.comp_def, Nat.add_mul] at h2 ⊢
          omega
      have := h1 (children e) ih
      simp only [Nat.zero_add]
      omega

theorem free_replUse {x y : Name} {b e : Expr} (h : Free y (replUse x b e)) : (Free y e ∧ y ≠ x) ∨ Free y b := by
  induction e using Expr.childInd with
  | _ e ih =>
    by_cases hn : ∃ z, e = .name z
    · obtain ⟨z, rfl⟩ := hn
      rw [replUse_name] at h
      by_cases hz : z = x
      · rw [if_pos hz] at h; exact .inr h
      · rw [if_neg hz] at h
        refine .inl ⟨h, ?_⟩
        simp [Free] at h
        rw [h]; exact hz
    · have hn' : ∀ z, e ≠ .name z := fun z hz => hn ⟨z, hz⟩
      rw [replUse_other hn'] at h
      rcases free_iff.1 h with h | ⟨c, hc, hb, hf⟩
      · exact absurd (mapSub_isName.1 h) (hn' _)
      · rw [children_mapSub] at hc
        obtain ⟨c', hc', rfl⟩ := List.mem_map.1 hc
        rcases ih c' hc' hf with ⟨h1, h2⟩ | h1
        · exact .inl ⟨free_iff.2 (.inr ⟨c', hc', hb, h1⟩), h2⟩
        · exact .inr h1

theorem replUse_lam (x : Name) (b : Expr) (ps : List (Name × Ty)) (c : Expr) :
    replUse x b (.lam ps c) = .lam ps (replUse x b c) := replUse_other (by simp)
theorem replUse_pi (x : Name) (b : Expr) (v : TyVar) (c : Expr) :
    replUse x b (.pi v c) = .pi v (replUse x b c) := replUse_other (by simp)

theorem recLam_replUse {x : Name} {b : Expr} (v : Expr) : ∀ {ps : List Name} {c : Expr}, recLam v = some (ps, c) →
    recLam (replUse x b v) = some (ps, replUse x b c) := by
  induction v using Expr.childInd with
  | _ v ih =>
    intro ps c h
    rcases recLam_cases h with ⟨ps', rfl, rfl⟩ | ⟨a, e, rfl, h'⟩
    · rw [replUse_lam, recLam_lam]
    · rw [replUse_pi, recLam_pi]
      exact ih ([], e) (by simp [children]) h'

theorem wellShaped_replUse {x : Name} {b : Expr} (hb : WellShaped b) (e : Expr) : WellShaped e → WellShaped (replUse x b e) := by
  induction e using Expr.childInd with
  | _ e ih =>
    intro h
    by_cases hn : ∃ z, e = .name z
    · obtain ⟨z, rfl⟩ := hn
      rw [replUse_name]
      split
      · exact hb
      · exact h
    · have hn' : ∀ z, e ≠ .name z := fun z hz => hn ⟨z, hz⟩
      rw [replUse_other hn']
      rw [wellShaped_iff] at h ⊢
      refine ⟨nodeOK_mapSub h.1 fun n t v r he => ?_, fun c hc => ?_⟩
      · subst he
        obtain ⟨⟨ps, c⟩, h2⟩ := Option.isSome_iff_exists.1 h.1
        rw [recLam_replUse _ h2]; rfl
      · rw [children_mapSub] at hc
        obtain ⟨c', hc', rfl⟩ := List.mem_map.1 hc
        exact ih c' hc' (h.2 c' hc')

/-- The environment invariant for replacing `x` by `b`. -/
def SubInv (s : Mode) (x : Name) (b : Expr) (X : List Name) (k : Nat) (ρ ρ' : Env) : Prop :=
  (∀ y ∈ X, y ≠ x → LookRel s k ρ ρ' y) ∧ RelD s k ρ (.name x) ρ' b

theorem RelD.name_left {k : Nat} {ρ ρ2 ρ' : Env} {x : Name} {b : Expr} (h : RelD s k ρ (.name x) ρ' b) (hl : lookup x ρ2 = lookup x ρ) :
    RelD s k ρ2 (.name x) ρ' b := by
  intro j hj n
  have := h j hj n
  cases n with
  | zero => exact this
  | succ n => simp only [evalC] at this ⊢; rw [hl]; exact this

theorem LookRel.congr {k : Nat} {ρ ρ2 ρ' ρ2' : Env} {y : Name} (h : LookRel s k ρ ρ' y) (h1 : lookup y ρ2 = lookup y ρ)
    (h2 : lookup y ρ2' = lookup y ρ') : LookRel s k ρ2 ρ2' y := by
  unfold LookRel at h ⊢; rw [h1, h2]; exact h

theorem envInv_sub {x : Name} {b : Expr} : EnvInv s (fun y => y ≠ x ∧ ¬ Free y b) (SubInv s x b) := by
  refine ⟨?_⟩
  intro X k ρ ρ' j ns ρ2 ρ2' ⟨h1, h2⟩ hj hC hE
  refine ⟨fun y hy hne => ?_, ?_⟩
  · by_cases hn : y ∈ ns
    · exact hE.new y hn
    · have := (List.mem_append.1 hy).resolve_left hn
      exact ((h1 y this hne).mono hj).congr (hE.old y hn) (hE.old' y hn)
  · have hx : x ∉ ns := fun h => (hC x h).1 rfl
    refine RelD.name_left (RelD.weaken (h2.mono hj) fun y hf => hE.old' y fun hn => (hC y hn).2 hf) (hE.old x hx)

theorem recLam_binders {v : Expr} {ps : List Name} {c : Expr} (h : recLam v = some (ps, c)) {y : Name} :
    y ∈ binders v ↔ y ∈ ps ∨ y ∈ binders c := by
  induction v using Expr.childInd with
  | _ v ihv =>
    rcases recLam_cases h with ⟨ps', rfl, rfl⟩ | ⟨a, e, rfl, h'⟩
    · simp only [binders, List.mem_append]
    · simp only [binders]; exact ihv ([], e) (by simp [children]) h'

theorem recLam_recFns {v : Expr} {ps : List Name} {c : Expr} (h : recLam v = some (ps, c)) (hr : WellShaped v) : WellShaped c := by
  induction v using Expr.childInd with
  | _ v ihv =>
    rcases recLam_cases h with ⟨ps', rfl, rfl⟩ | ⟨a, e, rfl, h'⟩
    · exact (wellShaped_iff.1 hr).2 (ps'.map (·.1), c) (by simp [children])
    · exact ihv ([], e) (by simp [children]) h' ((wellShaped_iff.1 hr).2 ([], e) (by simp [children]))

theorem leJ_replUse {x : Name} {b : Expr} (e : Expr) : ∀ (X : List Name), (∀ y ∈ binders e, y ≠ x ∧ ¬ Free y b) → (∀ y, Free y e → y ∈ X) →
    WellShaped e → LeJ s (SubInv s x b) X e (replUse x b e) := by
  induction e using Expr.strong with
  | _ e ih =>
    intro X hb hf hr
    by_cases hn : ∃ z, e = .name z
    · obtain ⟨z, rfl⟩ := hn
      rw [replUse_name]
      intro k ρ ρ' hJ
      by_cases hz : z = x
      · rw [if_pos hz, hz]; exact hJ.2
      · rw [if_neg hz]; exact rel_name (hJ.1 z (hf z (by simp [Free])) hz)
    · have hn' : ∀ z, e ≠ .name z := fun z hz => hn ⟨z, hz⟩
      rw [replUse_other hn']
      have hscope : ∀ c ∈ children e, ∀ y, Free y c.2 → y ∈ c.1 ++ X := fun c hc y hy => by
        by_cases hm : y ∈ c.1
        · exact List.mem_append_left _ hm
        · exact List.mem_append_right _ (hf y (free_iff.2 (.inr ⟨c, hc, hm, hy⟩)))
      have hrc := wellShaped_iff.1 hr
      have key := leJ_mapSub (X := X) (envInv_sub (s := s) (x := x) (b := b)) (g := id) (g' := replUse x b) (e := e)
        (fun y hy => absurd hy (hn' y)) (fun y hy => hb y (own_sub_binders hy))
        (fun c hc => ih c.2 (mem_children_size hc) _ (fun y hy => hb y (child_sub_binders hc hy)) (hscope c hc) (hrc.2 c hc)) ?_
      · rwa [mapSub_id] at key
      · intro n t v r he
        subst he
        obtain ⟨⟨ps, c⟩, h2⟩ := Option.isSome_iff_exists.1 hrc.1
        have hbv : ∀ y ∈ binders v, y ≠ x ∧ ¬ Free y b := fun y hy => hb y (child_sub_binders (c := ([n], v)) (by simp [children]) hy)
        have hrv := hrc.2 ([n], v) (by simp [children])
        have hsv := hscope ([n], v) (by simp [children])
        refine ⟨ps, c, replUse x b c, h2, recLam_replUse _ h2, fun y hy => hbv y ((recLam_binders h2).2 (.inl hy)), ?_⟩
        refine ih c ?_ _ (fun y hy => hbv y ((recLam_binders h2).2 (.inr hy))) ?_ (recLam_recFns h2 hrv)
        · have := recLam_size h2
          have := mem_children_size (e := .letrec n t v r) (c := ([n], v)) (by simp [children])
          simp only at this
          omega
        · intro y hy
          by_cases hp : y ∈ ps
          · exact List.mem_append_left _ hp
          · exact List.mem_append_right _ (hsv y ((recLam_free h2).2 ⟨hp, hy⟩))

/-- Modes that preserve only values. -/
def Mode.Lax (s : Mode) : Prop := s.trap = false ∧ s.panic = false

/-- A computation whose value is not needed on the other side. -/
theorem ce_skip {α β γ : Type} {Q : Nat → γ → β → Prop} (hs : s.Lax) {k : Nat} {l : CRes α} {f : α → CRes γ} {R : Nat → Res β}
    (h : ∀ a, l.2 = .ok a → l.1 ≤ k → CE s Q (k - l.1) (f a) R) : CE s Q k (CRes.bind l f) R := by
  obtain ⟨c, r⟩ := l
  intro hc ht
  cases r with
  | ok a =>
    simp only [CRes.bind] at hc ht ⊢
    obtain ⟨m, hm⟩ := h a rfl (by simp only; omega) (by simp only; omega) ht
    refine ⟨m, ?_⟩
    rw [show k - (c + (f a).1) = k - c - (f a).1 by omega]
    exact hm
  | trap m => exact ⟨0, fun h => by rw [hs.1] at h; cases h⟩
  | panic => exact ⟨0, fun h => by rw [hs.2] at h; cases h⟩
  | timeout => exact absurd rfl ht

/-- Substituting the value of a `let` for its name. -/
theorem le_let_replUse (hs : s.Lax) {x : Name} {b r : Expr} (h : Good X (.let_ x b r)) : Le s X (.let_ x b r) (replUse x b r) := by
  obtain ⟨h1, h2, h3, h4, h5⟩ := good_let.1 h
  intro k ρ ρ' hρ j hj n
  cases n with
  | zero => exact CE.timeout
  | succ n =>
    simp only [evalC]
    refine ce_skip hs fun v hv hl => ?_
    have hb := fund b (k := k) (ρ := ρ) (ρ' := ρ') (fun y hy => hρ y (h1.scope y hy)) j hj n hl (by rw [hv]; simp)
    rw [hv] at hb
    obtain ⟨m, v', hv', hvv⟩ := hb
    refine leJ_replUse r (x :: X) ?_ h2.scope h2.recs (j - (evalC n ρ b).1) ((x, v) :: ρ) ρ' ⟨?_, ?_⟩ _ (Nat.le_refl _) n
    · intro y hy
      have hp := mem_binders_iff.1 hy
      refine ⟨fun he => ?_, fun hf => ?_⟩
      · have := h2.disj x (by simp); rw [he] at hp; omega
      · have := h2.disj y (by simp [h1.scope y hf]); omega
    · intro y hy hne
      have hyX : y ∈ X := (List.mem_cons.1 hy).resolve_left hne
      exact ((hρ y hyX).mono (by omega)).congr (by rw [lookup, if_neg (Ne.symm hne)]) rfl
    · intro i hi n'
      cases n' with
      | zero => exact CE.timeout
      | succ n' =>
        simp only [evalC, lookup, if_true]
        exact fun _ _ => ⟨m, v', hv', hvv.mono (by simp only [Core.free]; omega)⟩

theorem tri_replUse (hs : s.Lax) {x : Name} {b r : Expr} (hu : uses x true r = 1) (h : Good X (.let_ x b r)) :
    LeD true s X (.let_ x b r) (replUse x b r) ∧ Good X (replUse x b r) ∧ ∀ y, cnt y (replUse x b r) ≤ cnt y (.let_ x b r) := by
  have hc : ∀ y, cnt y (replUse x b r) ≤ cnt y (.let_ x b r) := by
    intro y
    rw [cnt_replUse, hu, cnt_let]; omega
  refine ⟨le_let_replUse hs h, h.of_le hc (fun y hy => ?_) ?_, hc⟩
  · rcases free_replUse hy with ⟨h1, h2⟩ | h1
    · exact h.scope y (.inr ⟨h2, h1⟩)
    · exact h.scope y (.inl h1)
  · obtain ⟨h1, h2⟩ := wellShaped_let.1 h.recs
    exact wellShaped_replUse h1 r h2

theorem tri_refl {e : Expr} (h : Good X e) : LeD true s X e e ∧ Good X e ∧ ∀ y, cnt y e ≤ cnt y e :=
  ⟨.refl h.scope, h, fun _ => Nat.le_refl _⟩

theorem stepOK_is1 (hs : s.Lax) : StepOK true s inlineSimple1 := by
  refine ⟨fun X e h => ?_, fun ps b => ⟨ps, rfl, rfl⟩, fun _ _ => rfl⟩
  unfold inlineSimple1
  split
  · split
    · exact tri_replUse hs (uses_one ‹_›) h
    · exact tri_refl h
  · exact tri_refl h

theorem stepOK_is2 (hs : s.Lax) : StepOK true s inlineSimple2 := by
  refine ⟨fun X e h => ?_, fun ps b => ⟨ps, rfl, rfl⟩, fun _ _ => rfl⟩
  unfold inlineSimple2
  split
  · split
    · exact tri_replUse hs ‹_› h
    · exact tri_refl h
  · exact tri_refl h

theorem stepOK_inlineSimple (hs : s.Lax) : StepOK true s inlineSimpleStep := by
  refine ⟨fun X e h => ?_, fun ps b => ⟨ps, rfl, rfl⟩, fun _ _ => rfl⟩
  obtain ⟨a1, a2, a3⟩ := (stepOK_is1 hs).ok X e h
  obtain ⟨b1, b2, b3⟩ := (stepOK_is2 hs).ok X _ a2
  exact ⟨a1.trans b1, b2, fun y => Nat.le_trans (b3 y) (a3 y)⟩

/-! ### The walk is complete -/

theorem walkPreN_stable {f : Expr → Expr} (hf : ∀ e, esize (f e) ≤ esize e) : ∀ (n m : Nat) (e : Expr), esize e ≤ n → esize e ≤ m →
    walkPreN n f e = walkPreN m f e := by
  intro n
  induction n with
  | zero => intro m e h; have := esize_pos e; omega
  | succ n ih =>
    intro m e hn hm
    cases m with
    | zero => have := esize_pos e; omega
    | succ m =>
      rw [walkPreN, walkPreN]
      refine mapSub_congr fun c hc => ?_
      have h1 := mem_children_esize hc
      have h2 := hf e
      exact ih m c.2 (by omega) (by omega)

theorem esize_is1 (e : Expr) : esize (inlineSimple1 e) ≤ esize e := by
  unfold inlineSimple1
  split
  · rename_i x b r
    split
    · have h := esize_replUse x b r
      rw [uses_one ‹_›] at h
      simp only [esize]; omega
    · exact Nat.le_refl _
  · exact Nat.le_refl _

theorem esize_is2 (e : Expr) : esize (inlineSimple2 e) ≤ esize e := by
  unfold inlineSimple2
  split
  · rename_i x ps c r
    split
    · rename_i hu
      have h := esize_replUse x (.lam ps c) r
      rw [hu] at h
      simp only [esize] at h ⊢; omega
    · exact Nat.le_refl _
  · exact Nat.le_refl _

/-- The bound in `inlineSimple` is never reached: the walk satisfies the recursive equation
of `walk_expressions_mut`. -/
theorem walkPre_inlineSimple_eq (e : Expr) : walkPreN (esize e) inlineSimpleStep e =
    mapSub (fun c => walkPreN (esize c) inlineSimpleStep c) (inlineSimpleStep e) := by
  have hf : ∀ e, esize (inlineSimpleStep e) ≤ esize e := fun e => Nat.le_trans (esize_is2 _) (esize_is1 e)
  rw [walkPreN_stable hf (esize e) (esize e + 1) e (Nat.le_refl _) (by omega), walkPreN]
  refine mapSub_congr fun c hc => ?_
  have h1 := mem_children_esize hc
  have h2 := hf e
  exact walkPreN_stable hf _ _ _ (by omega) (Nat.le_refl _)

end Tic.Core
