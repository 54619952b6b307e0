import Verif.SatRel
/-
Helper for saturation: the relation between expressions before and after, and what it means
for their evaluation.
-/
namespace Tic.Core

mutual
/-- `e'` is `e` with the functions recorded in `R` collapsed and their uses adapted. -/
inductive Sat (R : Name → Option (List Nat)) : Expr → Expr → Prop
  | use {x : Name} {lens : List Nat} {is is' : List TyVar} {us : List (List (Name × Ty))} : R x = some lens → us.map List.length = lens →
      x ∉ us.flatten.map (·.1) → (us.flatten.map (·.1)).Nodup → Sat R (.name x) (pis is' (useE x is (us.flatten.map (·.1)) us))
  | node {e : Expr} {cs : List Expr} : (∀ x, e = .name x → R x = none) → (∀ y ∈ own e, R y = none) →
      SatL R ((children e).map (·.2)) cs → Sat R e (rebuild e cs)
  | letrec {n : Name} {t t' : Ty} {vs vs' : List TyVar} {g : List (Name × Ty)} {gs : List (List (Name × Ty))} {b b' e e' : Expr} :
      R n = some ((g :: gs).map List.length) → (∀ y ∈ (g :: gs).flatten.map (·.1), R y = none) → Sat R b b' → Sat R e e' →
      Sat R (.letrec n t (pis vs (lams (g :: gs) b)) e) (.letrec n t' (pis vs' (.lam (g :: gs).flatten b')) e')
  | let_ {n : Name} {vs vs' : List TyVar} {g : List (Name × Ty)} {gs : List (List (Name × Ty))} {b b' e e' : Expr} :
      R n = some ((g :: gs).map List.length) → (∀ y ∈ (g :: gs).flatten.map (·.1), R y = none) → Sat R b b' → Sat R e e' →
      Sat R (.let_ n (pis vs (lams (g :: gs) b)) e) (.let_ n (pis vs' (.lam (g :: gs).flatten b')) e')
/-- ... pointwise. -/
inductive SatL (R : Name → Option (List Nat)) : List Expr → List Expr → Prop
  | nil : SatL R [] []
  | cons {e e' : Expr} {es es' : List Expr} : Sat R e e' → SatL R es es' → SatL R (e :: es) (e' :: es')
end

variable {d : Bool} {s : Mode} {R : Name → Option (List Nat)}

/-- How the environments on the two sides are related. -/
def JS (d : Bool) (s : Mode) (R : Name → Option (List Nat)) (X : List Name) (k : Nat) (ρ ρ' : Env) : Prop :=
  ∀ x ∈ X, (R x = none → LookO d s k ρ ρ' x) ∧
    ∀ lens, R x = some lens → ∃ f f', lookup x ρ = .ok f ∧ lookup x ρ' = .ok f' ∧ UV d s k lens f f'

theorem JS.ext {X ns : List Name} {k j : Nat} {ρ ρ' ρ2 ρ2' : Env} (h : JS d s R X k ρ ρ') (hj : j ≤ k) (hns : ∀ y ∈ ns, R y = none)
    (hE : ExtO d s j ns ρ ρ' ρ2 ρ2') : JS d s R (ns ++ X) j ρ2 ρ2' := by
  intro x hx
  by_cases hm : x ∈ ns
  · exact ⟨fun _ => hE.new hm, fun lens hl => by rw [hns x hm] at hl; cases hl⟩
  · have hx' := (List.mem_append.1 hx).resolve_left hm
    obtain ⟨h1, h2⟩ := hE.old hm
    refine ⟨fun hn => (((h x hx').1 hn).mono hj).congr h1 h2, fun lens hl => ?_⟩
    obtain ⟨f, f', a, b, c⟩ := (h x hx').2 lens hl
    exact ⟨f, f', by rw [h1, a], by rw [h2, b], c.mono hj⟩

theorem JS.sub {X Y : List Name} {k : Nat} {ρ ρ' : Env} (h : JS d s R X k ρ ρ') (hy : ∀ y ∈ Y, y ∈ X) : JS d s R Y k ρ ρ' :=
  fun x hx => h x (hy x hx)

theorem lookup_append {y : Name} {ρ1 ρ2 : Env} : ∀ {pre : Env}, (y ∉ pre.map (·.1) → lookup y ρ1 = lookup y ρ2) →
    lookup y (pre ++ ρ1) = lookup y (pre ++ ρ2)
  | [], h => h (by simp)
  | (z, v) :: pre, h => by
    simp only [List.cons_append, lookup]
    by_cases hz : z = y
    · simp [hz]
    · simp only [hz, if_false]
      exact lookup_append fun hy => h (by simp [Ne.symm hz] at hy ⊢; exact hy)

theorem lookup_append_notMem {y : Name} {ρ : Env} : ∀ {pre : Env}, y ∉ pre.map (·.1) → lookup y (pre ++ ρ) = lookup y ρ
  | [], _ => rfl
  | (z, v) :: pre, h => by
    simp only [List.map_cons, List.mem_cons, not_or] at h
    simp only [List.cons_append, lookup, Ne.symm h.1, if_false]
    exact lookup_append_notMem h.2

theorem lookup_bindAll_congr {y : Name} : ∀ {ps : List Name} {vs : List Val} {ρ1 ρ2 : Env}, ps.length = vs.length → (y ∉ ps → lookup y ρ1 = lookup y ρ2) →
    lookup y (bindAll ρ1 ps vs) = lookup y (bindAll ρ2 ps vs)
  | [], [], _, _, _, h => h (by simp)
  | p :: ps, v :: vs, ρ1, ρ2, hl, h => by
    simp only [bindAll]
    refine lookup_bindAll_congr (by simpa using hl) fun hy => ?_
    simp only [lookup]
    by_cases hp : p = y
    · simp [hp]
    · simp only [hp, if_false]; exact h (by simp [Ne.symm hp, hy])

theorem bindAll_append : ∀ {ps qs : List Name} {vs ws : List Val} {ρ : Env}, ps.length = vs.length →
    bindAll ρ (ps ++ qs) (vs ++ ws) = bindAll (bindAll ρ ps vs) qs ws
  | [], _, [], _, _, _ => rfl
  | _ :: _, _, _ :: _, _, _, h => by
    simp only [List.cons_append, bindAll]
    exact bindAll_append (by simpa using h)

/-- Feeding all groups reaches related bodies. -/
theorem ready_of {b b' : Expr} {E' : List Val → Env} {pre ρ : Env} : ∀ {gs : List (List (Name × Ty))} {ps : List Name} {acc acc' : List Val} {k : Nat} {ρa : Env},
    (∀ y ∈ gs.flatten.map (·.1), y ∉ pre.map (·.1)) → VsO d s k acc acc' → ps.length = acc.length →
    (∀ y, lookup y ρa = lookup y (pre ++ bindAll ρ ps acc)) →
    (∀ j, j ≤ k → ∀ vs vs', VsO d s j vs vs' → (ps ++ gs.flatten.map (·.1)).length = vs.length → ∀ ρ2,
      (∀ y, lookup y ρ2 = lookup y (pre ++ bindAll ρ (ps ++ gs.flatten.map (·.1)) vs)) → RelO d s j ρ2 b (E' vs') b') →
    Ready d s b E' b' gs k ρa acc'
  | [], ps, acc, acc', k, ρa, _, hv, hl, hρ, h => by
    simp only [List.flatten_nil, List.map_nil, List.append_nil] at h
    exact h k (Nat.le_refl _) acc acc' hv hl ρa hρ
  | g :: gs, ps, acc, acc', k, ρa, hpre, hv, hl, hρ, h => by
    simp only [List.flatten_cons, List.map_append] at hpre h
    intro j hj vs vs' hvs hlv
    refine ready_of (ρ := ρ) (ps := ps ++ g.map (·.1)) (acc := acc ++ vs) (fun y hy => hpre y (List.mem_append_right _ hy)) ((hv.mono (by omega)).append hvs) (by simp; omega) ?_ ?_
    · intro y
      rw [bindAll_append hl]
      by_cases hy : y ∈ g.map (·.1)
      · rw [lookup_append_notMem (hpre y (List.mem_append_left _ hy))]
        exact lookup_bindAll_congr (by simpa using hlv) fun h => absurd hy h
      · rw [lookup_bindAll_notMem hy, hρ]
        exact lookup_append fun _ => (lookup_bindAll_notMem hy).symm
    · rw [List.append_assoc]
      exact fun i hi => h i (by omega)

theorem recLam_pis (vs : List TyVar) (e : Expr) : recLam (pis vs e) = recLam e := by
  induction vs with
  | nil => rfl
  | cons v vs ih => rw [pis, recLam_pi, ih]

theorem relO_letrec {k : Nat} {ρ ρ' : Env} {n : Name} {t t' : Ty} {v v' e e' : Expr} {ps ps' : List Name} {b b' : Expr}
    (h1 : recLam v = some (ps, b)) (h2 : recLam v' = some (ps', b'))
    (h : RelO d s k ((n, .rclo ρ n ps b) :: ρ) e ((n, .rclo ρ' n ps' b') :: ρ') e') :
    RelO d s k ρ (.letrec n t v e) ρ' (.letrec n t' v' e') := by
  cases d with
  | true =>
    intro j hj m; cases m with
    | zero => exact CE.timeout
    | succ m =>
      refine CE.succ ?_
      simp only [evalC, eval_letrec, h1, h2]
      exact h j hj m
  | false =>
    intro j hj m; cases m with
    | zero => exact CE.timeout
    | succ m =>
      refine CE.succ ?_
      simp only [evalC, eval_letrec, h1, h2]
      exact h j hj m

theorem Good.congr {X Y : List Name} {e : Expr} (h : Good X e) (hx : ∀ y, y ∈ X ↔ y ∈ Y) : Good Y e :=
  ⟨h.uniq, fun y hy => h.disj y ((hx y).2 hy), fun x hf => (hx x).1 (h.scope x hf), h.recs⟩

theorem good_pis {X : List Name} {e : Expr} : ∀ {vs : List TyVar}, Good X (pis vs e) → Good X e
  | [], h => h
  | _ :: vs, h => good_pis (vs := vs) (h.child (c := ([], _)) (by simp [pis, children]))

theorem good_lams {b : Expr} : ∀ {gs : List (List (Name × Ty))} {X : List Name}, Good X (lams gs b) → Good (gs.flatten.map (·.1) ++ X) b
  | [], _, h => h
  | g :: gs, X, h => by
    have h1 := good_lams (gs := gs) (h.child (c := (g.map (·.1), lams gs b)) (by simp [lams, children]))
    refine h1.congr fun y => ?_
    simp only [List.flatten_cons, List.map_append, List.mem_append]
    grind

theorem cnt_pis (y : Name) (e : Expr) : ∀ (vs : List TyVar), cnt y (pis vs e) = cnt y e
  | [] => rfl
  | v :: vs => by rw [pis, cnt_eq, ← cnt_pis y e vs]; simp [own, children]

theorem cnt_lams (y : Name) (b : Expr) : ∀ (gs : List (List (Name × Ty))), cnt y (lams gs b) = (gs.flatten.map (·.1)).count y + cnt y b
  | [] => by simp [lams]
  | g :: gs => by
    rw [lams, cnt_eq]
    simp only [own, children, List.map_cons, List.map_nil, List.sum_cons, List.sum_nil, List.flatten_cons, List.map_append, List.count_append]
    rw [cnt_lams y b gs]; omega

/-- The curried and the collapsed function, when their bodies are related. -/
theorem uv_fn {X : List Name} {k : Nat} {ρ ρ' pre pre' : Env} {f f' : Val} {g : List (Name × Ty)} {gs : List (List (Name × Ty))} {b b' : Expr}
    (hf : Beh f g.length (fun vs => pre ++ bindAll ρ (g.map (·.1)) vs) (lams gs b))
    (hf' : Beh f' ((g :: gs).flatten.map (·.1)).length (fun vs => pre' ++ bindAll ρ' ((g :: gs).flatten.map (·.1)) vs) b')
    (hp : pre'.map (·.1) = pre.map (·.1)) (hd : ∀ y ∈ (g :: gs).flatten.map (·.1), y ∉ pre.map (·.1)) (hR : ∀ y ∈ (g :: gs).flatten.map (·.1), R y = none)
    (hJ : ∀ j, j < k → JS d s R X j (pre ++ ρ) (pre' ++ ρ'))
    (hb : ∀ j, j < k → ∀ ρ2 ρ2', JS d s R ((g :: gs).flatten.map (·.1) ++ X) j ρ2 ρ2' → RelO d s j ρ2 b ρ2' b') :
    UV d s k ((g :: gs).map List.length) f f' := by
  have hsum : ((g :: gs).flatten.map (·.1)).length = ((g :: gs).map List.length).sum := by
    rw [List.length_map, List.length_flatten]
  refine ⟨g.length, gs, b, _, b', _, rfl, hf, by rw [← hsum]; exact hf', fun j hj vs vs' hv hl => ?_⟩
  simp only [List.flatten_cons, List.map_append] at hd hR hb ⊢
  refine ready_of (pre := pre) (ρ := ρ) (ps := g.map (·.1)) (acc := vs) (fun y hy => hd y (List.mem_append_right _ hy)) hv (by simpa using hl) (fun _ => rfl) ?_
  intro i hi ws ws' hw hlw ρ2 hρ2
  refine hb i (by omega) ρ2 _ ?_
  have hlw' := hw.length
  intro x hx
  by_cases hm : x ∈ g.map (·.1) ++ gs.flatten.map (·.1)
  · refine ⟨fun _ => ?_, fun lens hl => by rw [hR x hm] at hl; cases hl⟩
    refine (LookO.bindAll (ρ := ρ) (ρ' := ρ') hw hlw hm).congr ?_ ?_
    · rw [hρ2, lookup_append_notMem (hd x hm)]
    · rw [lookup_append_notMem (by rw [hp]; exact hd x hm)]
  · have hx' := (List.mem_append.1 hx).resolve_left hm
    have e1 : lookup x ρ2 = lookup x (pre ++ ρ) := by
      rw [hρ2]; exact lookup_append fun _ => lookup_bindAll_notMem hm
    have e2 : lookup x (pre' ++ bindAll ρ' (g.map (·.1) ++ gs.flatten.map (·.1)) ws') = lookup x (pre' ++ ρ') :=
      lookup_append fun _ => lookup_bindAll_notMem hm
    obtain ⟨a1, a2⟩ := hJ i (by omega) x hx'
    refine ⟨fun h => (a1 h).congr e1 e2, fun lens hl => ?_⟩
    obtain ⟨f1, f2, c1, c2, c3⟩ := a2 lens hl
    exact ⟨f1, f2, by rw [e1, c1], by rw [e2, c2], c3⟩

theorem JS.cons {X : List Name} {k : Nat} {ρ ρ' : Env} {n : Name} {f f' : Val} {lens : List Nat} (h : JS d s R X k ρ ρ') (hn : R n = some lens)
    (hu : UV d s k lens f f') : JS d s R (n :: X) k ((n, f) :: ρ) ((n, f') :: ρ') := by
  intro x hx
  by_cases hm : n = x
  · subst hm
    refine ⟨fun h => (by rw [hn] at h; cases h), fun lens' hl => ?_⟩
    rw [hn] at hl; cases hl
    exact ⟨f, f', by simp [lookup], by simp [lookup], hu⟩
  · have hx' := (List.mem_cons.1 hx).resolve_left (Ne.symm hm)
    have e1 : ∀ {v : Val} {ρ : Env}, lookup x ((n, v) :: ρ) = lookup x ρ := by intro v ρ; simp [lookup, hm]
    obtain ⟨a1, a2⟩ := h x hx'
    refine ⟨fun h => (a1 h).congr e1 e1, fun lens hl => ?_⟩
    obtain ⟨f1, f2, c1, c2, c3⟩ := a2 lens hl
    exact ⟨f1, f2, by rw [e1, c1], by rw [e1, c2], c3⟩

theorem JS.mono {X : List Name} {k j : Nat} {ρ ρ' : Env} (h : JS d s R X k ρ ρ') (hj : j ≤ k) : JS d s R X j ρ ρ' := by
  intro x hx
  refine ⟨fun hn => ((h x hx).1 hn).mono hj, fun lens hl => ?_⟩
  obtain ⟨f, f', a, b, c⟩ := (h x hx).2 lens hl
  exact ⟨f, f', a, b, c.mono hj⟩

/-- What the relation says about evaluation. -/
structure SatOK (d : Bool) (s : Mode) (R : Name → Option (List Nat)) (X : List Name) (e e' : Expr) : Prop where
  rel : ∀ k ρ ρ', JS d s R X k ρ ρ' → RelO d s k ρ e ρ' e'
  recs : ∀ ps b, recLam e = some (ps, b) → (∀ y ∈ ps, R y = none) ∧ ∃ b', recLam e' = some (ps, b') ∧ ∀ k ρ ρ', JS d s R (ps ++ X) k ρ ρ' → RelO d s k ρ b ρ' b'

theorem SatL.length : ∀ {es es' : List Expr}, SatL R es es' → es.length = es'.length
  | _, _, .nil => rfl
  | _, _, .cons _ h => by simp [SatL.length h]

theorem all2_mem {α β : Type} {P : α → β → Prop} : ∀ {as : List α} {bs : List β}, All2 P as bs → All2 (fun a b => P a b ∧ a ∈ as) as bs
  | [], [], _ => trivial
  | a :: as, b :: bs, ⟨h1, h2⟩ => ⟨⟨h1, by simp⟩, (all2_mem h2).imp fun a b h => ⟨h.1, by simp [h.2]⟩⟩

theorem all2_child {P : List Name → Expr → Expr → Prop} {X : List Name} : ∀ {es : List (List Name × Expr)} {cs : List Expr},
    All2 (fun e e' => ∀ X, Good X e → P X e e') (es.map (·.2)) cs → (∀ c ∈ es, Good (c.1 ++ X) c.2) → All2 (fun c c' => P (c.1 ++ X) c.2 c') es cs
  | [], [], _, _ => trivial
  | c :: es, e :: cs, ⟨h1, h2⟩, hg => ⟨h1 _ (hg c (by simp)), all2_child h2 fun c hc => hg c (by simp [hc])⟩

mutual
theorem sat_ok : ∀ {e e' : Expr}, Sat R e e' → ∀ {X : List Name}, Good X e → SatOK d s R X e e'
  | _, _, .use (x := x) (lens := lens) h1 h2 h3 h4, X, hg => by
    refine ⟨fun k ρ ρ' hJ => ?_, fun ps b h => by simp [recLam, stripPis] at h⟩
    obtain ⟨f, f', a, b, c⟩ := (hJ x (hg.scope x (by simp [Free]))).2 lens h1
    exact uv_use c a b h2 h3 h4
  | _, _, .node (e := e) (cs := cs) h1 h2 h3, X, hg => by
    have hL := all2_child (satL_ok h3) fun c hc => hg.child hc
    refine ⟨fun k ρ ρ' hJ => ?_, fun ps b h => ?_⟩
    · refine relO_rebuild (fun x hx => ?_) ?_ ?_
      · subst hx
        exact relO_name ((hJ x (hg.scope x (by simp [Free]))).1 (h1 x rfl))
      · refine (all2_mem hL).imp fun c c' ⟨hc, hm⟩ j hj ρ2 ρ2' hE => ?_
        exact hc.rel j ρ2 ρ2' (hJ.ext hj (fun y hy => h2 y (own_of_scope hm hy)) hE)
      · intro n t v b v' b' he hcs
        subst he; subst hcs
        obtain ⟨hv, hb, -⟩ := hL
        obtain ⟨⟨ps, c⟩, hr⟩ := Option.isSome_iff_exists.1 (hg.recSome rfl)
        obtain ⟨a1, c', a2, a3⟩ := hv.recs ps c hr
        refine ⟨ps, c, c', hr, a2, fun j hj ρ2 ρ2' hE => a3 j ρ2 ρ2' ?_⟩
        refine JS.sub (hJ.ext hj (fun y hy => ?_) hE) (fun y hy => by simp at hy ⊢; grind)
        rcases List.mem_append.1 hy with hy | hy
        · exact a1 y hy
        · exact h2 y (by simpa [own] using hy)
    · rcases recLam_cases h with ⟨ps', rfl, rfl⟩ | ⟨a, e', rfl, h'⟩
      · cases cs with
        | nil => exact hL.elim
        | cons c cs => cases cs with
          | nil =>
            refine ⟨fun y hy => h2 y (by simpa [own] using hy), c, by simp [rebuild, recLam_lam], fun k ρ ρ' hJ => hL.1.rel k ρ ρ' hJ⟩
          | cons _ _ => exact hL.2.elim
      · cases cs with
        | nil => exact hL.elim
        | cons c cs => cases cs with
          | nil =>
            obtain ⟨a1, b', a2, a3⟩ := hL.1.recs ps b h'
            exact ⟨a1, b', by simp [rebuild, recLam_pi, a2], a3⟩
          | cons _ _ => exact hL.2.elim
  | _, _, .letrec (n := n) (vs := vs) (vs' := vs') (g := g) (gs := gs) (b := b) (b' := b') h1 h2 h3 h4, X, hg => by
    have hv := hg.child (c := ([n], pis vs (lams (g :: gs) b))) (by simp [children])
    have he := hg.child (c := ([n], _)) (by simp only [children, List.mem_cons]; exact .inr (.inl rfl))
    have hb := good_lams (good_pis hv)
    have ih1 := sat_ok h3 hb
    have ih2 := sat_ok h4 he
    have hnd : ∀ y ∈ (g :: gs).flatten.map (·.1), y ≠ n := by
      intro y hy he
      have := hv.disj n (by simp)
      rw [cnt_pis, cnt_lams] at this
      have := List.count_pos_iff.2 (he ▸ hy)
      omega
    refine ⟨fun k ρ ρ' hJ => ?_, fun ps b h => by simp [recLam, stripPis] at h⟩
    refine relO_letrec (ps := g.map (·.1)) (b := lams gs b) (ps' := (g :: gs).flatten.map (·.1)) (b' := b')
      (by rw [recLam_pis]; exact recLam_lam _ _) (by rw [recLam_pis]; exact recLam_lam _ _) ?_
    have hUV : ∀ j, j ≤ k → UV d s j ((g :: gs).map List.length) (.rclo ρ n (g.map (·.1)) (lams gs b)) (.rclo ρ' n ((g :: gs).flatten.map (·.1)) b') := by
      intro j
      induction j using Nat.strongRecOn with
      | _ j ih =>
        intro hj
        refine uv_fn (R := R) (X := n :: X) (pre := [(n, .rclo ρ n (g.map (·.1)) (lams gs b))]) (pre' := [(n, .rclo ρ' n ((g :: gs).flatten.map (·.1)) b')])
          (ρ := ρ) (ρ' := ρ') (b := b) (b' := b') ?_ (beh_rclo ρ' n ((g :: gs).flatten.map (·.1)) b') rfl (fun y hy => by simpa using hnd y hy) h2 (fun i hi => ?_) fun i hi ρ2 ρ2' hJ2 => ?_
        · have := beh_rclo ρ n (g.map (·.1)) (lams gs b)
          rw [List.length_map] at this
          exact this
        · exact (hJ.mono (by omega)).cons h1 (ih i hi (by omega))
        · exact ih1.rel i ρ2 ρ2' hJ2
    exact ih2.rel k _ _ (hJ.cons h1 (hUV k (Nat.le_refl _)))
  | _, _, .let_ (n := n) (vs := vs) (vs' := vs') (g := g) (gs := gs) (b := b) (b' := b') h1 h2 h3 h4, X, hg => by
    obtain ⟨hv, he, -⟩ := good_let.1 hg
    have ih1 := sat_ok h3 (good_lams (good_pis hv))
    have ih2 := sat_ok h4 he
    refine ⟨fun k ρ ρ' hJ => ?_, fun ps b h => by simp [recLam, stripPis] at h⟩
    have hUV : UV d s k ((g :: gs).map List.length) (.clo ρ (g.map (·.1)) (lams gs b)) (.clo ρ' ((g :: gs).flatten.map (·.1)) b') := by
      refine uv_fn (R := R) (X := X) (pre := []) (pre' := [])
          (ρ := ρ) (ρ' := ρ') (b := b) (b' := b') ?_ (beh_clo ρ' ((g :: gs).flatten.map (·.1)) b') rfl (fun y hy => by simp) h2 (fun i hi => ?_) fun i hi ρ2 ρ2' hJ2 => ?_
      · have := beh_clo ρ (g.map (·.1)) (lams gs b)
        rw [List.length_map] at this
        exact this
      · exact hJ.mono (by omega)
      · exact ih1.rel i ρ2 ρ2' hJ2
    have i1 : IsV ρ (pis vs (lams (g :: gs) b)) (.clo ρ (g.map (·.1)) (lams gs b)) := isV_lam.pis vs
    have i2 : IsV ρ' (pis vs' (.lam (g :: gs).flatten b')) (.clo ρ' ((g :: gs).flatten.map (·.1)) b') := isV_lam.pis vs'
    have hr := ih2.rel k _ _ (hJ.cons h1 hUV)
    cases d with
    | true => exact isV_let i1 i2 hr
    | false => exact isV_let i2 i1 hr
theorem satL_ok : ∀ {cs : List Expr} {cs' : List Expr}, SatL R cs cs' → All2 (fun e e' => ∀ X, Good X e → SatOK d s R X e e') cs cs'
  | _, _, .nil => trivial
  | _, _, .cons h1 h2 => ⟨fun _ hg => sat_ok h1 hg, satL_ok h2⟩
end

end Tic.Core
