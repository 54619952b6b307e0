import Verif.RenameCopy
/-
Helper: exchanging the immediate subexpressions of a node, one by one.
-/
namespace Tic.Core

variable {s : Mode}

theorem zipWith_mk_nil (xs : List Expr) : List.zipWith (fun (c : List Name × Expr) x => (c.1, x)) (xs.map fun x => (([] : List Name), x)) =
    fun ys : List Expr => List.zipWith (fun _ y => (([] : List Name), y)) xs ys := by
  funext ys
  rw [List.zipWith_map_left]

theorem zipWith_snd {α β γ : Type} (f : β → γ) : ∀ (xs : List α) (ys : List β), xs.length = ys.length → List.zipWith (fun _ y => f y) xs ys = ys.map f
  | [], [], _ => rfl
  | x :: xs, y :: ys, h => by simp [zipWith_snd f xs ys (by simpa using h)]

theorem zipWith_br {γ : Type} (f : Branch → γ) (hf : ∀ c ns e e', f (.mk c ns e) = f (.mk c ns e')) : ∀ (bs : List Branch) (ys : List Expr), bs.length = ys.length →
    (List.zipWith (fun (b : Branch) x => Branch.mk b.ctor b.binds x) bs ys).map f = bs.map f
  | [], [], _ => rfl
  | .mk c ns e :: bs, y :: ys, h => by
    simp only [List.zipWith_cons_cons, List.map_cons, zipWith_br f hf bs ys (by simpa using h)]
    congr 1
    exact hf _ _ _ _

theorem children_rebuild {e : Expr} {cs : List Expr} (h : cs.length = (children e).length) :
    children (rebuild e cs) = List.zipWith (fun c x => (c.1, x)) (children e) cs := by
  have hL : ∀ xs ys : List Expr, ys.length = xs.length → ys.map (fun x => (([] : List Name), x)) =
      List.zipWith (fun (c : List Name × Expr) x => (c.1, x)) (xs.map fun x => (([] : List Name), x)) ys := by
    intro xs ys h
    rw [zipWith_mk_nil]
    exact (zipWith_snd (fun y => (([] : List Name), y)) xs ys h.symm).symm
  cases e <;> simp only [children, List.length_cons, List.length_nil, List.length_map] at h
  case call f xs =>
    cases cs with
    | nil => simp at h
    | cons c cs => simp only [rebuild, children, List.zipWith_cons_cons]; rw [hL xs cs (by simpa using h)]
  case intr i xs => simp only [rebuild, children]; exact hL xs cs h
  case con c ts xs => simp only [rebuild, children]; exact hL xs cs h
  case mtch e bs =>
    cases cs with
    | nil => simp at h
    | cons c cs =>
      simp only [rebuild, children, List.zipWith_cons_cons]
      congr 1
      rw [List.zipWith_map_left, List.map_zipWith]
      rfl
  all_goals
    rcases cs with _ | ⟨c1, _ | ⟨c2, _ | ⟨c3, _ | ⟨c4, cs⟩⟩⟩⟩ <;> first | rfl | (exfalso; simp at h; done)

theorem own_rebuild {e : Expr} {cs : List Expr} (h : cs.length = (children e).length) : own (rebuild e cs) = own e := by
  cases e <;> simp only [children, List.length_cons, List.length_nil, List.length_map] at h
  case call f xs =>
    cases cs with
    | nil => simp at h
    | cons c cs => rfl
  case intr i xs => rfl
  case con c ts xs => rfl
  case mtch e bs =>
    cases cs with
    | nil => simp at h
    | cons c cs =>
      simp only [rebuild, own, List.flatMap]
      rw [zipWith_br _ (fun _ _ _ _ => rfl) bs cs (by simpa using h.symm)]
  all_goals
    rcases cs with _ | ⟨c1, _ | ⟨c2, _ | ⟨c3, _ | ⟨c4, cs⟩⟩⟩⟩ <;> first | rfl | (exfalso; simp at h; done)

theorem All2.zip {α β γ : Type} {P : γ → Prop} {Q : α → β → Prop} {f : α → β → γ} (hf : ∀ a b, Q a b → P (f a b)) :
    ∀ {as : List α} {bs : List β}, All2 Q as bs → ∀ c ∈ List.zipWith f as bs, P c
  | [], [], _, _, h => by simp at h
  | a :: as, b :: bs, ⟨h1, h2⟩, c, hc => by
    rw [List.zipWith_cons_cons] at hc
    rcases List.mem_cons.1 hc with rfl | hc
    · exact hf a b h1
    · exact All2.zip hf h2 c hc

theorem zipWith_sum {α : Type} (f : α → Nat) (cs : List (List Name × Expr)) : ∀ (xs : List Expr), xs.length = cs.length → ∀ g : Expr → Nat,
    ((List.zipWith (fun (c : List Name × Expr) x => (c.1, x)) cs xs).map fun c => g c.2) = xs.map g := by
  induction cs with
  | nil => intro xs h g; cases xs with
    | nil => rfl
    | cons _ _ => simp at h
  | cons c cs ih =>
    intro xs h g
    cases xs with
    | nil => simp at h
    | cons x xs => simp [ih xs (by simpa using h) g]

theorem cnt_rebuild {e : Expr} {cs : List Expr} (h : cs.length = (children e).length) (y : Name) :
    cnt y (rebuild e cs) = (own e).count y + (cs.map (cnt y)).sum := by
  rw [cnt_eq, own_rebuild h, children_rebuild h, zipWith_sum (fun _ : Nat => 0) _ _ h]

/-- The head of the node is kept. -/
theorem rebuild_letrec {e : Expr} {cs : List Expr} (h : cs.length = (children e).length) {n : Name} {t : Ty} {v b : Expr}
    (he : rebuild e cs = .letrec n t v b) : ∃ v0 b0, e = .letrec n t v0 b0 ∧ cs = [v, b] := by
  cases e <;> simp only [children, List.length_cons, List.length_nil, List.length_map] at h
  case call f xs =>
    cases cs with
    | nil => simp at h
    | cons c cs => simp [rebuild] at he
  case intr i xs => simp [rebuild] at he
  case con c ts xs => simp [rebuild] at he
  case mtch e bs =>
    cases cs with
    | nil => simp at h
    | cons c cs => simp [rebuild] at he
  case letrec n' t' v0 b0 =>
    match cs, h with
    | [v1, b1], _ =>
      simp only [rebuild, Expr.letrec.injEq] at he
      obtain ⟨rfl, rfl, rfl, rfl⟩ := he
      exact ⟨v0, b0, rfl, rfl⟩
  all_goals
    rcases cs with _ | ⟨c1, _ | ⟨c2, _ | ⟨c3, _ | ⟨c4, cs⟩⟩⟩⟩ <;> first | (exfalso; simp at h; done) | simp [rebuild] at he

theorem nodeOK_rebuild {e : Expr} {cs : List Expr} (h : cs.length = (children e).length) (hn : NodeOK e)
    (hr : ∀ n t v b, rebuild e cs = .letrec n t v b → (recLam v).isSome = true) : NodeOK (rebuild e cs) := by
  cases hx : rebuild e cs <;> try exact trivial
  case letrec n t v b => exact hr n t v b hx
  case mtch a bs =>
    cases e <;> simp only [children, List.length_cons, List.length_nil, List.length_map] at h
    case mtch e bs0 =>
      cases cs with
      | nil => simp at h
      | cons c cs =>
        simp only [rebuild, Expr.mtch.injEq] at hx
        rw [← hx.2]
        simp only [NodeOK] at hn ⊢
        rw [zipWith_br _ (fun _ _ _ _ => rfl) bs0 cs (by simpa using h.symm)]
        exact hn
    case call f xs =>
      cases cs with
      | nil => simp at h
      | cons c cs => simp [rebuild] at hx
    case intr i xs => simp [rebuild] at hx
    case con c ts xs => simp [rebuild] at hx
    all_goals
      rcases cs with _ | ⟨c1, _ | ⟨c2, _ | ⟨c3, _ | ⟨c4, cs⟩⟩⟩⟩ <;> first | (exfalso; simp at h; done) | simp [rebuild] at hx

theorem rebuild_name {e : Expr} {cs : List Expr} (h : cs.length = (children e).length) {x : Name} (he : rebuild e cs = .name x) : e = .name x := by
  cases e <;> simp only [children, List.length_cons, List.length_nil, List.length_map] at h
  case call f xs =>
    cases cs with
    | nil => simp at h
    | cons c cs => simp [rebuild] at he
  case intr i xs => simp [rebuild] at he
  case con c ts xs => simp [rebuild] at he
  case mtch e bs =>
    cases cs with
    | nil => simp at h
    | cons c cs => simp [rebuild] at he
  all_goals
    rcases cs with _ | ⟨c1, _ | ⟨c2, _ | ⟨c3, _ | ⟨c4, cs⟩⟩⟩⟩ <;> first | (exfalso; simp at h; done) | simpa [rebuild] using he

/-- Related immediate subexpressions, in environments extended by the names bound around them. -/
theorem rel_rebuild {k : Nat} {ρ ρ' : Env} {e : Expr} {cs : List Expr}
    (hn : ∀ x, e = .name x → RelD s k ρ (.name x) ρ' (.name x))
    (hc : All2 (fun c c' => ∀ j, j ≤ k → ∀ ρ2 ρ2', Ext s j c.1 ρ ρ' ρ2 ρ2' → RelD s j ρ2 c.2 ρ2' c') (children e) cs)
    (hrec : ∀ n t v b v' b', e = .letrec n t v b → cs = [v', b'] → ∃ ps d d', recLam v = some (ps, d) ∧ recLam v' = some (ps, d') ∧
      ∀ j, j ≤ k → ∀ ρ2 ρ2', Ext s j (ps ++ [n]) ρ ρ' ρ2 ρ2' → RelD s j ρ2 d ρ2' d') :
    RelD s k ρ e ρ' (rebuild e cs) := by
  have h0 : ∀ {a a' : Expr}, (∀ j, j ≤ k → ∀ ρ2 ρ2', Ext s j [] ρ ρ' ρ2 ρ2' → RelD s j ρ2 a ρ2' a') → RelD s k ρ a ρ' a' :=
    fun h => h k (Nat.le_refl _) ρ ρ' ⟨fun _ _ => rfl, fun _ _ => rfl, by simp⟩
  have hL : ∀ {xs : List Expr} {ys : List Expr}, All2 (fun (c : List Name × Expr) c' => ∀ j, j ≤ k → ∀ ρ2 ρ2', Ext s j c.1 ρ ρ' ρ2 ρ2' → RelD s j ρ2 c.2 ρ2' c')
      (xs.map fun x => ([], x)) ys → All2 (fun e e' => RelD s k ρ e ρ' e') xs ys := by
    intro xs
    induction xs with
    | nil => intro ys h; cases ys with
      | nil => trivial
      | cons _ _ => exact h.elim
    | cons x xs ih => intro ys h; cases ys with
      | nil => exact h.elim
      | cons y ys => exact ⟨h0 h.1, ih h.2⟩
  have hB : ∀ {bs : List Branch} {ys : List Expr}, All2 (fun (c : List Name × Expr) c' => ∀ j, j ≤ k → ∀ ρ2 ρ2', Ext s j c.1 ρ ρ' ρ2 ρ2' → RelD s j ρ2 c.2 ρ2' c')
      (bs.map fun b => (b.binds, b.body)) ys → All2 (fun b b' => b.ctor = b'.ctor ∧ b.binds.length = b'.binds.length ∧
      ∀ j, j ≤ k → ∀ fs fs', Vs s j fs fs' → b.binds.length = fs.length →
        RelD s j (bindAll ρ b.binds fs) b.body (bindAll ρ' b'.binds fs') b'.body) bs (List.zipWith (fun (b : Branch) x => Branch.mk b.ctor b.binds x) bs ys) := by
    intro bs
    induction bs with
    | nil => intro ys h; cases ys with
      | nil => trivial
      | cons _ _ => exact h.elim
    | cons x xs ih => intro ys h; cases ys with
      | nil => exact h.elim
      | cons y ys =>
        refine ⟨⟨rfl, rfl, fun j hj fs fs' hf hl => ?_⟩, ih h.2⟩
        exact h.1 j hj _ _ (Ext.bindAll hf hl)
  have hlen := hc.length
  cases e <;> simp only [children, List.length_cons, List.length_nil, List.length_map] at hlen <;> simp only [children] at hc
  case call f xs =>
    cases cs with
    | nil => simp at hlen
    | cons c cs => exact rel_call (h0 hc.1) (hL hc.2)
  case intr i xs => exact rel_intr (hL hc)
  case con c ts xs => exact rel_con (hL hc)
  case mtch e bs =>
    cases cs with
    | nil => simp at hlen
    | cons c cs => exact rel_mtch (h0 hc.1) (relBr_all2 (hB hc.2))
  case bool b => match cs, hlen with | [], _ => exact rel_bool b
  case int b => match cs, hlen with | [], _ => exact rel_int b
  case str b => match cs, hlen with | [], _ => exact rel_str b
  case trap m t => match cs, hlen with | [], _ => exact rel_trap m t t
  case name x => match cs, hlen with | [], _ => exact hn x rfl
  case ite a b c => match cs, hlen, hc with | [_, _, _], _, hc => exact rel_ite (h0 hc.1) (h0 hc.2.1) (h0 hc.2.2.1)
  case op a o b => match cs, hlen, hc with | [_, _], _, hc => exact rel_op (h0 hc.1) (h0 hc.2.1)
  case pi v a => match cs, hlen, hc with | [_], _, hc => exact rel_pi (h0 hc.1)
  case piApp a t => match cs, hlen, hc with | [_], _, hc => exact rel_piApp (h0 hc.1)
  case lam ps b =>
    match cs, hlen, hc with
    | [b'], _, hc => exact rel_lam rfl fun j hj vs vs' hv hl => hc.1 j (by omega) _ _ (Ext.bindAll hv (by simpa using hl))
  case let_ n v b =>
    match cs, hlen, hc with
    | [v', b'], _, hc => exact rel_let (h0 hc.1) fun j hj w w' hw => hc.2.1 j hj _ _ (Ext.one hw)
  case letrec n t v b =>
    match cs, hlen, hc with
    | [v', b'], _, hc =>
      obtain ⟨ps, d, d', h1, h2, h3⟩ := hrec n t v b v' b' rfl rfl
      have hV : ∀ j, j ≤ k → V s j (.rclo ρ n ps d) (.rclo ρ' n ps d') := by
        intro j hj
        refine FR_rclo rfl fun i hi hself vs vs' hvs hl => ?_
        exact h3 i (by omega) _ _ ((Ext.bindAll hvs hl).cons hself)
      exact rel_letrec (.inr ⟨ps, d, ps, d', h1, h2, hV, hc.2.1 k (Nat.le_refl _) _ _ (Ext.one (hV k (Nat.le_refl _)))⟩)

/-- A `let` whose value is known to be the outcome of evaluating the new value. -/
theorem rel_let_eval {k : Nat} {ρ ρ' : Env} {x x' : Name} {v v' e e' : Expr} (hv : RelD s k ρ v ρ' v')
    (he : ∀ j, j ≤ k → ∀ w w', V s j w w' → (∃ m, eval m ρ' v' = .ok w') → RelD s j ((x, w) :: ρ) e ((x', w') :: ρ') e') :
    RelD s k ρ (.let_ x v e) ρ' (.let_ x' v' e') := by
  intro j hj n; cases n with
  | zero => exact CE.timeout
  | succ n =>
    refine CE.succ ?_
    refine CE.bind (P := fun j a b => V s j a b ∧ ∃ m, eval m ρ' v' = .ok b) (S := fun v m => eval m ((x', v) :: ρ') e') (mono_eval _ _) (fun _ => mono_eval _ _)
      (fun hc ht => ?_) fun i hi w w' hw => ?_
    · obtain ⟨m, hm⟩ := hv j hj n hc ht
      refine ⟨m, ?_⟩
      dsimp only at hm ⊢
      cases hl : (evalC n ρ v).2 with
      | ok a => rw [hl] at hm; obtain ⟨b, hb, hp⟩ := hm; exact ⟨b, hb, hp, m, hb⟩
      | trap msg => rw [hl] at hm; exact hm
      | panic => rw [hl] at hm; exact hm
      | timeout => trivial
    · exact he i (by omega) w w' hw.1 hw.2 i (Nat.le_refl _) n

theorem All2.and {α β : Type} {P Q : α → β → Prop} : ∀ {as : List α} {bs : List β}, All2 P as bs → All2 Q as bs → All2 (fun a b => P a b ∧ Q a b) as bs
  | [], [], _, _ => trivial
  | _ :: _, _ :: _, ⟨h1, h2⟩, ⟨h3, h4⟩ => ⟨⟨h1, h3⟩, h2.and h4⟩

/-- Scoping of the rebuilt node. -/
theorem good_rebuild {X : List Name} {e : Expr} {cs : List Expr} (h : Good X e)
    (hc : All2 (fun c c' => Good (c.1 ++ X) c') (children e) cs)
    (hr : ∀ n t v b v' b', e = .letrec n t v b → cs = [v', b'] → (recLam v').isSome = true)
    (hu : ∀ y, (own e).count y + (cs.map (cnt y)).sum ≤ 1) (hd : ∀ y ∈ X, (cs.map (cnt y)).sum = 0) : Good X (rebuild e cs) := by
  have hlen := hc.length.symm
  have hcnt := cnt_rebuild hlen
  refine ⟨fun y => by rw [hcnt]; exact hu y, fun y hy => ?_, fun x hx => ?_, ?_⟩
  · rw [hcnt, hd y hy]
    have := h.disj y hy
    rw [cnt_eq] at this; omega
  · rcases free_iff.1 hx with he | ⟨c, hc', hb, hf⟩
    · rw [rebuild_name hlen he] at h; exact h.scope x (by simp [Free])
    · rw [children_rebuild hlen] at hc'
      have := All2.zip (P := fun c : List Name × Expr => Good (c.1 ++ X) c.2) (f := fun (c : List Name × Expr) x => (c.1, x)) (fun a b h => h) hc c hc'
      exact (List.mem_append.1 (this.scope x hf)).resolve_left hb
  · rw [wellShaped_iff]
    refine ⟨nodeOK_rebuild hlen (h.recs e .refl) fun n t v b he => ?_, fun c hc' => ?_⟩
    · obtain ⟨v0, b0, h1, h2⟩ := rebuild_letrec hlen he
      exact hr n t v0 b0 v b h1 h2
    · rw [children_rebuild hlen] at hc'
      have := All2.zip (P := fun c : List Name × Expr => Good (c.1 ++ X) c.2) (f := fun (c : List Name × Expr) x => (c.1, x)) (fun a b h => h) hc c hc'
      exact this.recs

theorem zipWith_back : ∀ (bs : List Branch) (ys : List Expr), ys.length = bs.length →
    List.zipWith (fun (b : Branch) x => Branch.mk b.ctor b.binds x) (List.zipWith (fun (b : Branch) x => Branch.mk b.ctor b.binds x) bs ys) (bs.map Branch.body) = bs
  | [], ys, _ => by simp
  | .mk c ns e :: bs, [], h => by simp at h
  | .mk c ns e :: bs, y :: ys, h => by
    simp only [List.zipWith_cons_cons, List.map_cons]
    rw [zipWith_back bs ys (by simpa using h)]
    rfl

/-- Rebuilding with the original subexpressions. -/
theorem rebuild_back {e : Expr} {cs : List Expr} (h : cs.length = (children e).length) : rebuild (rebuild e cs) ((children e).map (·.2)) = e := by
  have hm : ∀ xs : List Expr, (xs.map fun x => (([] : List Name), x)).map (·.2) = xs := fun xs => by simp [Function.comp_def]
  cases e <;> simp only [children, List.length_cons, List.length_nil, List.length_map] at h
  case call f xs =>
    cases cs with
    | nil => simp at h
    | cons c cs => simp only [rebuild, children, List.map_cons, hm]
  case intr i xs => simp only [rebuild, children, hm]
  case con c ts xs => simp only [rebuild, children, hm]
  case mtch e bs =>
    cases cs with
    | nil => simp at h
    | cons c cs =>
      have hb : (bs.map fun b => (b.binds, b.body)).map (·.2) = bs.map Branch.body := by simp [Function.comp_def]
      simp only [rebuild, children, List.map_cons, hb, zipWith_back bs cs (by simpa using h)]
  all_goals
    rcases cs with _ | ⟨c1, _ | ⟨c2, _ | ⟨c3, _ | ⟨c4, cs⟩⟩⟩⟩ <;> first | (exfalso; simp at h; done) | rfl

theorem All2.zip_back {P : List Name × Expr → Expr → Prop} : ∀ {cs : List (List Name × Expr)} {es : List Expr},
    All2 P cs es → All2 (fun c c' => ∃ d, d.1 = c.1 ∧ d.2 = c' ∧ P d c.2) (List.zipWith (fun (c : List Name × Expr) x => (c.1, x)) cs es) (cs.map (·.2))
  | [], [], _ => trivial
  | c :: cs, e :: es, ⟨h1, h2⟩ => ⟨⟨c, rfl, rfl, h1⟩, h2.zip_back⟩

/-- Related immediate subexpressions, in either direction. -/
theorem rel2_rebuild {d : Bool} {k : Nat} {ρ ρ' : Env} {e : Expr} {cs : List Expr}
    (hn : ∀ x, e = .name x → RelD s k ρ (.name x) ρ' (.name x))
    (hc : All2 (fun c c' => ∀ j, j ≤ k → ∀ ρ2 ρ2', Ext s j c.1 ρ ρ' ρ2 ρ2' → Rel2 d s j ρ2 c.2 ρ2' c') (children e) cs)
    (hrec : ∀ n t v b v' b', e = .letrec n t v b → cs = [v', b'] → ∃ ps a a', recLam v = some (ps, a) ∧ recLam v' = some (ps, a') ∧
      ∀ j, j ≤ k → ∀ ρ2 ρ2', Ext s j (ps ++ [n]) ρ ρ' ρ2 ρ2' → Rel2 d s j ρ2 a ρ2' a') :
    Rel2 d s k ρ e ρ' (rebuild e cs) := by
  have hlen := hc.length.symm
  cases d with
  | true => exact rel_rebuild hn hc hrec
  | false =>
    show RelD s k ρ (rebuild e cs) ρ' e
    have hb := rebuild_back hlen
    refine (?_ : RelD s k ρ (rebuild e cs) ρ' (rebuild (rebuild e cs) ((children e).map (·.2)))).trans fun j => by rw [hb]; exact fund e fun x _ => LookRel.refl s j ρ' x
    refine rel_rebuild (fun x hx => hn x (rebuild_name hlen hx)) ?_ fun n t v b v' b' h1 h2 => ?_
    · rw [children_rebuild hlen]
      refine hc.zip_back.imp fun c c' ⟨d, h1, h2, h3⟩ j hj ρ2 ρ2' hE => ?_
      rw [← h2]
      exact h3 j hj ρ2 ρ2' (by rw [h1]; exact hE)
    · obtain ⟨v0, b0, rfl, rfl⟩ := rebuild_letrec hlen h1
      simp only [children, List.map_cons, List.map_nil, List.cons.injEq, and_true] at h2
      obtain ⟨rfl, rfl⟩ := h2
      obtain ⟨ps, a, a', r1, r2, r3⟩ := hrec n t v0 b0 v b rfl rfl
      exact ⟨ps, a', a, r2, r1, r3⟩

end Tic.Core
