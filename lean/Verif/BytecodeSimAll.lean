import Verif.BytecodeStep
/-
The simulation for every expression.
-/
namespace Tic.Core.Bc

theorem compL_post {cx : FnCx} {X : List Name} (hX : CxX cx X) {es : List Expr} {s s' : CS} {code : List BOp}
    (he : ∀ e ∈ es, Good X e ∧ BcShape e ∧ CxOK cx e) (h : compL cx es s = some (code, s')) (hs : InS X s)
    (hi : CxInv cx s) : Post es.length (bcDefinedL es) cx s code s' := by
  obtain ⟨cc, ss, ee, pp⟩ := compL_ok hX es s hs hi (fun e' he' => by
      obtain ⟨g1, g2, g3⟩ := he e' he'
      exact ⟨comp_ok e' cx false X g1 g2 g3 hX, fun x hx => g1.notDefined hx⟩)
  rw [h] at ee
  cases ee
  exact pp

theorem simAt_succ {P : LP} (hP : P.OK) {n : Nat} (IH : SimAt P n) : SimAt P (n + 1) := by
  intro e cx tail X s s' code i ρ S B ret hg hsh hcx hX h hF hc hi hS hfr hD
  -- children in the same scope, not in tail position
  have hch : ∀ c, ([], c) ∈ children e → Good X c ∧ BcShape c ∧ CxOK cx c ∧ sizeOf c < sizeOf e := fun c hm =>
    ⟨hg.child hm, hsh.child hm, hcx.child hm, mem_children_size hm⟩
  have hnd : ∀ {c : List Name × Expr}, c ∈ children e → ∀ x ∈ X, x ∉ bcDefined c.2 := fun hm x hx =>
    notDefined_child hg hx hm
  have ev : ∀ c, ([], c) ∈ children e → ∀ s code s' i S, comp cx false c s = some (code, s') → s'.fns <+: P.fns →
      CodeAt P i code → CxInv cx s → BConf P X s ρ S →
      Sim P (fun v t => ∃ w, BRel P v w ∧ t = ⟨P.addr (i + code.length), w :: (S.reverse ++ B)⟩) (n + 1) (sizeOf e)
        (evalA n ρ c) ⟨P.addr i, S.reverse ++ B⟩ := by
    intro c hm s code s' i S h hF hc hi hS
    obtain ⟨g1, g2, g3, g4⟩ := hch c hm
    refine Sim.post (Sim.weaken (IH c cx false X s s' code i ρ S B 0 g1 g2 g3 hX h hF hc hi hS (fun h => nomatch h) (by omega))
      (by omega)) fun v t hd => ⟨0, t, rfl, hd.fall⟩
  -- children in tail position
  have evT : ∀ Y c, (Y, c) ∈ children e → ∀ s code s' i ρ' S', comp cx tail c s = some (code, s') → s'.fns <+: P.fns →
      CodeAt P i code → CxInv cx s → BConf P (Y ++ X) s ρ' S' →
      (tail = true → ∃ ws fnv ra caps L, Frame P cx (Y ++ X) ρ' S' ret ws fnv ra caps L) →
      Sim P (Done P (i + code.length) (S'.reverse ++ B) tail ret B) (n + 1) (sizeOf e)
        (evalA n ρ' c) ⟨P.addr i, S'.reverse ++ B⟩ := by
    intro Y c hm s code s' i ρ' S' h hF hc hi hS hfr
    have := mem_children_size hm
    exact Sim.weaken (IH c cx tail (Y ++ X) s s' code i ρ' S' B ret (hg.child hm) (hsh.child hm) (hcx.child hm)
      (fun hr p hp => List.mem_append_right _ (hX hr p hp)) h hF hc hi hS hfr (by simp only at this; omega)) (by simp only at this; omega)
  have post : ∀ c t, ([], c) ∈ children e → ∀ s code s' S, comp cx t c s = some (code, s') → CxInv cx s → BConf P X s ρ S →
      Post 1 (bcDefined c) cx s code s' := by
    intro c t hm s code s' S h hi hS
    obtain ⟨g1, g2, g3, g4⟩ := hch c hm
    exact comp_post g1 g2 g3 hX h hS.inS hi
  have hlist : ∀ es, (∀ e' ∈ es, ([], e') ∈ children e) → sizeOf es < sizeOf e → ∀ code s', compL cx es s = some (code, s') →
      s'.fns <+: P.fns → CodeAt P i code →
      Sim P (fun vs t => ∃ ws, BRels P vs ws ∧ ws.length = es.length ∧ t = ⟨P.addr (i + code.length), (S ++ ws).reverse ++ B⟩) (n + 1) (sizeOf e)
      (evalList (evalA n ρ) es) ⟨P.addr i, S.reverse ++ B⟩ := by
    intro es hes hz code s' h hF hc
    exact Sim.weaken (list_sim IH hX es s s' code i S (fun e' he => by
      obtain ⟨g1, g2, g3, g4⟩ := hch e' (hes e' he)
      exact ⟨g1, g2, g3, by omega⟩) h hF hc hi hS) (by omega)
  have one : ∀ {w : TVal} {v : Val} {j : Nat}, P.step ⟨P.addr i, S.reverse ++ B⟩ = .next ⟨P.addr j, w :: (S.reverse ++ B)⟩ →
      BRel P v w → Sim P (Done P j (S.reverse ++ B) tail ret B) (n + 1) (sizeOf e) (.ok v) ⟨P.addr i, S.reverse ++ B⟩ :=
    fun h1 h2 => Sim.ok (Steps.one h1) ⟨_, h2, .inl rfl⟩
  cases e with
  | bool b =>
    rw [comp] at h; cases h
    exact one (hP.step_pushBool (hc 0 _ rfl)) (.bool b)
  | int b =>
    rw [comp] at h; cases h
    exact one (hP.step_pushInt (hc 0 _ rfl)) (.int b)
  | str b =>
    rw [comp] at h; cases h
    exact one (hP.step_pushStr (hc 0 _ rfl)) (.str b)
  | trap m t =>
    rw [comp] at h; cases h
    exact ⟨0, _, rfl, hP.step_trap (hc 0 _ rfl)⟩
  | name x =>
    obtain ⟨a, v, w, h1, h2, h3, h4⟩ := hS.has x (hg.scope x rfl)
    have ha := (List.getElem?_eq_some_iff.1 h3).1
    rw [hS.len] at ha
    rw [comp, pickVar_ok h1 ha] at h
    cases h
    rw [evalA, h2]
    have := frame_get (B := B) h3
    rw [hS.len] at this
    exact one (hP.step_pick (hc 0 _ rfl) this) h4
  | call f xs =>
    rw [comp] at h
    obtain ⟨⟨c1, s1⟩, e1, h⟩ := Option.bind_eq_some_iff.1 h
    have hxs : ∀ e' ∈ xs, ([], e') ∈ children (.call f xs) := fun e' he => by simp [children, he]
    have p1 := compL_post hX (fun e' he => ⟨(hch e' (hxs e' he)).1, (hch e' (hxs e' he)).2.1, (hch e' (hxs e' he)).2.2.1⟩)
      e1 hS.inS hi
    have hx1 : ∀ x ∈ X, x ∉ bcDefinedL xs := fun x hx hm => by
      obtain ⟨e', he, hm⟩ := mem_bcDefinedL.1 hm
      exact hnd (hxs e' he) x hx hm
    have hi1 := hi.post p1 fun hr x hx => hx1 x (hX hr x hx)
    have hS1 : ∀ ws : List TVal, ws.length = xs.length → BConf P X s1 ρ (S ++ ws) := fun ws hw =>
      hS.ext (by rw [p1.size, hw]) fun x hx => p1.depths x (hx1 x hx)
    have hz1 := p1.size
    by_cases ht : isSelfTail cx tail f = true
    · obtain ⟨g, rfl, hgr, htl⟩ : ∃ g, f = .name g ∧ cx.rec? = some g ∧ tail = true := by
        cases f with
        | name g =>
          simp only [isSelfTail, Bool.and_eq_true, beq_iff_eq] at ht
          exact ⟨g, rfl, ht.2, ht.1⟩
        | _ => simp [isSelfTail] at ht
      have hr : cx.rec?.isSome = true := by rw [hgr]; rfl
      obtain ⟨q0, q1, q2, q3⟩ := hi hr
      obtain ⟨_, _, _, r3⟩ := hi1 hr
      have hl := hcx g hgr xs .refl
      obtain ⟨c2, s2, e2, z2, d2, m2⟩ := tailCall_ok hr q1 r3 (by omega)
      simp only at h
      rw [if_pos ht, e2] at h
      cases h
      obtain ⟨k1, k2⟩ := hc.append
      obtain ⟨ws0, fnv, ra, caps, L, hframe⟩ := hfr htl
      rw [evalA]
      refine Sim.bind (hlist xs hxs (by simp only [Expr.call.sizeOf_spec, Expr.intr.sizeOf_spec, Expr.con.sizeOf_spec]; omega) c1 s1 e1 (m2.fns.trans hF) k1) ?_
      rintro vs t ⟨us, r, hul, rfl⟩
      cases n with
      | zero => exact ⟨0, _, rfl, by simp only [Expr.call.sizeOf_spec]; omega⟩
      | succ m =>
        have hts := tail_sim hP IH hframe hgr (B := B) r (by omega) e2 r3 (by rw [hS.len]; omega) k2
        exact Sim.post (Sim.weaken hts (by omega)) fun v t ⟨w, h1, h2⟩ => ⟨0, t, rfl, w, h1, .inr ⟨htl, h2⟩⟩
    · simp only at h
      rw [if_neg ht] at h
      obtain ⟨⟨c2, s2⟩, e2, h⟩ := Option.bind_eq_some_iff.1 h
      have hfm : ([], f) ∈ children (.call f xs) := by simp [children]
      have p2 := comp_post (hch f hfm).1 (hch f hfm).2.1 (hch f hfm).2.2.1 hX e2 (hS.inS.post p1 hx1) hi1
      have hz2 := p2.size
      obtain ⟨s3, e3, z3, n3, f3, d3⟩ := plainCall_ok (k := xs.length) (s := s2) (by omega)
      simp only at h
      rw [e3] at h
      cases h
      rw [f3] at hF
      obtain ⟨k1, k2⟩ := hc.append
      obtain ⟨k2, k3⟩ := k2.append
      rw [evalA]
      refine Sim.bind (hlist xs hxs (by simp only [Expr.call.sizeOf_spec, Expr.intr.sizeOf_spec, Expr.con.sizeOf_spec]; omega) c1 s1 e1 (p2.emit.fns.trans hF) k1) ?_
      rintro vs t ⟨us, r, hul, rfl⟩
      refine Sim.bind (ev f hfm s1 c2 s2 _ (S ++ us) e2 hF k2 hi1 (hS1 us hul)) ?_
      rintro fv t ⟨w, r2, rfl⟩
      split
      · have hcall := call_sim hP IH r2 r (T := S.reverse ++ B) (k3 0 _ rfl)
        rw [show us.reverse ++ (S.reverse ++ B) = (S ++ us).reverse ++ B by simp] at hcall
        refine Sim.post (Sim.weaken hcall (by omega)) fun v t ⟨w, h1, h2⟩ => ⟨0, t, rfl, w, h1, .inl ?_⟩
        rw [h2]
        simp only [List.length_append, List.length_cons, List.length_nil, Nat.add_assoc]
      · trivial
  | ite c t e =>
    rw [comp] at h
    obtain ⟨⟨c1, s1⟩, e1, h⟩ := Option.bind_eq_some_iff.1 h
    dsimp only at h
    have hcm : ([], c) ∈ children (.ite c t e) := by simp [children]
    have htm : ([], t) ∈ children (.ite c t e) := by simp [children]
    have hem : ([], e) ∈ children (.ite c t e) := by simp [children]
    have p1 := post c false hcm s c1 s1 S e1 hi hS
    have hz1 := p1.size
    have d1 : ∀ x ∈ X, assoc x s1.depths = assoc x s.depths := fun x hx => p1.depths x (hnd hcm x hx)
    rw [CS.shrink_ok (by simp only; omega), Option.bind_some] at h
    obtain ⟨⟨c3, s3⟩, e3, h⟩ := Option.bind_eq_some_iff.1 h
    have hS2 : BConf P X { s1 with next := s1.next + 2, size := s1.size - 1 } ρ S := hS.same (by simp only; omega) d1
    have hi2 : CxInv cx { s1 with next := s1.next + 2, size := s1.size - 1 } := hi.same hX d1 (by simp only; omega)
    have p3 := post t tail htm _ c3 s3 S e3 hi2 hS2
    have hz3 := p3.size
    simp only at hz3
    have d3 : ∀ x ∈ X, assoc x s3.depths = assoc x s.depths := fun x hx => by
      rw [p3.depths x (hnd htm x hx)]
      exact d1 x hx
    rw [CS.shrink_ok (by simp only; omega), Option.bind_some] at h
    obtain ⟨⟨c5, s5⟩, e5, h⟩ := Option.map_eq_some_iff.1 h
    have hS4 : BConf P X { s3 with size := s3.size - 1 } ρ S := hS.same (by simp only; omega) d3
    have hi4 : CxInv cx { s3 with size := s3.size - 1 } := hi.same hX d3 (by simp only; omega)
    have p5 := post e tail hem _ c5 s5 S e5 hi4 hS4
    cases h
    have f5 := p5.emit.fns
    have f3 := p3.emit.fns
    simp only at f5 f3 hF
    obtain ⟨k1, k2⟩ := hc.append
    obtain ⟨o1, k2⟩ := k2.cons
    obtain ⟨k3, k4⟩ := k2.append
    obtain ⟨o2, k4⟩ := k4.cons
    obtain ⟨o3, k4⟩ := k4.cons
    obtain ⟨k5, k6⟩ := k4.append
    have o4 := k6 0 _ rfl
    rw [Nat.add_zero] at o4
    have a3 := hP.silent o3 rfl
    have a4 := hP.silent o4 rfl
    have hend : i + (c1 ++ (BOp.jumpIfFalse s1.next :: (c3 ++ (.jump (s1.next + 1) :: .label s1.next ::
        (c5 ++ [.label (s1.next + 1)]))))).length = i + c1.length + 1 + c3.length + 1 + 1 + c5.length + 1 := by
      simp only [List.length_append, List.length_cons, List.length_nil]; omega
    rw [hend]
    rw [evalA]
    refine Sim.bind (ev c hcm s c1 s1 i S e1 (f3.trans (f5.trans hF)) k1 hi hS) ?_
    rintro v st ⟨w, r, rfl⟩
    cases r with
    | bool b =>
      rw [Val.intoBool, Res.bind]
      cases b with
      | true =>
        rw [if_pos rfl]
        refine Sim.pre (Steps.one (hP.step_jumpIfFalse_true o1)) (Sim.post (evT [] t htm _ c3 s3 _ ρ S e3 (f5.trans hF) k3 hi2 hS2 hfr) ?_)
          (by omega)
        rintro v st ⟨w, r, rfl | ⟨h1, rfl⟩⟩
        · refine ⟨1, _, .one (hP.step_jump o2 o4), w, r, .inl ?_⟩
          rw [a4]
        · exact ⟨0, _, rfl, w, r, .inr ⟨h1, rfl⟩⟩
      | false =>
        rw [if_neg (by decide)]
        have hj := hP.step_jumpIfFalse_false (T := S.reverse ++ B) o1 o3
        rw [← a3] at hj
        refine Sim.pre (Steps.one hj) (Sim.post (evT [] e hem _ c5 s5 _ ρ S e5 hF k5 hi4 hS4 hfr) ?_)
          (by omega)
        rintro v st ⟨w, r, rfl | ⟨h1, rfl⟩⟩
        · exact ⟨0, _, rfl, w, r, .inl (by rw [a4])⟩
        · exact ⟨0, _, rfl, w, r, .inr ⟨h1, rfl⟩⟩
    | _ => trivial
  | op a o b =>
    rw [comp] at h
    obtain ⟨⟨c1, s1⟩, e1, h⟩ := Option.bind_eq_some_iff.1 h
    obtain ⟨⟨c2, s2⟩, e2, h⟩ := Option.bind_eq_some_iff.1 h
    have ham : ([], a) ∈ children (.op a o b) := by simp [children]
    have hbm : ([], b) ∈ children (.op a o b) := by simp [children]
    have p1 := post a false ham s c1 s1 S e1 hi hS
    have hi1 := hi.post p1 fun hr x hx => hnd ham x (hX hr x hx)
    have hS1 : ∀ w, BConf P X s1 ρ (S ++ [w]) := fun w => hS.ext p1.size fun x hx => p1.depths x (hnd ham x hx)
    have p2 := post b false hbm s1 c2 s2 _ e2 hi1 (hS1 (.int 0))
    have hz1 := p1.size
    have hz2 := p2.size
    rw [CS.shrink_ok (by simp only; omega)] at h
    cases h
    simp only at hF
    obtain ⟨k1, k2⟩ := hc.append
    obtain ⟨k2, k3⟩ := k2.append
    rw [evalA]
    refine Sim.bind (ev a ham s c1 s1 i S e1 (p2.emit.fns.trans hF) k1 hi hS) ?_
    rintro v st ⟨w, r, rfl⟩
    cases r with
    | int x =>
      rw [Val.intoInt, Res.bind]
      have e3 : TVal.int x :: (S.reverse ++ B) = (S ++ [TVal.int x]).reverse ++ B := by simp
      rw [e3]
      refine Sim.bind (ev b hbm s1 c2 s2 _ _ e2 hF k2 hi1 (hS1 _)) ?_
      rintro v st ⟨w, r, rfl⟩
      cases r with
      | int y =>
        rw [Val.intoInt, Res.bind]
        rw [← e3]
        refine Sim.ok (.one (hP.step_arith (k3 0 _ rfl))) ⟨_, vmOp_ok o x y, .inl ?_⟩
        simp only [List.length_append, List.length_cons, List.length_nil, Nat.add_assoc]
      | _ => trivial
    | _ => trivial
  | intr k xs =>
    rw [comp] at h
    obtain ⟨⟨c1, s1⟩, e1, h⟩ := Option.bind_eq_some_iff.1 h
    have hxs : ∀ e' ∈ xs, ([], e') ∈ children (.intr k xs) := fun e' he => by simp [children, he]
    obtain ⟨s2, e2, h⟩ := Option.map_eq_some_iff.1 h
    have hfn : s2.fns = s1.fns := by
      rw [CS.shrink] at e2
      split at e2
      · cases e2; rfl
      · cases e2
    cases h
    rw [hfn] at hF
    obtain ⟨k1, k2⟩ := hc.append
    rw [evalA]
    rcases evalIntr_vals (ev := evalA n ρ) (hsh.intr k xs .refl) with hp | hp
    · rw [hp]; trivial
    · rw [hp]
      refine Sim.bind (hlist xs hxs (by simp only [Expr.call.sizeOf_spec, Expr.intr.sizeOf_spec, Expr.con.sizeOf_spec]; omega) c1 s1 e1 hF k1) ?_
      rintro vs t ⟨us, r, hul, rfl⟩
      cases hv : intrVals k vs with
      | ok v =>
        obtain ⟨w, g1, g2⟩ := vmIntr_ok (T := S.reverse ++ B) r hv
        refine Sim.ok (.one (hP.step_intr (k2 0 _ rfl) (T' := w :: (S.reverse ++ B)) ?_)) ⟨w, g2, .inl ?_⟩
        · rw [← g1]; simp
        · simp only [List.length_append, List.length_cons, List.length_nil, Nat.add_assoc]
      | panic => trivial
      | trap m => exact absurd hv (by unfold intrVals; split <;> simp)
      | timeout => exact absurd hv (by unfold intrVals; split <;> simp)
  | con k ts xs =>
    rw [comp] at h
    obtain ⟨⟨c1, s1⟩, e1, h⟩ := Option.bind_eq_some_iff.1 h
    have hxs : ∀ e' ∈ xs, ([], e') ∈ children (.con k ts xs) := fun e' he => by simp [children, he]
    obtain ⟨s2, e2, h⟩ := Option.map_eq_some_iff.1 h
    have hfn : s2.fns = s1.fns := by
      rw [CS.shrink] at e2
      split at e2
      · cases e2; rfl
      · cases e2
    cases h
    rw [CS.grow_fns, hfn] at hF
    obtain ⟨k1, k2⟩ := hc.append
    rw [evalA]
    refine Sim.bind (hlist xs hxs (by simp only [Expr.call.sizeOf_spec, Expr.intr.sizeOf_spec, Expr.con.sizeOf_spec]; omega) c1 s1 e1 hF k1) ?_
    rintro vs t ⟨us, r, hul, rfl⟩
    split
    · rename_i hm
      obtain ⟨tag, g1, g2⟩ := hP.step_construct (T := (S ++ us).reverse ++ B) (k2 0 _ rfl) (by simp [hul]) (by
        simpa [List.take_append_of_le_length, hul] using r.plain hP)
      refine Sim.ok (.one g2) ⟨.obj tag us, .comp g1 r.len hm r.has, .inl ?_⟩
      have e : (S ++ us).reverse ++ B = us.reverse ++ (S.reverse ++ B) := by simp
      rw [e, List.take_append_of_le_length (by rw [List.length_reverse]; omega), List.drop_append_of_le_length (by rw [List.length_reverse]; omega)]
      rw [List.take_of_length_le (by rw [List.length_reverse]; omega), List.drop_of_length_le (by rw [List.length_reverse]; omega)]
      rw [List.reverse_reverse, List.nil_append]
      simp only [List.length_append, List.length_cons, List.length_nil, Nat.add_assoc]
    · trivial
  | let_ x v e =>
    rw [comp] at h
    obtain ⟨⟨c1, s1⟩, e1, h⟩ := Option.bind_eq_some_iff.1 h
    have hvm : ([], v) ∈ children (.let_ x v e) := by simp [children]
    have hem : ([x], e) ∈ children (.let_ x v e) := by simp [children]
    have p1 := post v false hvm s c1 s1 S e1 hi hS
    have hz1 := p1.size
    have hxn : x ∉ X := hg.own_new (by simp [own])
    rw [CS.define_ok (by simp only; omega), Option.bind_some] at h
    obtain ⟨⟨c2, s2⟩, e2, h⟩ := Option.bind_eq_some_iff.1 h
    obtain ⟨s3, e3, h⟩ := Option.map_eq_some_iff.1 h
    have hfn : s3.fns = s2.fns := by
      rw [CS.shrink] at e3
      split at e3
      · cases e3; rfl
      · cases e3
    cases h
    rw [hfn] at hF
    have d2 : ∀ y ∈ X, assoc y ((x, s1.size - 1) :: s1.depths) = assoc y s.depths := fun y hy => by
      rw [assoc, if_neg (fun (h : x = y) => hxn (h ▸ hy))]
      exact p1.depths y (hnd hvm y hy)
    have hi2 : CxInv cx { s1 with depths := (x, s1.size - 1) :: s1.depths } := hi.same hX d2 (by simp only; omega)
    have hS2 : ∀ v' w, BRel P v' w → BConf P ([x] ++ X) { s1 with depths := (x, s1.size - 1) :: s1.depths }
        ((x, v') :: ρ) (S ++ [w]) := fun v' w hr => by
      refine hS.add (by simp only [List.length_cons, List.length_nil]; omega) (fun y hy hn => ⟨d2 y hy, ?_⟩) (fun y hy => ?_)
      · rw [lookup, if_neg (fun h => hn (by simp [h]))]
      · rw [List.mem_singleton] at hy
        subst hy
        refine ⟨0, v', w, ?_, by rw [lookup, if_pos rfl], rfl, hr⟩
        simp only [assoc, if_true, Option.some.injEq]
        omega
    have f2 : s1.fns <+: s2.fns := (comp_post (hg.child hem) (hsh.child hem) (hcx.child hem)
      (fun hr p hp => List.mem_append_right _ (hX hr p hp)) e2 (hS2 _ _ (.int 0)).inS hi2).emit.fns
    obtain ⟨k1, k2⟩ := hc.append
    obtain ⟨k2, k3⟩ := k2.append
    have o3 := k3 0 _ rfl
    rw [Nat.add_zero] at o3
    rw [evalA]
    refine Sim.bind (ev v hvm s c1 s1 i S e1 (f2.trans hF) k1 hi hS) ?_
    rintro v' t ⟨w, r, rfl⟩
    have e4 : w :: (S.reverse ++ B) = (S ++ [w]).reverse ++ B := by simp
    rw [e4]
    refine Sim.post (evT [x] e hem _ c2 s2 _ ((x, v') :: ρ) (S ++ [w]) e2 hF k2 hi2 (hS2 v' w r) (fun ht => ?_)) ?_
    · obtain ⟨ws, fnv, ra, caps, L, hf⟩ := hfr ht
      exact ⟨ws, fnv, ra, caps, _, hf.ext [x] (fun y hy => by
        rw [lookup, if_neg (fun (h : x = y) => hxn (h ▸ hy))]) [w]⟩
    · rintro v'' t ⟨w', r', rfl | ⟨h1, rfl⟩⟩
      · rw [← e4]
        refine ⟨1, _, .one (hP.step_swapPop o3), w', r', .inl ?_⟩
        simp only [List.length_append, List.length_cons, List.length_nil, Nat.add_assoc]
      · exact ⟨0, _, rfl, w', r', .inr ⟨h1, rfl⟩⟩
  | pi a e =>
    rw [comp] at h
    rw [evalA]
    exact evT [] e (by simp [children]) s code s' i ρ S h hF hc hi hS hfr
  | piApp e a =>
    rw [comp] at h
    rw [evalA]
    exact evT [] e (by simp [children]) s code s' i ρ S h hF hc hi hS hfr
  | lam ps b =>
    have hf := fnGood_lam hg hsh
    obtain ⟨st, code0, s1, a1, a2, a3, a4, a5⟩ := compFn_ok (n := s.next) (F := s.fns) hf (fun cx' h1 h2 =>
      comp_ok b cx' true _ hf.good hf.shape h1 h2)
    rw [List.length_map] at a5
    rw [comp] at h
    rw [a1, Option.bind_some, a3, Option.bind_some, a5, Option.bind_some] at h
    obtain ⟨⟨c2, s2⟩, b1, h⟩ := Option.bind_eq_some_iff.1 h
    obtain ⟨s3, e3, h⟩ := Option.map_eq_some_iff.1 h
    have hfn : s3.fns = s2.fns := by
      rw [CS.shrink] at e3
      split at e3
      · cases e3; rfl
      · cases e3
    obtain ⟨c2', s2', b1', b2, b3, b4, b5, b6⟩ := pickVars_ok (bcFree (.lam ps b))
      { s with next := s1.next, fns := s1.fns ++ [fnCode s.next (s.next + 1) ps.length (bcFree (.lam ps b)).length
        (s1.maxSize - st.size + (bcFree (.lam ps b)).length) code0] }
      (fun x hx => hS.inS x (hg.scope x ((mem_bcFree hg).1 hx)))
    simp only at b1
    rw [b1] at b1'
    cases b1'
    simp only at b4
    cases h
    rw [CS.grow_fns, hfn, b4] at hF
    obtain ⟨k1, k2⟩ := hc.append
    have o2 := k2 0 _ rfl
    rw [Nat.add_zero] at o2
    obtain ⟨j, hj⟩ := hP.fn _ (hF.subset (List.mem_append_right _ (List.mem_singleton_self _)))
    have hFn : FnAt P (ps.map (·.1)) none (bcFree (.lam ps b)) b j s.next st s1 code0 := by
      refine ⟨by rw [a2.fns]; exact a1, a3, (List.prefix_append _ _).trans hF, ⟨_, by rw [List.length_map]; exact hj⟩, hf, ?_, ⟨_, _, _, o2, hj 0 _ rfl⟩⟩
      simp only [Expr.lam.sizeOf_spec] at hD
      omega
    rw [evalA]
    obtain ⟨k, caps, g1, g2⟩ := steps_pickVars hP (B := B) _ _ s2 S c2 i b1 hS.len
      (fun x hx => hS.has x (hg.scope x ((mem_bcFree hg).1 hx))) k1
    refine Sim.ok (g1.trans (.one (closure_step hP o2 (hj 0 _ rfl) g2.len (g2.plain hP)))) ⟨_, .clo hFn g2.len g2.rel.1 g2.rel.2, .inl ?_⟩
    simp only [List.length_append, List.length_cons, List.length_nil, Nat.add_assoc, Nat.add_zero]
  | letrec x ty v e =>
    have hem : ([x], e) ∈ children (.letrec x ty v e) := by simp [children]
    have hxn : x ∉ X := hg.own_new (by simp [own])
    obtain ⟨⟨ps, b⟩, hr⟩ := Option.isSome_iff_exists.1 (show (recLam v).isSome = true from hg.recs _ .refl)
    have hf := fnGood_rec hg hsh hr
    obtain ⟨st, code0, s1, a1, a2, a3, a4, a5⟩ := compFn_ok (n := s.next) (F := s.fns) hf (fun cx' h1 h2 =>
      comp_ok b cx' true _ hf.good hf.shape h1 h2)
    obtain ⟨ps', hps, hst⟩ := compRec_strip (x := x) (caps := recCaps x ty v e) (s := s) hr
    have hcr : compRec x (recCaps x ty v e) v s = some { s with next := s1.next, fns := s1.fns ++ [fnCode s.next
        (s.next + 1) ps.length (recCaps x ty v e).length (s1.maxSize - st.size + (recCaps x ty v e).length) code0] } := by
      rw [hst, compRec, ← hps, a1, Option.bind_some, a3, Option.bind_some]
      rw [show ps'.length = ps.length by rw [hps, List.length_map], a5]
      rfl
    rw [comp] at h
    rw [← recCaps, hcr, Option.bind_some] at h
    obtain ⟨⟨c2, s2⟩, b1, h⟩ := Option.bind_eq_some_iff.1 h
    obtain ⟨c2', s2', b1', b2, b3, b4, b5, b6⟩ := pickVars_ok (recCaps x ty v e)
      { s with next := s1.next, fns := s1.fns ++ [fnCode s.next (s.next + 1) ps.length (recCaps x ty v e).length
        (s1.maxSize - st.size + (recCaps x ty v e).length) code0] }
      (fun x hx => hS.inS x (hg.scope x ((mem_recCaps hg).1 hx)))
    rw [b1] at b1'
    cases b1'
    simp only at b2 b3 b4 b5
    rw [CS.shrink_ok (by simp only; omega), Option.bind_some, CS.define_ok (by simp), Option.bind_some] at h
    obtain ⟨⟨c4, s4⟩, e4, h⟩ := Option.bind_eq_some_iff.1 h
    obtain ⟨s5, e5, h⟩ := Option.map_eq_some_iff.1 h
    have hfn : s5.fns = s4.fns := by
      rw [CS.shrink] at e5
      split at e5
      · cases e5; rfl
      · cases e5
    cases h
    rw [hfn] at hF
    have d3 : ∀ y ∈ X, assoc y ((x, (CS.grow { s2 with size := s2.size - (recCaps x ty v e).length } 1).size - 1) :: s2.depths) =
        assoc y s.depths := fun y hy => by
      rw [assoc, if_neg (fun (h : x = y) => hxn (h ▸ hy)), b5]
    have hi3 := hi.same (t := { CS.grow { s2 with size := s2.size - (recCaps x ty v e).length } 1 with
      depths := (x, (CS.grow { s2 with size := s2.size - (recCaps x ty v e).length } 1).size - 1) :: s2.depths }) hX d3
      (by simp only [CS.grow_size]; omega)
    have hS3 : ∀ v' w, BRel P v' w → BConf P ([x] ++ X) { CS.grow { s2 with size := s2.size - (recCaps x ty v e).length } 1 with
        depths := (x, (CS.grow { s2 with size := s2.size - (recCaps x ty v e).length } 1).size - 1) :: s2.depths }
        ((x, v') :: ρ) (S ++ [w]) := fun v' w hr => by
      refine hS.add (by simp only [CS.grow_size, List.length_cons, List.length_nil]; omega) (fun y hy hn => ⟨d3 y hy, ?_⟩) (fun y hy => ?_)
      · rw [lookup, if_neg (fun h => hn (by simp [h]))]
      · rw [List.mem_singleton] at hy
        subst hy
        refine ⟨0, v', w, ?_, by rw [lookup, if_pos rfl], rfl, hr⟩
        simp only [assoc, if_true, Option.some.injEq, CS.grow_size]
        omega
    have f4 : s2.fns <+: s4.fns := (comp_post (hg.child hem) (hsh.child hem) (hcx.child hem)
      (fun hr p hp => List.mem_append_right _ (hX hr p hp)) e4 (hS3 _ _ (.int 0)).inS hi3).emit.fns
    have hF1 := f4.trans hF
    rw [b4] at hF1
    obtain ⟨k1, k2⟩ := hc.append
    obtain ⟨o2, k2⟩ := k2.cons
    obtain ⟨k3, k4⟩ := k2.append
    have o4 := k4 0 _ rfl
    rw [Nat.add_zero] at o4
    obtain ⟨j, hj⟩ := hP.fn _ (hF1.subset (List.mem_append_right _ (List.mem_singleton_self _)))
    have hFn : FnAt P ps (some x) (recCaps x ty v e) b j s.next st s1 code0 := by
      refine ⟨by rw [a2.fns]; exact a1, a3, (List.prefix_append _ _).trans hF1, ⟨_, hj⟩, hf, ?_, ⟨_, _, _, o2, hj 0 _ rfl⟩⟩
      have := recLam_size hr
      simp only [Expr.letrec.sizeOf_spec] at hD
      omega
    obtain ⟨k, caps, g1, g2⟩ := steps_pickVars hP (B := B) _ _ s2 S c2 i b1 hS.len
      (fun x hx => hS.has x (hg.scope x ((mem_recCaps hg).1 hx))) k1
    have hcl : BRel P (.rclo ρ x ps b) (.obj (P.clo j) caps) := .rclo hFn g2.len g2.rel.1 g2.rel.2
    rw [evalA, hr]
    have hpre := g1.trans (.one (closure_step hP o2 (show P.ops[j]? = some (.label s.next) from hj 0 _ rfl) g2.len (g2.plain hP)))
    have e6 : TVal.obj (P.clo j) caps :: (S.reverse ++ B) = (S ++ [TVal.obj (P.clo j) caps]).reverse ++ B := by
      simp
    rw [e6] at hpre
    refine Sim.pre hpre (Sim.post (evT [x] e hem _ c4 s4 _ ((x, .rclo ρ x ps b) :: ρ) _ e4 hF k3 hi3 (hS3 _ _ hcl)
      (fun ht => ?_)) ?_) (by omega)
    · obtain ⟨ws, fnv, ra, caps, L, hf⟩ := hfr ht
      exact ⟨ws, fnv, ra, caps, _, hf.ext [x] (fun y hy => by
        rw [lookup, if_neg (fun (h : x = y) => hxn (h ▸ hy))]) _⟩
    · rintro v'' t ⟨w', r', rfl | ⟨h1, rfl⟩⟩
      · rw [← e6]
        refine ⟨1, _, .one (hP.step_swapPop o4), w', r', .inl ?_⟩
        simp only [List.length_append, List.length_cons, List.length_nil, Nat.add_assoc, Nat.add_comm 1]
      · exact ⟨0, _, rfl, w', r', .inr ⟨h1, rfl⟩⟩
  | mtch d bs =>
    have hbm : ∀ b ∈ bs, (b.binds, b.body) ∈ children (.mtch d bs) := fun b hb => by
      simp only [children, List.mem_cons, List.mem_map]
      exact .inr ⟨b, hb, rfl⟩
    have hdm : ([], d) ∈ children (.mtch d bs) := by simp [children]
    have hbs : ∀ b ∈ bs, CompOK cx tail (b.binds ++ X) b.body ∧ b.binds.Nodup ∧
        (∀ x ∈ X, x ∉ b.binds ∧ x ∉ bcDefined b.body) := fun b hb => by
      refine ⟨comp_ok b.body cx tail _ (hg.child (hbm b hb)) (hsh.child (hbm b hb)) (hcx.child (hbm b hb))
        (fun hr p hp => List.mem_append_right _ (hX hr p hp)), ?_, fun x hx =>
        ⟨fun hm => hg.own_new (y := x) (by simp only [own, List.mem_flatMap]; exact ⟨b, hb, hm⟩) hx, hnd (hbm b hb) x hx⟩⟩
      refine List.Nodup.sublist (l₂ := own (.mtch d bs)) ?_ hg.own_nodup
      simp only [own]
      obtain ⟨pre, post, rfl⟩ := List.append_of_mem hb
      simp only [List.flatMap_append, List.flatMap_cons]
      exact (List.sublist_append_left _ _).trans (List.sublist_append_right _ _)
    rw [comp] at h
    obtain ⟨⟨c1, s1⟩, e1, h⟩ := Option.bind_eq_some_iff.1 h
    dsimp only at h
    have p1 := post d false hdm s c1 s1 S e1 hi hS
    have hz1 := p1.size
    have d1 : ∀ x ∈ X, assoc x s1.depths = assoc x s.depths := fun x hx => p1.depths x (hnd hdm x hx)
    rw [CS.shrink_ok (by simp only; omega), Option.bind_some] at h
    obtain ⟨⟨c3, s3⟩, e3, h⟩ := Option.map_eq_some_iff.1 h
    have hS2 : BConf P X { s1 with next := s1.next + 1 + bs.length, size := s1.size - 1 } ρ S := hS.same (by simp only; omega) d1
    have hi2 : CxInv cx { s1 with next := s1.next + 1 + bs.length, size := s1.size - 1 } := hi.same hX d1 (by simp only; omega)
    obtain ⟨c3', s3', e3', p3⟩ := compB_ok (cx := cx) (tail := tail) (X := X) (endL := s1.next) hX bs (s1.next + 1) _
      hS2.inS hi2 hbs
    rw [e3] at e3'
    cases e3'
    cases h
    rw [CS.grow_fns] at hF
    obtain ⟨k1, k2⟩ := hc.append
    obtain ⟨o1, k2⟩ := k2.cons
    obtain ⟨k3, k4⟩ := k2.append
    have o4 := k4 0 _ rfl
    rw [Nat.add_zero] at o4
    have a4 := hP.silent o4 rfl
    rw [evalA]
    refine Sim.bind (ev d hdm s c1 s1 i S e1 (p3.fns.trans hF) k1 hi hS) ?_
    rintro v t ⟨w, r, rfl⟩
    cases r with
    | comp ht hl hm hr =>
      rename_i c tag fs ws
      rw [Val.intoComp, Res.bind, runBranch]
      cases hfb : findBranch c bs with
      | none => trivial
      | some br =>
        dsimp only
        split
        · rename_i hbl
          obtain ⟨j, q1, q2⟩ := find_branch (l := s1.next + 1) hfb
          obtain ⟨cb, ns, body⟩ := br
          simp only [Branch.binds, Branch.body] at hbl ⊢
          have hbr : Branch.mk cb ns body ∈ bs := List.mem_of_getElem? q1
          obtain ⟨i', s0, s1', s2', ce, y1, y2, y3, y4, y5, y6, y7, y8⟩ := compB_at hX bs (s1.next + 1) _ s3 c3 _ hS2.inS hi2
            hbs e3 k3 j cb ns body q1
          have hstep := hP.step_branch (T := S.reverse ++ B) (fs := ws) o1 ht q2 (by rw [← hl]; exact hbl.symm) y1
          rw [← hP.silent y1 rfl] at hstep
          obtain ⟨w1, w2, w3⟩ := hbs _ hbr
          simp only [Branch.binds, Branch.body] at w1 w2 w3
          obtain ⟨z1, n1, f1, dd1, sl1⟩ := bindAll_inv w2 y3
          have hwl : ws.length = ns.length := by omega
          simp only at y6
          have hd3 : ∀ x ∈ X, assoc x s1'.depths = assoc x s.depths := fun x hx => by
            rw [dd1 x (w3 x hx).1, y8 x hx]
            exact d1 x hx
          have hS3 : BConf P (ns ++ X) s1' (bindAll ρ ns fs) (S ++ ws) := by
            refine hS.add (by omega) (fun y hy hn => ⟨hd3 y hy, lookup_bindAll_notMem hn⟩) (fun y hy => ?_)
            obtain ⟨j, hj⟩ := List.mem_iff_getElem?.1 hy
            have hlt := (List.getElem?_eq_some_iff.1 hj).1
            have hvj : fs[j]? = some (fs[j]'(by omega)) := List.getElem?_eq_getElem (by omega)
            have hwj : ws[j]? = some (ws[j]'(by omega)) := List.getElem?_eq_getElem (by omega)
            refine ⟨j, _, _, ?_, lookup_bindAll_at w2 hj hvj, hwj, hr j _ _ hvj hwj⟩
            rw [sl1 j y hj]
            congr 1
            omega
          obtain ⟨u1, u2⟩ := y2.append
          obtain ⟨u2, u3⟩ := u2.append
          have o5 := u3 0 _ rfl
          rw [Nat.add_zero, List.length_replicate] at o5
          have e6 : ws.reverse ++ (S.reverse ++ B) = (S ++ ws).reverse ++ B := by simp
          rw [e6] at hstep
          refine Sim.pre (.one hstep) (Sim.post (evT ns body (hbm _ hbr) s1' ce s2' _ (bindAll ρ ns fs) (S ++ ws) y4
            (y5.trans hF) u1 (hi.same hX hd3 (by omega)) hS3 (fun ht => ?_)) ?_) (by omega)
          · obtain ⟨ws', fnv, ra, caps, L, hf⟩ := hfr ht
            exact ⟨ws', fnv, ra, caps, _, hf.ext ns (fun y hy => lookup_bindAll_notMem (w3 y hy).1) ws⟩
          · rintro v'' t ⟨w', r', rfl | ⟨h1, rfl⟩⟩
            · rw [← e6]
              have hsw := steps_swapPops hP (v := w') (T := S.reverse ++ B) ws.reverse _ (by
                rw [List.length_reverse, hwl]; exact u2)
              rw [List.length_reverse, hwl] at hsw
              refine ⟨_, _, hsw.trans (.one (hP.step_jump o5 o4)), w', r', .inl ?_⟩
              rw [← a4]
              simp only [List.length_append, List.length_cons, List.length_nil, Nat.add_assoc, Nat.add_comm 1]
            · exact ⟨0, _, rfl, w', r', .inr ⟨h1, rfl⟩⟩
        · trivial
    | _ => trivial

theorem simAt {P : LP} (hP : P.OK) : ∀ n, SimAt P n
  | 0 => simAt_zero P
  | n + 1 => simAt_succ hP (simAt hP n)

end Tic.Core.Bc
