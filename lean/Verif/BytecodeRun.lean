import Verif.BytecodeSim
/-
Runs of the pieces of code that go into expressions.
-/
namespace Tic.Core.Bc

/-! ## Variables -/

theorem steps_pickVars {P : LP} (hP : P.OK) {ρ : Env} {B : List TVal} : ∀ (xs : List Name) (s s' : CS) (S : List TVal)
    (code : List BOp) (i : Nat), CS.pickVars xs s = some (code, s') → S.length = s.size →
    (∀ x ∈ xs, ∃ a v w, assoc x s.depths = some a ∧ lookup x ρ = .ok v ∧ S[a]? = some w ∧ BRel P v w) → CodeAt P i code →
    ∃ k caps, Steps P k ⟨P.addr i, S.reverse ++ B⟩ ⟨P.addr (i + code.length), (S ++ caps).reverse ++ B⟩ ∧ BCaps P xs ρ caps
  | [], s, s', S, code, i, h, _, _, _ => by
    rw [CS.pickVars] at h
    cases h
    exact ⟨0, [], by simp [Steps], rfl, fun j x hj => by simp at hj⟩
  | x :: xs, s, s', S, code, i, h, hl, hx, hc => by
    obtain ⟨a, v, w, h1, h2, h3, h4⟩ := hx x (by simp)
    have ha := (List.getElem?_eq_some_iff.1 h3).1
    rw [CS.pickVars, pickVar_ok h1 (by omega), Option.bind_some] at h
    obtain ⟨⟨code', s2⟩, h5, h⟩ := Option.map_eq_some_iff.1 h
    cases h
    obtain ⟨c1, c2⟩ := CodeAt.cons hc
    obtain ⟨k, caps, g1, g2⟩ := steps_pickVars hP (B := B) xs (s.grow 1) s2 (S ++ [w]) code' (i + 1) h5 (by simp [hl])
      (fun y hy => by
        obtain ⟨b, v', w', q1, q2, q3, q4⟩ := hx y (by simp [hy])
        exact ⟨b, v', w', q1, q2, by rw [List.getElem?_append_left (List.getElem?_eq_some_iff.1 q3).1]; exact q3, q4⟩) c2
    refine ⟨1 + k, w :: caps, ?_, by simp [g2.len], fun j y hj => ?_⟩
    · refine (Steps.one (hP.step_pick c1 (v := w) ?_)).trans ?_
      · have := frame_get (B := B) h3
        rwa [hl] at this
      · have e1 : w :: (S.reverse ++ B) = (S ++ [w]).reverse ++ B := by simp
        have e2 : S ++ w :: caps = S ++ [w] ++ caps := by simp
        rw [e1, e2, show i + ([BOp.pick (s.size - a - 1)] ++ code').length = i + 1 + code'.length by
          simp only [List.length_append, List.length_cons, List.length_nil]; omega]
        exact g1
    · cases j with
      | zero =>
        simp only [List.getElem?_cons_zero, Option.some.injEq] at hj
        subst hj
        exact ⟨v, w, h2, rfl, h4⟩
      | succ j =>
        obtain ⟨v', w', q1, q2, q3⟩ := g2.has j y (by simpa using hj)
        exact ⟨v', w', q1, by simpa using q2, q3⟩

/-- Storing the arguments of a self tail call into the parameters. -/
theorem steps_setVars {P : LP} (hP : P.OK) {B : List TVal} (qs : List Name) : ∀ (s s' : CS) (S us : List TVal)
    (code : List BOp) (i : Nat), CS.setVars qs.reverse s = some (code, s') → us.length = qs.length →
    S.length + us.length = s.size → qs.length ≤ S.length → Slots s.depths 0 qs → CodeAt P i code →
    s'.size = S.length ∧
    ∃ k, Steps P k ⟨P.addr i, (S ++ us).reverse ++ B⟩ ⟨P.addr (i + code.length), (us ++ S.drop qs.length).reverse ++ B⟩ := by
  refine snocInd (P := fun qs => ∀ (s s' : CS) (S us : List TVal)
    (code : List BOp) (i : Nat), CS.setVars qs.reverse s = some (code, s') → us.length = qs.length →
    S.length + us.length = s.size → qs.length ≤ S.length → Slots s.depths 0 qs → CodeAt P i code →
    s'.size = S.length ∧
    ∃ k, Steps P k ⟨P.addr i, (S ++ us).reverse ++ B⟩ ⟨P.addr (i + code.length), (us ++ S.drop qs.length).reverse ++ B⟩)
    ?_ ?_ qs
  · intro s s' S us code i h hu hl _ _ _
    rw [List.reverse_nil, CS.setVars] at h
    cases h
    rw [List.length_nil, List.length_eq_zero_iff] at hu
    subst hu
    exact ⟨by simpa using hl.symm, 0, by simp [Steps]⟩
  · intro qs x ih s s' S us0 code i h hu hl hq hs hc
    rw [List.length_append, List.length_cons, List.length_nil] at hu hq
    obtain ⟨us, u, rfl⟩ : ∃ us u, us0 = us ++ [u] := by
      rcases List.eq_nil_or_concat us0 with h0 | ⟨us, u, h0⟩
      · subst h0; simp at hu
      · exact ⟨us, u, by simpa using h0⟩
    rw [List.length_append, List.length_cons, List.length_nil] at hu hl
    have hx : assoc x s.depths = some (0 + qs.length) := hs qs.length x (by simp)
    rw [List.reverse_append, List.reverse_singleton, List.singleton_append, CS.setVars] at h
    have hset : s.setVar x = some ([.set (s.size - (0 + qs.length) - 1 - 1)], { s with size := s.size - 1 }) := by
      rw [CS.setVar, hx, Option.bind_some, if_pos (by omega), CS.shrink_ok (by omega)]; rfl
    rw [hset, Option.bind_some] at h
    obtain ⟨⟨code', s2⟩, h5, h⟩ := Option.map_eq_some_iff.1 h
    cases h
    obtain ⟨c1, c2⟩ := CodeAt.cons hc
    obtain ⟨z, k, g⟩ := ih { s with size := s.size - 1 } s2 (S.set qs.length u) us code' (i + 1) h5 (by omega)
      (by simp only [List.length_set]; omega) (by rw [List.length_set]; omega)
      (fun j y hj => hs j y (by rw [List.getElem?_append_left (List.getElem?_eq_some_iff.1 hj).1]; exact hj)) c2
    rw [List.length_set] at z
    refine ⟨z, 1 + k, ?_⟩
    have hst : P.step ⟨P.addr i, (S ++ (us ++ [u])).reverse ++ B⟩ =
        .next ⟨P.addr (i + 1), (S.set qs.length u ++ us).reverse ++ B⟩ := by
      have e1 : (S ++ (us ++ [u])).reverse ++ B = u :: ((S ++ us).reverse ++ B) := by simp
      rw [e1, hP.step_set c1 (by simp only [List.length_append, List.length_reverse]; omega)]
      have e2 : s.size - (0 + qs.length) - 1 - 1 = (S ++ us).length - qs.length - 1 := by
        rw [List.length_append]; omega
      rw [e2, frame_set (by rw [List.length_append]; omega), List.set_append_left _ _ (by omega)]
    refine (Steps.one hst).trans ?_
    have e3 : us ++ [u] ++ S.drop (qs ++ [x]).length = us ++ (S.set qs.length u).drop qs.length := by
      rw [List.append_assoc]
      congr 1
      rw [List.length_append, List.length_cons, List.length_nil]
      rw [List.drop_eq_getElem_cons (l := S.set qs.length u) (i := qs.length) (by rw [List.length_set]; omega)]
      rw [List.getElem_set_self, List.drop_set_of_lt (by omega)]
      rfl
    rw [e3, show i + ([BOp.set (s.size - (0 + qs.length) - 1 - 1)] ++ code').length = i + 1 + code'.length by
      simp only [List.length_append, List.length_cons, List.length_nil]; omega]
    exact g

/-! ## Constructors and branches -/

/-- The branch table of a match. -/
def brTable (l : Nat) (bs : List Branch) : List (Name × Nat × Nat) :=
  (bs.map fun b => (b.ctor, b.binds.length)).mapIdx fun i p => (p.1, l + i, p.2)

theorem brTable_cons (l : Nat) (b : Branch) (bs : List Branch) :
    brTable l (b :: bs) = (b.ctor, l, b.binds.length) :: brTable (l + 1) bs := by
  rw [brTable, List.map_cons, List.mapIdx_cons, Nat.add_zero, brTable]
  congr 2
  funext i p
  rw [Nat.add_assoc, Nat.add_comm 1 i]

theorem find_branch {c : Name} : ∀ {bs : List Branch} {l : Nat} {br : Branch}, findBranch c bs = some br →
    ∃ (j : Nat), bs[j]? = some br ∧ tableFind c (brTable l bs) = some (l + j, br.binds.length)
  | [], _, _, h => by simp [findBranch] at h
  | b :: bs, l, br, h => by
    rw [brTable_cons, tableFind]
    rw [findBranch] at h
    split at h
    · rename_i he
      cases h
      exact ⟨0, rfl, by rw [if_pos he]; rfl⟩
    · rename_i he
      obtain ⟨j, q1, q2⟩ := find_branch (l := l + 1) h
      refine ⟨j + 1, by simpa using q1, ?_⟩
      rw [if_neg he, q2, Nat.add_assoc, Nat.add_comm 1 j]

/-- Where a branch is in the code of a match. -/
theorem compB_at {P : LP} {cx : FnCx} {tail : Bool} {X : List Name} {endL : Nat} (hX : CxX cx X) :
    ∀ (bs : List Branch) (l : Nat) (s s' : CS) (code : List BOp) (i : Nat), InS X s → CxInv cx s →
    (∀ b ∈ bs, CompOK cx tail (b.binds ++ X) b.body ∧ b.binds.Nodup ∧ (∀ x ∈ X, x ∉ b.binds ∧ x ∉ bcDefined b.body)) →
    compB cx tail endL l bs s = some (code, s') → CodeAt P i code → ∀ (j : Nat) c ns e, bs[j]? = some (.mk c ns e) →
    ∃ i' s0 s1 s2 ce, P.ops[i']? = some (.label (l + j)) ∧
      CodeAt P (i' + 1) (ce ++ (List.replicate ns.length .swapPop ++ [.jump endL])) ∧
      s0.bindAll ns = some s1 ∧ comp cx tail e s1 = some (ce, s2) ∧ s2.fns <+: s'.fns ∧ s0.size = s.size ∧
      CxInv cx s0 ∧ ∀ x ∈ X, assoc x s0.depths = assoc x s.depths
  | [], _, _, _, _, _, _, _, _, _, _, _, _, _, _, hj => by simp at hj
  | .mk c0 ns0 e0 :: bs, l, s, s', code, i, hs, hc, hb, h, hco, j, c, ns, e, hj => by
    obtain ⟨h1, h2, h3⟩ := hb (.mk c0 ns0 e0) (by simp)
    simp only [Branch.binds, Branch.body] at h1 h2 h3
    rw [compB] at h
    obtain ⟨s1, a1, h⟩ := Option.bind_eq_some_iff.1 h
    obtain ⟨⟨ce, s2⟩, e1, h⟩ := Option.bind_eq_some_iff.1 h
    obtain ⟨s3a, e2, h⟩ := Option.bind_eq_some_iff.1 h
    obtain ⟨s3, e3, h⟩ := Option.bind_eq_some_iff.1 h
    obtain ⟨⟨cs, s4⟩, e4, h⟩ := Option.map_eq_some_iff.1 h
    cases h
    obtain ⟨z1, n1, f1, d1, sl1⟩ := bindAll_inv h2 a1
    have hs1 : InS (ns0 ++ X) s1 := by
      intro x hx
      by_cases hm : x ∈ ns0
      · obtain ⟨i, hi⟩ := List.mem_iff_getElem?.1 hm
        have := (List.getElem?_eq_some_iff.1 hi).1
        exact ⟨_, sl1 i x hi, by omega⟩
      · rcases List.mem_append.1 hx with hx | hx
        · exact absurd hx hm
        · obtain ⟨a, ha, hb⟩ := hs x hx
          exact ⟨a, by rw [d1 x hm, ha], by omega⟩
    have hd1 : ∀ x ∈ X, assoc x s1.depths = assoc x s.depths := fun x hx => d1 x (h3 x hx).1
    obtain ⟨ce', s2', q1, p1⟩ := h1 s1 hs1 (hc.same hX hd1 (by omega))
    rw [e1] at q1
    cases q1
    have hz := p1.size
    rw [CS.shrink_ok (by simp only; omega)] at e2
    cases e2
    rw [CS.shrink_ok (by simp only; omega)] at e3
    cases e3
    have hd3 : ∀ x ∈ X, assoc x s2.depths = assoc x s.depths := fun x hx => by
      rw [p1.depths x (h3 x hx).2, hd1 x hx]
    obtain ⟨c1, c2⟩ := CodeAt.cons hco
    have hs3 : InS X { s2 with size := s2.size - ns0.length - 1 } := hs.same hd3 (by simp only; omega)
    have hc3 : CxInv cx { s2 with size := s2.size - ns0.length - 1 } := hc.same hX hd3 (by simp only; omega)
    obtain ⟨cs', s4', q2, p2⟩ := compB_ok (tail := tail) (endL := endL) hX bs (l + 1) _ hs3 hc3
      (fun b h => hb b (by simp [h]))
    simp only at e4
    rw [e4] at q2
    cases q2
    cases j with
    | zero =>
      simp only [List.getElem?_cons_zero, Option.some.injEq, Branch.mk.injEq] at hj
      obtain ⟨rfl, rfl, rfl⟩ := hj
      refine ⟨i, s, s1, s2, ce, c1, ?_, a1, e1, p2.fns, rfl, hc, fun _ _ => rfl⟩
      have : (ce ++ (List.replicate ns0.length BOp.swapPop ++ (.jump endL :: cs))) =
        (ce ++ (List.replicate ns0.length BOp.swapPop ++ [.jump endL])) ++ cs := by simp
      rw [this] at c2
      exact c2.append.1
    | succ j =>
      have c3 := c2.append.2.append.2.cons.2
      obtain ⟨i', s0, s1', s2', ce', r1, r2, r3, r4, r5, r6, r7, r8⟩ := compB_at hX bs (l + 1) _ s4 cs _ hs3 hc3
        (fun b h => hb b (by simp [h])) e4 c3 j c ns e (by simpa using hj)
      refine ⟨i', s0, s1', s2', ce', by rw [Nat.add_comm j 1, ← Nat.add_assoc]; exact r1, r2, r3, r4, r5, ?_, r7, ?_⟩
      · rw [r6]; simp only; omega
      · intro x hx
        rw [r8 x hx]
        exact hd3 x hx

theorem steps_swapPops {P : LP} (hP : P.OK) {v : TVal} {T : List TVal} : ∀ (ws : List TVal) (i : Nat),
    CodeAt P i (List.replicate ws.length .swapPop) →
    Steps P ws.length ⟨P.addr i, v :: (ws ++ T)⟩ ⟨P.addr (i + ws.length), v :: T⟩
  | [], _, _ => rfl
  | w :: ws, i, h => by
    rw [List.length_cons, List.replicate_succ] at h
    obtain ⟨h1, h2⟩ := h.cons
    refine ⟨_, hP.step_swapPop h1, ?_⟩
    have := steps_swapPops hP (v := v) (T := T) ws (i + 1) h2
    rw [Nat.add_assoc, Nat.add_comm 1] at this
    exact this

/-! ## Intrinsics -/

/-- An intrinsic on values. -/
def intrVals : Intrinsic → List Val → Res Val
  | .stringLen, [.str s] => .ok (.int (strLen s))
  | .stringConcat, [.str a, .str b] => .ok (.str (a ++ b))
  | .stringCharAt, [.int i, .str s] => .ok (.int (strCharAt i s))
  | .stringSubstring, [.int a, .int l, .str s] => .ok (.str (strSubstring a l s))
  | .stringFromChar, [.int c] => .ok (.str (strFromChar c))
  | .intToString, [.int i] => .ok (.str (intToStr i))
  | _, _ => .panic

theorem len_two {α : Type} {l : List α} (h : l.length = 2) : ∃ x y, l = [x, y] := by
  match l, h with
  | [x, y], _ => exact ⟨x, y, rfl⟩

theorem len_three {α : Type} {l : List α} (h : l.length = 3) : ∃ x y z, l = [x, y, z] := by
  match l, h with
  | [x, y, z], _ => exact ⟨x, y, z, rfl⟩

theorem evalIntr_vals {ev : Expr → Res Val} {i : Intrinsic} {xs : List Expr} (h : xs.length = i.arity) :
    evalIntr ev i xs = .panic ∨ evalIntr ev i xs = (evalList ev xs).bind (intrVals i) := by
  cases i with
  | stringLen =>
    obtain ⟨x, rfl⟩ := List.length_eq_one_iff.1 h
    simp only [evalIntr, evalList]
    cases ev x with
    | ok v => cases v <;> simp [Res.bind, Val.intoStr, intrVals]
    | _ => simp [Res.bind]
  | stringConcat =>
    obtain ⟨x, y, rfl⟩ := len_two h
    simp only [evalIntr, evalList]
    cases ev x with
    | ok v =>
      cases v <;> simp only [Res.bind, Val.intoStr, true_or]
      cases ev y with
      | ok v => cases v <;> simp [intrVals]
      | _ => simp
    | _ => simp [Res.bind]
  | stringCharAt =>
    obtain ⟨x, y, rfl⟩ := len_two h
    simp only [evalIntr, evalList]
    cases ev x with
    | ok v =>
      cases v <;> simp only [Res.bind, Val.intoInt, true_or]
      cases ev y with
      | ok v => cases v <;> simp [intrVals, Val.intoStr]
      | _ => simp
    | _ => simp [Res.bind]
  | stringSubstring =>
    obtain ⟨x, y, z, rfl⟩ := len_three h
    simp only [evalIntr, evalList]
    cases ev x with
    | ok v =>
      cases v <;> simp only [Res.bind, Val.intoInt, true_or]
      cases ev y with
      | ok v =>
        cases v <;> simp only [true_or]
        cases ev z with
        | ok v => cases v <;> simp [intrVals, Val.intoStr]
        | _ => simp
      | _ => simp
    | _ => simp [Res.bind]
  | stringFromChar =>
    obtain ⟨x, rfl⟩ := List.length_eq_one_iff.1 h
    simp only [evalIntr, evalList]
    cases ev x with
    | ok v => cases v <;> simp [Res.bind, Val.intoInt, intrVals]
    | _ => simp [Res.bind]
  | intToString =>
    obtain ⟨x, rfl⟩ := List.length_eq_one_iff.1 h
    simp only [evalIntr, evalList]
    cases ev x with
    | ok v => cases v <;> simp [Res.bind, Val.intoInt, intrVals]
    | _ => simp [Res.bind]

theorem BRels.cons_inv {P : LP} {v vs ws} (h : BRels P (v :: vs) ws) : ∃ w ws', ws = w :: ws' ∧ BRel P v w ∧ BRels P vs ws' := by
  cases ws with
  | nil => have := h.len; simp at this
  | cons w ws =>
    exact ⟨w, ws, rfl, h.has 0 v w rfl rfl, by simpa using h.len, fun j v' w' h1 h2 => h.has (j + 1) v' w' (by simpa using h1) (by simpa using h2)⟩

theorem BRels.nil_inv {P : LP} {ws} (h : BRels P [] ws) : ws = [] := by
  have := h.len
  exact List.length_eq_zero_iff.1 this.symm

theorem vmIntr_ok {P : LP} {i : Intrinsic} {vs : List Val} {ws T : List TVal} {v : Val} (hr : BRels P vs ws)
    (h : intrVals i vs = .ok v) : ∃ w, vmIntr i (ws.reverse ++ T) = some (w :: T) ∧ BRel P v w := by
  unfold intrVals at h
  split at h
  all_goals first
    | (cases h; done)
    | (cases h
       obtain ⟨w1, ws1, rfl, r1, hr1⟩ := hr.cons_inv
       cases r1
       first
       | (cases hr1.nil_inv; exact ⟨_, rfl, by constructor⟩)
       | (obtain ⟨w2, ws2, rfl, r2, hr2⟩ := hr1.cons_inv
          cases r2
          first
          | (cases hr2.nil_inv; exact ⟨_, rfl, by constructor⟩)
          | (obtain ⟨w3, ws3, rfl, r3, hr3⟩ := hr2.cons_inv
             cases r3
             cases hr3.nil_inv; exact ⟨_, rfl, by constructor⟩)))

theorem vmOp_ok {P : LP} (o : Op) (a b : UInt64) : BRel P (evalOp o a b) (vmOp o a b) := by
  cases o <;> simp only [evalOp, vmOp] <;> constructor

end Tic.Core.Bc
