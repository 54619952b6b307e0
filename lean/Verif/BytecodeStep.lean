import Verif.BytecodeFn
/-
The simulation, by induction on fuel.
-/
namespace Tic.Core.Bc

theorem Done.fall {P : LP} {j : Nat} {T : List TVal} {ret : Nat} {B : List TVal} {v : Val} {t : VM}
    (h : Done P j T false ret B v t) : ∃ w, BRel P v w ∧ t = ⟨P.addr j, w :: T⟩ := by
  obtain ⟨w, h1, h2 | h2⟩ := h
  · exact ⟨w, h1, h2⟩
  · exact absurd h2.1 (by decide)

/-- Expressions one after the other. -/
theorem list_sim {P : LP} {n : Nat} (IH : SimAt P n) {cx : FnCx} {X : List Name} (hX : CxX cx X) {ρ : Env} {B : List TVal} :
    ∀ (es : List Expr) (s s' : CS) (code : List BOp) (i : Nat) (S : List TVal),
    (∀ e ∈ es, Good X e ∧ BcShape e ∧ CxOK cx e ∧ sizeOf e ≤ P.D) → compL cx es s = some (code, s') → s'.fns <+: P.fns →
    CodeAt P i code → CxInv cx s → BConf P X s ρ S →
    Sim P (fun vs t => ∃ ws, BRels P vs ws ∧ ws.length = es.length ∧ t = ⟨P.addr (i + code.length), (S ++ ws).reverse ++ B⟩) n (sizeOf es)
      (evalList (evalA n ρ) es) ⟨P.addr i, S.reverse ++ B⟩
  | [], s, s', code, i, S, _, h, _, _, _, _ => by
    rw [compL] at h
    cases h
    exact Sim.ok (k := 0) rfl ⟨[], .nil, rfl, by simp⟩
  | e :: es, s, s', code, i, S, he, h, hF, hc, hi, hS => by
    rw [compL] at h
    obtain ⟨⟨c1, s1⟩, e1, h⟩ := Option.bind_eq_some_iff.1 h
    obtain ⟨⟨c2, s2⟩, e2, h⟩ := Option.map_eq_some_iff.1 h
    cases h
    obtain ⟨g1, g2, g3, g4⟩ := he e (by simp)
    have p1 := comp_post g1 g2 g3 hX e1 hS.inS hi
    have hnd : ∀ x ∈ X, x ∉ bcDefined e := fun x hx => g1.notDefined hx
    have hi1 := hi.post p1 fun hr x hx => hnd x (hX hr x hx)
    have hS1 : ∀ w, BConf P X s1 ρ (S ++ [w]) := fun w => hS.ext p1.size fun x hx => p1.depths x (hnd x hx)
    obtain ⟨cc, ss, ee, pp⟩ := compL_ok hX es s1 (hS1 (.int 0)).inS hi1 (fun e' he' => by
      obtain ⟨g1, g2, g3, g4⟩ := he e' (by simp [he'])
      exact ⟨comp_ok e' cx false X g1 g2 g3 hX, fun x hx => g1.notDefined hx⟩)
    simp only at e2
    rw [e2] at ee
    cases ee
    obtain ⟨k1, k2⟩ := hc.append
    have hsim := IH e cx false X s s1 c1 i ρ S B 0 g1 g2 g3 hX e1 (pp.emit.fns.trans hF) k1 hi hS (fun h => nomatch h) g4
    rw [evalList]
    refine Sim.bind (Sim.weaken (z' := sizeOf (e :: es)) hsim (by simp; omega)) fun v t hd => ?_
    obtain ⟨w, r1, rfl⟩ := hd.fall
    have e3 : w :: (S.reverse ++ B) = (S ++ [w]).reverse ++ B := by simp
    rw [e3]
    refine Sim.bind (Sim.weaken (z' := sizeOf (e :: es))
      (list_sim IH hX es s1 s2 c2 _ (S ++ [w]) (fun e' h' => he e' (by simp [h'])) e2 hF k2 hi1 (hS1 w)) (by simp)) ?_
    rintro vs t ⟨ws, r2, hwl, rfl⟩
    refine Sim.ok (k := 0) rfl ⟨w :: ws, .cons r1 r2, by simp [hwl], ?_⟩
    have e4 : S ++ w :: ws = S ++ [w] ++ ws := by simp
    rw [e4, List.length_append, Nat.add_assoc]

/-- A closure is built. -/
theorem closure_step {P : LP} (hP : P.OK) {l k j i : Nat} {S caps B : List TVal} (h : P.ops[i]? = some (.closure l k))
    (hl : P.ops[j]? = some (.label l)) (hk : caps.length = k) (hv : ∀ v ∈ caps, plain v) :
    P.step ⟨P.addr i, (S ++ caps).reverse ++ B⟩ =
      .next ⟨P.addr (i + 1), .obj (P.clo j) caps :: (S.reverse ++ B)⟩ := by
  rw [hP.step_closure h hl (by simp [hk]) (by simpa [List.take_append_of_le_length, hk.symm] using hv)]
  have e : (S ++ caps).reverse ++ B = caps.reverse ++ (S.reverse ++ B) := by simp
  rw [e, List.take_append_of_le_length (by rw [List.length_reverse]; omega), List.drop_append_of_le_length (by rw [List.length_reverse]; omega)]
  rw [List.take_of_length_le (by rw [List.length_reverse]; omega), List.drop_of_length_le (by rw [List.length_reverse]; omega)]
  rw [List.reverse_reverse, List.nil_append]

theorem simAt_zero (P : LP) : SimAt P 0 := fun _ _ _ _ _ _ _ _ _ _ _ _ _ _ _ _ _ _ _ _ _ _ _ => ⟨0, _, rfl, Nat.zero_le _⟩

/-- The self tail call. -/
theorem tail_sim {P : LP} (hP : P.OK) {n : Nat} (IH : SimAt P n) {cx : FnCx} {X : List Name} {ρ : Env} {S B : List TVal}
    {ret : Nat} {ws fnv ra caps L} (hfr : Frame P cx X ρ S ret ws fnv ra caps L) {f : Name} (hf : cx.rec? = some f)
    {vs : List Val} {us : List TVal} (hv : BRels P vs us) (hlen : us.length = cx.params.length) {s s' : CS}
    {code : List BOp} {i : Nat} (h : tailCall cx s = some (code, s')) (hs : Slots s.depths 0 cx.params)
    (hz : S.length + us.length = s.size) (hc : CodeAt P i code) :
    Sim P (fun v t => ∃ w, BRel P v w ∧ t = ⟨ret, w :: B⟩) (n + 1) 0
      ((lookup f ρ).bind fun fv => if fv.isFn then applyFn (evalA n) fv vs else .panic)
      ⟨P.addr i, (S ++ us).reverse ++ B⟩ := by
  obtain ⟨_, ρ0, b, cn, i', n0, st, s1, code', f1, f2, f3, f4, f5⟩ := hfr.self_ f hf
  rw [f5, Res.bind, Val.isFn, if_pos rfl, applyFn, if_pos (by rw [hv.len, hlen])]
  rw [tailCall] at h
  obtain ⟨⟨c1, s2⟩, e1, h⟩ := Option.bind_eq_some_iff.1 h
  have hSl : S.length = ws.length + 2 + caps.length + L.length := by
    rw [hfr.eq]; simp only [List.length_append, List.length_cons]; omega
  have hp := hfr.params
  have hen := hfr.entry
  have hcodeat : CodeAt P i c1 := by
    split at h
    · cases h; exact hc.append.1
    · cases h
  obtain ⟨z, k, g⟩ := steps_setVars hP (B := B) cx.params s s2 S us c1 i e1 hlen hz (by omega) hs hcodeat
  simp only at h
  rw [if_pos (by rw [z]; omega)] at h
  cases h
  obtain ⟨_, hc2⟩ := hc.append
  obtain ⟨u, hcode⟩ := f1.code
  rw [fnCode] at hcode
  obtain ⟨o1, hcode⟩ := hcode.cons
  obtain ⟨o2, hcode⟩ := hcode.cons
  obtain ⟨o3, hcode⟩ := hcode.cons
  have a3 : P.addr (i' + 3) = P.addr (i' + 2) := hP.silent o3 rfl
  have hb := body_sim hP IH f1 f4 hv (by rw [hv.len, hlen]) (ra := ra) (B := B)
  rw [← hfr.ret] at hb
  have e2 : us ++ S.drop cx.params.length = (us ++ (fnv :: P.ret ra :: caps)) ++ L := by
    rw [hfr.eq, ← hp, List.drop_left]; simp
  have hto : s2.size - cx.entrySize = L.length := by omega
  have hjump : ∃ k', Steps P (k' + 1) ⟨P.addr (i + c1.length), (us ++ S.drop cx.params.length).reverse ++ B⟩
      ⟨P.addr (i' + 3), (us ++ (fnv :: P.ret ra :: caps)).reverse ++ B⟩ := by
    rw [a3, e2]
    obtain ⟨hc3, hc4⟩ := hc2.append
    rw [f2] at hc4
    have hj := hc4 0 _ rfl
    rw [Nat.add_zero] at hj
    rw [hto] at hc3 hj
    by_cases hL : L.length > 0
    · rw [if_pos hL] at hc3 hj
      refine ⟨1, _, ?_, .one (hP.step_jump hj o3)⟩
      have hpop := hc3 0 _ rfl
      rw [Nat.add_zero] at hpop
      rw [hP.step_popN hpop (by simp)]
      have e5 : (us ++ (fnv :: P.ret ra :: caps) ++ L).reverse ++ B =
        L.reverse ++ ((us ++ (fnv :: P.ret ra :: caps)).reverse ++ B) := by simp
      rw [e5, List.drop_append_of_le_length (by rw [List.length_reverse]; omega),
        List.drop_of_length_le (by rw [List.length_reverse]; omega)]
      rfl
    · rw [if_neg hL] at hj
      have hL0 : L = [] := List.length_eq_zero_iff.1 (by omega)
      subst hL0
      rw [List.append_nil]
      exact ⟨0, .one (hP.step_jump hj o3)⟩
  obtain ⟨k', hjump⟩ := hjump
  rw [f3] at hjump
  refine Sim.pre (g.trans hjump) hb ?_
  rw [← Nat.add_assoc, Nat.add_mul (k + k')]
  omega

end Tic.Core.Bc
