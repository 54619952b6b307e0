import Verif.PropBytecode
/-
C09: a recursive function that calls itself in tail position runs in a constant number of stack slots.
-/
namespace Tic.Core

/-- `SelfTail f ρ e vs`: evaluating `e` in `ρ` comes down to calling `f` with the arguments `vs`, in tail
position: the call is the expression itself, or the body of the chosen branch of an `if` or a `match`, or what
follows local definitions. -/
inductive SelfTail (f : Name) : Env → Expr → List Val → Prop
  | call {ρ xs vs n} : evalList (eval n ρ) xs = .ok vs → SelfTail f ρ (.call (.name f) xs) vs
  | then_ {ρ c t e vs n} : eval n ρ c = .ok (.bool true) → SelfTail f ρ t vs → SelfTail f ρ (.ite c t e) vs
  | else_ {ρ c t e vs n} : eval n ρ c = .ok (.bool false) → SelfTail f ρ e vs → SelfTail f ρ (.ite c t e) vs
  | let_ {ρ x v e u vs n} : eval n ρ v = .ok u → SelfTail f ((x, u) :: ρ) e vs → SelfTail f ρ (.let_ x v e) vs
  | letrec {ρ x ty v e ps b vs} : recLam v = some (ps, b) → SelfTail f ((x, .rclo ρ x ps b) :: ρ) e vs →
      SelfTail f ρ (.letrec x ty v e) vs
  | mtch {ρ d bs c fs br vs n} : eval n ρ d = .ok (.comp c fs) → findBranch c bs = some br → br.binds.length = fs.length →
      SelfTail f (bindAll ρ br.binds fs) br.body vs → SelfTail f ρ (.mtch d bs) vs
  | pi {ρ a e vs} : SelfTail f ρ e vs → SelfTail f ρ (.pi a e) vs
  | piApp {ρ a e vs} : SelfTail f ρ e vs → SelfTail f ρ (.piApp e a) vs

namespace Bc

theorem steps_pos {P : LP} {k : Nat} {s t u : VM} (h : Steps P k s t) {k' : Nat} (h' : Steps P (k' + 1) t u) :
    ∃ j, Steps P (j + 1) s u := ⟨k + k', by rw [Nat.add_assoc]; exact h.trans h'⟩

/-- The jump of a self tail call. -/
theorem tail_jump {P : LP} (hP : P.OK) {ps : List Name} {f : Name} {cn b i n0 st s1 code} (hf : FnAt P ps (some f) cn b i n0 st s1 code)
    {caps : List TVal} (hcl : caps.length = cn.length) {fnv : TVal} {ra : UInt64} {ws us L B : List TVal}
    (hw : ws.length = ps.length) (hu : us.length = ps.length) {s s' : CS} {c : List BOp} {j : Nat}
    (h : tailCall ⟨st.size, n0 + 1, ps, some f⟩ s = some (c, s')) (hs : Slots s.depths 0 ps)
    (hz : (ws ++ (fnv :: P.ret ra :: (caps ++ L))).length + us.length = s.size) (hc : CodeAt P j c) :
    ∃ k, Steps P (k + 1) ⟨P.addr j, ((ws ++ (fnv :: P.ret ra :: (caps ++ L))) ++ us).reverse ++ B⟩
      ⟨P.addr (i + 3), (us ++ (fnv :: P.ret ra :: caps)).reverse ++ B⟩ := by
  have hlay := fnStart_inv hf.good.nodup hf.start
  have hsz := hlay.size
  rw [tailCall] at h
  obtain ⟨⟨c1, s2⟩, e1, h⟩ := Option.bind_eq_some_iff.1 h
  generalize hS : ws ++ (fnv :: P.ret ra :: (caps ++ L)) = S at hz
  have hSl : S.length = ws.length + 2 + caps.length + L.length := by
    rw [← hS]; simp only [List.length_append, List.length_cons]; omega
  have hcodeat : CodeAt P j c1 := by
    split at h
    · cases h; exact hc.append.1
    · cases h
  obtain ⟨z, k, g⟩ := steps_setVars hP (B := B) ps s s2 S us c1 j e1 hu hz (by omega) hs hcodeat
  simp only at h
  rw [if_pos (by rw [z]; omega)] at h
  cases h
  obtain ⟨_, hc2⟩ := hc.append
  obtain ⟨u, hcode⟩ := hf.code
  rw [fnCode] at hcode
  obtain ⟨o1, hcode⟩ := hcode.cons
  obtain ⟨o2, hcode⟩ := hcode.cons
  obtain ⟨o3, hcode⟩ := hcode.cons
  have a3 : P.addr (i + 3) = P.addr (i + 2) := hP.silent o3 rfl
  have e2 : us ++ S.drop ps.length = (us ++ (fnv :: P.ret ra :: caps)) ++ L := by
    rw [← hS, ← hw, List.drop_left]; simp
  have hto : s2.size - st.size = L.length := by omega
  refine steps_pos g (k' := if L.length > 0 then 1 else 0) ?_
  rw [a3, e2]
  obtain ⟨hc3, hc4⟩ := hc2.append
  have hj := hc4 0 _ rfl
  rw [Nat.add_zero] at hj
  rw [hto] at hc3 hj
  by_cases hL : L.length > 0
  · rw [if_pos hL] at hc3 hj
    rw [if_pos hL]
    refine ⟨_, ?_, .one (hP.step_jump hj o3)⟩
    have hpop := hc3 0 _ rfl
    rw [Nat.add_zero] at hpop
    rw [hP.step_popN hpop (by simp)]
    have e5 : (us ++ (fnv :: P.ret ra :: caps) ++ L).reverse ++ B =
      L.reverse ++ ((us ++ (fnv :: P.ret ra :: caps)).reverse ++ B) := by simp
    rw [e5, List.drop_append_of_le_length (by rw [List.length_reverse]; omega),
      List.drop_of_length_le (by rw [List.length_reverse]; omega)]
    rfl
  · rw [if_neg hL] at hj
    rw [if_neg hL]
    have hL0 : L = [] := List.length_eq_zero_iff.1 (by omega)
    subst hL0
    rw [List.append_nil]
    exact .one (hP.step_jump hj o3)

/-- An expression that is not in tail position is evaluated onto the stack. -/
theorem eval_steps {P : LP} (hP : P.OK) {cx : FnCx} {X : List Name} {e : Expr} (hg : Good X e) (hsh : BcShape e) (hcx : CxOK cx e)
    (hX : CxX cx X) {s s' : CS} {code : List BOp} {i : Nat} (h : comp cx false e s = some (code, s')) (hF : s'.fns <+: P.fns)
    (hc : CodeAt P i code) (hi : CxInv cx s) {ρ : Env} {S : List TVal} (hS : BConf P X s ρ S) (hD : sizeOf e ≤ P.D) {n : Nat}
    {v : Val} (hv : eval n ρ e = .ok v) (B : List TVal) :
    ∃ w k, BRel P v w ∧ Steps P k ⟨P.addr i, S.reverse ++ B⟩ ⟨P.addr (i + code.length), w :: (S.reverse ++ B)⟩ := by
  have hsim := simAt hP n e cx false X s s' code i ρ S B 0 hg hsh hcx hX h hF hc hi hS (fun h => nomatch h) hD
  rw [(eval_evalA n ρ e v).1 hv] at hsim
  obtain ⟨k, t, hk, hd⟩ := hsim
  obtain ⟨w, r, rfl⟩ := hd.fall
  exact ⟨w, k, r, hk⟩

/-- From anywhere in the body back to its start. -/
theorem tail_reach {P : LP} (hP : P.OK) {ps : List Name} {f : Name} {cn b i n0 st s1 code} (hf : FnAt P ps (some f) cn b i n0 st s1 code)
    {caps : List TVal} (hcl : caps.length = cn.length) {fnv : TVal} {ra : UInt64} {B : List TVal} {ρ : Env} {e : Expr} {vs : List Val}
    (he : SelfTail f ρ e vs) : ∀ (X : List Name) (s s' : CS) (code' : List BOp) (j : Nat) (ws L : List TVal),
    Good X e → BcShape e → CxOK ⟨st.size, n0 + 1, ps, some f⟩ e → CxX ⟨st.size, n0 + 1, ps, some f⟩ X →
    comp ⟨st.size, n0 + 1, ps, some f⟩ true e s = some (code', s') → s'.fns <+: P.fns → CodeAt P j code' →
    CxInv ⟨st.size, n0 + 1, ps, some f⟩ s → BConf P X s ρ (ws ++ (fnv :: P.ret ra :: (caps ++ L))) → ws.length = ps.length →
    sizeOf e ≤ P.D →
    ∃ us k, BRels P vs us ∧ us.length = ps.length ∧
      Steps P (k + 1) ⟨P.addr j, (ws ++ (fnv :: P.ret ra :: (caps ++ L))).reverse ++ B⟩
        ⟨P.addr (i + 3), (us ++ (fnv :: P.ret ra :: caps)).reverse ++ B⟩ := by
  generalize hcxe : (⟨st.size, n0 + 1, ps, some f⟩ : FnCx) = cx
  induction he with
  | @call ρ xs vs n hv =>
    intro X s s' code' j ws L hg hsh hcx hX h hF hc hi hS hw hD
    rw [comp] at h
    obtain ⟨⟨c1, s2⟩, e1, h⟩ := Option.bind_eq_some_iff.1 h
    have hxs : ∀ e' ∈ xs, ([], e') ∈ children (.call (.name f) xs) := fun e' he => by simp [children, he]
    have hch : ∀ e' ∈ xs, Good X e' ∧ BcShape e' ∧ CxOK cx e' := fun e' he =>
      ⟨hg.child (hxs e' he), hsh.child (hxs e' he), hcx.child (hxs e' he)⟩
    have p1 := compL_post hX hch e1 hS.inS hi
    have hz1 := p1.size
    have hx1 : ∀ x ∈ X, x ∉ bcDefinedL xs := fun x hx hm => by
      obtain ⟨e', he, hm⟩ := mem_bcDefinedL.1 hm
      exact notDefined_child hg hx (hxs e' he) hm
    have hi1 := hi.post p1 fun hr x hx => hx1 x (hX hr x hx)
    have hrec : cx.rec? = some f := by rw [← hcxe]
    have hpar : cx.params = ps := by rw [← hcxe]
    have ht : isSelfTail cx true (.name f) = true := by rw [isSelfTail, hrec]; simp
    simp only at h
    rw [if_pos ht] at h
    obtain ⟨⟨c2, s3⟩, e2, h⟩ := Option.map_eq_some_iff.1 h
    cases h
    obtain ⟨q0, q1, q2, q3⟩ := hi (by rw [hrec]; rfl)
    obtain ⟨_, _, _, r3⟩ := hi1 (by rw [hrec]; rfl)
    have hl := hcx f hrec xs .refl
    have hF2 : s2.fns <+: s3.fns := by
      obtain ⟨c2', s3', e2', z2, d2, m2⟩ := tailCall_ok (by rw [hrec]; rfl) q1 r3 (by omega)
      rw [e2] at e2'
      cases e2'
      exact m2.fns
    obtain ⟨k1, k2⟩ := hc.append
    have hsim := list_sim (simAt hP n) hX (B := B) xs s s2 c1 j _ (fun e' he => ⟨(hch e' he).1, (hch e' he).2.1, (hch e' he).2.2, by
      have := mem_children_size (hxs e' he)
      simp only at this
      omega⟩) e1 (hF2.trans hF) k1 hi hS
    rw [(evalList_same (eval_evalA n ρ) xs vs).1 hv] at hsim
    obtain ⟨k, t, hk, us, hr, hul, rfl⟩ := hsim
    rw [hpar] at hl r3
    have hul' : us.length = ps.length := by omega
    rw [← hcxe] at e2
    obtain ⟨k', hk'⟩ := tail_jump hP hf hcl (fnv := fnv) (ra := ra) (L := L) (B := B) hw hul' e2 r3 (by rw [hS.len, hul]; omega) k2
    obtain ⟨m, hm⟩ := steps_pos hk hk'
    exact ⟨us, m, hr, hul', hm⟩
  | @then_ ρ c t e vs n hv _ ih =>
    intro X s s' code' j ws L hg hsh hcx hX h hF hc hi hS hw hD
    rw [comp] at h
    obtain ⟨⟨c1, s1⟩, e1, h⟩ := Option.bind_eq_some_iff.1 h
    dsimp only at h
    have hcm : ([], c) ∈ children (.ite c t e) := by simp [children]
    have htm : ([], t) ∈ children (.ite c t e) := by simp [children]
    have hem : ([], e) ∈ children (.ite c t e) := by simp [children]
    have p1 := comp_post (hg.child hcm) (hsh.child hcm) (hcx.child hcm) hX e1 hS.inS hi
    have hz1 := p1.size
    have d1 : ∀ x ∈ X, assoc x s1.depths = assoc x s.depths := fun x hx => p1.depths x (notDefined_child hg hx hcm)
    rw [CS.shrink_ok (by simp only; omega), Option.bind_some] at h
    obtain ⟨⟨c3, s3⟩, e3, h⟩ := Option.bind_eq_some_iff.1 h
    have hS2 := hS.same (t := { s1 with next := s1.next + 2, size := s1.size - 1 }) (by simp only; omega) d1
    have hi2 : CxInv cx { s1 with next := s1.next + 2, size := s1.size - 1 } := hi.same hX d1 (by simp only; omega)
    have p3 := comp_post (hg.child htm) (hsh.child htm) (hcx.child htm) hX e3 hS2.inS hi2
    have hz3 := p3.size
    simp only at hz3
    have d3 : ∀ x ∈ X, assoc x s3.depths = assoc x s.depths := fun x hx => by
      rw [p3.depths x (notDefined_child hg hx htm)]
      exact d1 x hx
    rw [CS.shrink_ok (by simp only; omega), Option.bind_some] at h
    obtain ⟨⟨c5, s5⟩, e5, h⟩ := Option.map_eq_some_iff.1 h
    have hS4 := hS.same (t := { s3 with size := s3.size - 1 }) (by simp only; omega) d3
    have hi4 : CxInv cx { s3 with size := s3.size - 1 } := hi.same hX d3 (by simp only; omega)
    have p5 := comp_post (hg.child hem) (hsh.child hem) (hcx.child hem) hX e5 hS4.inS hi4
    cases h
    have f5 := p5.emit.fns
    have f3 := p3.emit.fns
    simp only at f5 f3 hF
    obtain ⟨k1, k2⟩ := hc.append
    obtain ⟨o1, k2⟩ := k2.cons
    obtain ⟨k3, k4⟩ := k2.append
    simp only [Expr.ite.sizeOf_spec] at hD
    obtain ⟨w, k, r, hk⟩ := eval_steps hP (hg.child hcm) (hsh.child hcm) (hcx.child hcm) hX e1 (f3.trans (f5.trans hF)) k1 hi hS
      (by simp only; omega) hv B
    cases r
    obtain ⟨us, k', h1, h2, h3⟩ := ih X _ s3 c3 _ ws L (hg.child htm) (hsh.child htm) (hcx.child htm) hX e3 (f5.trans hF) k3 hi2 hS2 hw (by omega)
    obtain ⟨m, hm⟩ := steps_pos (hk.trans (.one (hP.step_jumpIfFalse_true o1))) h3
    exact ⟨us, m, h1, h2, hm⟩
  | @else_ ρ c t e vs n hv _ ih =>
    intro X s s' code' j ws L hg hsh hcx hX h hF hc hi hS hw hD
    rw [comp] at h
    obtain ⟨⟨c1, s1⟩, e1, h⟩ := Option.bind_eq_some_iff.1 h
    dsimp only at h
    have hcm : ([], c) ∈ children (.ite c t e) := by simp [children]
    have htm : ([], t) ∈ children (.ite c t e) := by simp [children]
    have hem : ([], e) ∈ children (.ite c t e) := by simp [children]
    have p1 := comp_post (hg.child hcm) (hsh.child hcm) (hcx.child hcm) hX e1 hS.inS hi
    have hz1 := p1.size
    have d1 : ∀ x ∈ X, assoc x s1.depths = assoc x s.depths := fun x hx => p1.depths x (notDefined_child hg hx hcm)
    rw [CS.shrink_ok (by simp only; omega), Option.bind_some] at h
    obtain ⟨⟨c3, s3⟩, e3, h⟩ := Option.bind_eq_some_iff.1 h
    have hS2 := hS.same (t := { s1 with next := s1.next + 2, size := s1.size - 1 }) (by simp only; omega) d1
    have hi2 : CxInv cx { s1 with next := s1.next + 2, size := s1.size - 1 } := hi.same hX d1 (by simp only; omega)
    have p3 := comp_post (hg.child htm) (hsh.child htm) (hcx.child htm) hX e3 hS2.inS hi2
    have hz3 := p3.size
    simp only at hz3
    have d3 : ∀ x ∈ X, assoc x s3.depths = assoc x s.depths := fun x hx => by
      rw [p3.depths x (notDefined_child hg hx htm)]
      exact d1 x hx
    rw [CS.shrink_ok (by simp only; omega), Option.bind_some] at h
    obtain ⟨⟨c5, s5⟩, e5, h⟩ := Option.map_eq_some_iff.1 h
    have hS4 := hS.same (t := { s3 with size := s3.size - 1 }) (by simp only; omega) d3
    have hi4 : CxInv cx { s3 with size := s3.size - 1 } := hi.same hX d3 (by simp only; omega)
    have p5 := comp_post (hg.child hem) (hsh.child hem) (hcx.child hem) hX e5 hS4.inS hi4
    cases h
    have f5 := p5.emit.fns
    have f3 := p3.emit.fns
    simp only at f5 f3 hF
    obtain ⟨k1, k2⟩ := hc.append
    obtain ⟨o1, k2⟩ := k2.cons
    obtain ⟨k3, k4⟩ := k2.append
    obtain ⟨o2, k4⟩ := k4.cons
    obtain ⟨o3, k4⟩ := k4.cons
    obtain ⟨k5, k6⟩ := k4.append
    have a3 := hP.silent o3 rfl
    simp only [Expr.ite.sizeOf_spec] at hD
    obtain ⟨w, k, r, hk⟩ := eval_steps hP (hg.child hcm) (hsh.child hcm) (hcx.child hcm) hX e1 (f3.trans (f5.trans hF)) k1 hi hS
      (by simp only; omega) hv B
    cases r
    obtain ⟨us, k', h1, h2, h3⟩ := ih X _ s5 c5 _ ws L (hg.child hem) (hsh.child hem) (hcx.child hem) hX e5 hF k5 hi4 hS4 hw (by omega)
    have hj := hP.step_jumpIfFalse_false (T := (ws ++ (fnv :: P.ret ra :: (caps ++ L))).reverse ++ B) o1 o3
    rw [← a3] at hj
    obtain ⟨m, hm⟩ := steps_pos (hk.trans (.one hj)) h3
    exact ⟨us, m, h1, h2, hm⟩
  | @let_ ρ x v e u vs n hv _ ih =>
    intro X s s' code' j ws L hg hsh hcx hX h hF hc hi hS hw hD
    rw [comp] at h
    obtain ⟨⟨c1, s1⟩, e1, h⟩ := Option.bind_eq_some_iff.1 h
    have hvm : ([], v) ∈ children (.let_ x v e) := by simp [children]
    have hem : ([x], e) ∈ children (.let_ x v e) := by simp [children]
    have p1 := comp_post (hg.child hvm) (hsh.child hvm) (hcx.child hvm) hX e1 hS.inS hi
    have hz1 := p1.size
    have hxn : x ∉ X := hg.own_new (by simp [own])
    rw [CS.define_ok (by simp only; omega), Option.bind_some] at h
    obtain ⟨⟨c2, s2⟩, e2, h⟩ := Option.bind_eq_some_iff.1 h
    obtain ⟨s3, e3, h⟩ := Option.map_eq_some_iff.1 h
    have hfn : s3.fns = s2.fns := by
      rw [CS.shrink] at e3
      split at e3
      · cases e3; rfl
      · cases e3
    cases h
    rw [hfn] at hF
    have d2 : ∀ y ∈ X, assoc y ((x, s1.size - 1) :: s1.depths) = assoc y s.depths := fun y hy => by
      rw [assoc, if_neg (fun (h : x = y) => hxn (h ▸ hy))]
      exact p1.depths y (notDefined_child hg hy hvm)
    have hi2 : CxInv cx { s1 with depths := (x, s1.size - 1) :: s1.depths } := hi.same hX d2 (by simp only; omega)
    have hS2 : ∀ v' w, BRel P v' w → BConf P ([x] ++ X) { s1 with depths := (x, s1.size - 1) :: s1.depths }
        ((x, v') :: ρ) (ws ++ (fnv :: P.ret ra :: (caps ++ (L ++ [w])))) := fun v' w hr => by
      rw [show ws ++ (fnv :: P.ret ra :: (caps ++ (L ++ [w]))) = (ws ++ (fnv :: P.ret ra :: (caps ++ L))) ++ [w] by simp]
      refine hS.add (by simp only [List.length_cons, List.length_nil]; omega) (fun y hy hn => ⟨d2 y hy, ?_⟩) (fun y hy => ?_)
      · rw [lookup, if_neg (fun h => hn (by simp [h]))]
      · rw [List.mem_singleton] at hy
        subst hy
        refine ⟨0, v', w, ?_, by rw [lookup, if_pos rfl], rfl, hr⟩
        simp only [assoc, if_true, Option.some.injEq]
        omega
    have hX2 : CxX cx ([x] ++ X) := fun hr p hp => List.mem_append_right _ (hX hr p hp)
    have f2 : s1.fns <+: s2.fns := (comp_post (hg.child hem) (hsh.child hem) (hcx.child hem)
      hX2 e2 (hS2 _ _ (.int 0)).inS hi2).emit.fns
    obtain ⟨k1, k2⟩ := hc.append
    obtain ⟨k2, k3⟩ := k2.append
    simp only [Expr.let_.sizeOf_spec] at hD
    obtain ⟨w, k, r, hk⟩ := eval_steps hP (hg.child hvm) (hsh.child hvm) (hcx.child hvm) hX e1 (f2.trans hF) k1 hi hS
      (by simp only; omega) hv B
    obtain ⟨us, k', h1, h2, h3⟩ := ih ([x] ++ X) _ s2 c2 _ ws (L ++ [w]) (hg.child hem) (hsh.child hem) (hcx.child hem) hX2 e2 hF k2 hi2
      (hS2 u w r) hw (by omega)
    have e4 : w :: ((ws ++ (fnv :: P.ret ra :: (caps ++ L))).reverse ++ B) =
      (ws ++ (fnv :: P.ret ra :: (caps ++ (L ++ [w])))).reverse ++ B := by simp
    rw [e4] at hk
    obtain ⟨m, hm⟩ := steps_pos hk h3
    exact ⟨us, m, h1, h2, hm⟩
  | @letrec ρ x ty v e qs b' vs hr _ ih =>
    intro X s s' code' j ws L hg hsh hcx hX h hF hc hi hS hw hD
    have hem : ([x], e) ∈ children (.letrec x ty v e) := by simp [children]
    have hxn : x ∉ X := hg.own_new (by simp [own])
    have hf' := fnGood_rec hg hsh hr
    obtain ⟨st', code0, s1, a1, a2, a3, a4, a5⟩ := compFn_ok (n := s.next) (F := s.fns) hf' (fun cx' h1 h2 =>
      comp_ok b' cx' true _ hf'.good hf'.shape h1 h2)
    obtain ⟨ps', hps, hst⟩ := compRec_strip (x := x) (caps := recCaps x ty v e) (s := s) hr
    have hcr : compRec x (recCaps x ty v e) v s = some { s with next := s1.next, fns := s1.fns ++ [fnCode s.next
        (s.next + 1) qs.length (recCaps x ty v e).length (s1.maxSize - st'.size + (recCaps x ty v e).length) code0] } := by
      rw [hst, compRec, ← hps, a1, Option.bind_some, a3, Option.bind_some]
      rw [show ps'.length = qs.length by rw [hps, List.length_map], a5]
      rfl
    rw [comp] at h
    rw [← recCaps, hcr, Option.bind_some] at h
    obtain ⟨⟨c2, s2⟩, b1, h⟩ := Option.bind_eq_some_iff.1 h
    obtain ⟨c2', s2', b1', b2, b3, b4, b5, b6⟩ := pickVars_ok (recCaps x ty v e)
      { s with next := s1.next, fns := s1.fns ++ [fnCode s.next (s.next + 1) qs.length (recCaps x ty v e).length
        (s1.maxSize - st'.size + (recCaps x ty v e).length) code0] }
      (fun x hx => hS.inS x (hg.scope x ((mem_recCaps hg).1 hx)))
    rw [b1] at b1'
    cases b1'
    simp only at b2 b3 b4 b5
    rw [CS.shrink_ok (by simp only; omega), Option.bind_some, CS.define_ok (by simp), Option.bind_some] at h
    obtain ⟨⟨c4, s4⟩, e4, h⟩ := Option.bind_eq_some_iff.1 h
    obtain ⟨s5, e5, h⟩ := Option.map_eq_some_iff.1 h
    have hfn : s5.fns = s4.fns := by
      rw [CS.shrink] at e5
      split at e5
      · cases e5; rfl
      · cases e5
    cases h
    rw [hfn] at hF
    have d3 : ∀ y ∈ X, assoc y ((x, (CS.grow { s2 with size := s2.size - (recCaps x ty v e).length } 1).size - 1) :: s2.depths) =
        assoc y s.depths := fun y hy => by
      rw [assoc, if_neg (fun (h : x = y) => hxn (h ▸ hy)), b5]
    have hi3 := hi.same (t := { CS.grow { s2 with size := s2.size - (recCaps x ty v e).length } 1 with
      depths := (x, (CS.grow { s2 with size := s2.size - (recCaps x ty v e).length } 1).size - 1) :: s2.depths }) hX d3
      (by simp only [CS.grow_size]; omega)
    have hS3 : ∀ v' w, BRel P v' w → BConf P ([x] ++ X) { CS.grow { s2 with size := s2.size - (recCaps x ty v e).length } 1 with
        depths := (x, (CS.grow { s2 with size := s2.size - (recCaps x ty v e).length } 1).size - 1) :: s2.depths }
        ((x, v') :: ρ) (ws ++ (fnv :: P.ret ra :: (caps ++ (L ++ [w])))) := fun v' w hr => by
      rw [show ws ++ (fnv :: P.ret ra :: (caps ++ (L ++ [w]))) = (ws ++ (fnv :: P.ret ra :: (caps ++ L))) ++ [w] by simp]
      refine hS.add (by simp only [CS.grow_size, List.length_cons, List.length_nil]; omega) (fun y hy hn => ⟨d3 y hy, ?_⟩) (fun y hy => ?_)
      · rw [lookup, if_neg (fun h => hn (by simp [h]))]
      · rw [List.mem_singleton] at hy
        subst hy
        refine ⟨0, v', w, ?_, by rw [lookup, if_pos rfl], rfl, hr⟩
        simp only [assoc, if_true, Option.some.injEq, CS.grow_size]
        omega
    have hX2 : CxX cx ([x] ++ X) := fun hr p hp => List.mem_append_right _ (hX hr p hp)
    have f4 : s2.fns <+: s4.fns := (comp_post (hg.child hem) (hsh.child hem) (hcx.child hem)
      hX2 e4 (hS3 _ _ (.int 0)).inS hi3).emit.fns
    have hF1 := f4.trans hF
    rw [b4] at hF1
    obtain ⟨k1, k2⟩ := hc.append
    obtain ⟨o2, k2⟩ := k2.cons
    obtain ⟨k3, k4⟩ := k2.append
    obtain ⟨j', hj'⟩ := hP.fn _ (hF1.subset (List.mem_append_right _ (List.mem_singleton_self _)))
    have hD' := hD
    simp only [Expr.letrec.sizeOf_spec] at hD'
    have hFn : FnAt P qs (some x) (recCaps x ty v e) b' j' s.next st' s1 code0 := by
      refine ⟨by rw [a2.fns]; exact a1, a3, (List.prefix_append _ _).trans hF1, ⟨_, hj'⟩, hf', ?_, ⟨_, _, _, o2, hj' 0 _ rfl⟩⟩
      have := recLam_size hr
      omega
    obtain ⟨k, caps', g1, g2⟩ := steps_pickVars hP (B := B) _ _ s2 _ c2 j b1 hS.len
      (fun x hx => hS.has x (hg.scope x ((mem_recCaps hg).1 hx))) k1
    have hcl' : BRel P (.rclo ρ x qs b') (.obj (P.clo j') caps') := .rclo hFn g2.len g2.rel.1 g2.rel.2
    have hpre := g1.trans (.one (closure_step hP o2 (show P.ops[j']? = some (.label s.next) from hj' 0 _ rfl) g2.len (g2.plain hP)))
    obtain ⟨us, k', h1, h2, h3⟩ := ih ([x] ++ X) _ s4 c4 _ ws (L ++ [_]) (hg.child hem) (hsh.child hem) (hcx.child hem) hX2 e4 hF k3 hi3
      (hS3 _ _ hcl') hw (by omega)
    rw [show TVal.obj (P.clo j') caps' :: ((ws ++ (fnv :: P.ret ra :: (caps ++ L))).reverse ++ B) =
      (ws ++ (fnv :: P.ret ra :: (caps ++ (L ++ [TVal.obj (P.clo j') caps'])))).reverse ++ B by simp] at hpre
    obtain ⟨m, hm⟩ := steps_pos hpre h3
    exact ⟨us, m, h1, h2, hm⟩
  | @mtch ρ d bs c fs br vs n hv hfb hbl _ ih =>
    intro X s s' code' j ws L hg hsh hcx hX h hF hc hi hS hw hD
    have hbm : ∀ b ∈ bs, (b.binds, b.body) ∈ children (.mtch d bs) := fun b hb => by
      simp only [children, List.mem_cons, List.mem_map]
      exact .inr ⟨b, hb, rfl⟩
    have hdm : ([], d) ∈ children (.mtch d bs) := by simp [children]
    have hbs : ∀ b ∈ bs, CompOK cx true (b.binds ++ X) b.body ∧ b.binds.Nodup ∧
        (∀ x ∈ X, x ∉ b.binds ∧ x ∉ bcDefined b.body) := fun b hb => by
      refine ⟨comp_ok b.body cx true _ (hg.child (hbm b hb)) (hsh.child (hbm b hb)) (hcx.child (hbm b hb))
        (fun hr p hp => List.mem_append_right _ (hX hr p hp)), ?_, fun x hx =>
        ⟨fun hm => hg.own_new (y := x) (by simp only [own, List.mem_flatMap]; exact ⟨b, hb, hm⟩) hx, notDefined_child hg hx (hbm b hb)⟩⟩
      refine List.Nodup.sublist (l₂ := own (.mtch d bs)) ?_ hg.own_nodup
      simp only [own]
      obtain ⟨pre, post, rfl⟩ := List.append_of_mem hb
      simp only [List.flatMap_append, List.flatMap_cons]
      exact (List.sublist_append_left _ _).trans (List.sublist_append_right _ _)
    rw [comp] at h
    obtain ⟨⟨c1, s1⟩, e1, h⟩ := Option.bind_eq_some_iff.1 h
    dsimp only at h
    have p1 := comp_post (hg.child hdm) (hsh.child hdm) (hcx.child hdm) hX e1 hS.inS hi
    have hz1 := p1.size
    have d1 : ∀ x ∈ X, assoc x s1.depths = assoc x s.depths := fun x hx => p1.depths x (notDefined_child hg hx hdm)
    rw [CS.shrink_ok (by simp only; omega), Option.bind_some] at h
    obtain ⟨⟨c3, s3⟩, e3, h⟩ := Option.map_eq_some_iff.1 h
    have hS2 := hS.same (t := { s1 with next := s1.next + 1 + bs.length, size := s1.size - 1 }) (by simp only; omega) d1
    have hi2 : CxInv cx { s1 with next := s1.next + 1 + bs.length, size := s1.size - 1 } := hi.same hX d1 (by simp only; omega)
    obtain ⟨c3', s3', e3', p3⟩ := compB_ok (cx := cx) (tail := true) (X := X) (endL := s1.next) hX bs (s1.next + 1) _
      hS2.inS hi2 hbs
    rw [e3] at e3'
    cases e3'
    cases h
    rw [CS.grow_fns] at hF
    obtain ⟨k1, k2⟩ := hc.append
    obtain ⟨o1, k2⟩ := k2.cons
    obtain ⟨k3, k4⟩ := k2.append
    have hD1 := mem_children_size hdm
    simp only at hD1
    obtain ⟨w, k, r, hk⟩ := eval_steps hP (hg.child hdm) (hsh.child hdm) (hcx.child hdm) hX e1 (p3.fns.trans hF) k1 hi hS
      (by simp only; omega) hv B
    cases r with
    | comp ht hl hm hrr =>
      rename_i tag ws'
      obtain ⟨j1, q1, q2⟩ := find_branch (l := s1.next + 1) hfb
      obtain ⟨cb, ns, body⟩ := br
      simp only [Branch.binds, Branch.body] at hbl ih
      have hbr : Branch.mk cb ns body ∈ bs := List.mem_of_getElem? q1
      obtain ⟨i', s0, s1', s2', ce, y1, y2, y3, y4, y5, y6, y7, y8⟩ := compB_at hX bs (s1.next + 1) _ s3 c3 _ hS2.inS hi2
        hbs e3 k3 j1 cb ns body q1
      have hstep := hP.step_branch (T := (ws ++ (fnv :: P.ret ra :: (caps ++ L))).reverse ++ B) (fs := ws') o1 ht q2 (by rw [← hl]; exact hbl.symm) y1
      rw [← hP.silent y1 rfl] at hstep
      obtain ⟨w1, w2, w3⟩ := hbs _ hbr
      simp only [Branch.binds, Branch.body] at w1 w2 w3
      obtain ⟨z1, n1, f1, dd1, sl1⟩ := bindAll_inv w2 y3
      have hwl : ws'.length = ns.length := by omega
      simp only at y6
      have hd3 : ∀ x ∈ X, assoc x s1'.depths = assoc x s.depths := fun x hx => by
        rw [dd1 x (w3 x hx).1, y8 x hx]
        exact d1 x hx
      have hS3 : BConf P (ns ++ X) s1' (bindAll ρ ns fs) (ws ++ (fnv :: P.ret ra :: (caps ++ (L ++ ws')))) := by
        rw [show ws ++ (fnv :: P.ret ra :: (caps ++ (L ++ ws'))) = (ws ++ (fnv :: P.ret ra :: (caps ++ L))) ++ ws' by simp]
        refine hS.add (by omega) (fun y hy hn => ⟨hd3 y hy, lookup_bindAll_notMem hn⟩) (fun y hy => ?_)
        obtain ⟨j, hj⟩ := List.mem_iff_getElem?.1 hy
        have hlt := (List.getElem?_eq_some_iff.1 hj).1
        have hvj : fs[j]? = some (fs[j]'(by omega)) := List.getElem?_eq_getElem (by omega)
        have hwj : ws'[j]? = some (ws'[j]'(by omega)) := List.getElem?_eq_getElem (by omega)
        refine ⟨j, _, _, ?_, lookup_bindAll_at w2 hj hvj, hwj, hrr j _ _ hvj hwj⟩
        rw [sl1 j y hj]
        congr 1
        omega
      obtain ⟨u1, u2⟩ := y2.append
      have e6 : ws'.reverse ++ ((ws ++ (fnv :: P.ret ra :: (caps ++ L))).reverse ++ B) =
        (ws ++ (fnv :: P.ret ra :: (caps ++ (L ++ ws')))).reverse ++ B := by simp
      rw [e6] at hstep
      have hX2 : CxX cx (ns ++ X) := fun hr p hp => List.mem_append_right _ (hX hr p hp)
      have hD2 := mem_children_size (hbm _ hbr)
      simp only [Branch.body] at hD2
      obtain ⟨us, k', h1, h2, h3⟩ := ih (ns ++ X) s1' s2' ce _ ws (L ++ ws') (hg.child (hbm _ hbr)) (hsh.child (hbm _ hbr))
        (hcx.child (hbm _ hbr)) hX2 y4 (y5.trans hF) u1 (hi.same hX hd3 (by omega)) hS3 hw (by omega)
      obtain ⟨m, hm⟩ := steps_pos (hk.trans (.one hstep)) h3
      exact ⟨us, m, h1, h2, hm⟩
  | @pi ρ a e vs _ ih =>
    intro X s s' code' j ws L hg hsh hcx hX h hF hc hi hS hw hD
    have hem : ([], e) ∈ children (.pi a e) := by simp [children]
    rw [comp] at h
    have hD2 := mem_children_size hem
    exact ih X s s' code' j ws L (hg.child hem) (hsh.child hem) (hcx.child hem) hX h hF hc hi hS hw (by simp only at hD2; omega)
  | @piApp ρ a e vs _ ih =>
    intro X s s' code' j ws L hg hsh hcx hX h hF hc hi hS hw hD
    have hem : ([], e) ∈ children (.piApp e a) := by simp [children]
    rw [comp] at h
    have hD2 := mem_children_size hem
    exact ih X s s' code' j ws L (hg.child hem) (hsh.child hem) (hcx.child hem) hX h hF hc hi hS hw (by simp only at hD2; omega)

end Bc
end Tic.Core
