import Verif.BytecodeTail
/-
C09: a recursive function that calls itself in tail position runs in a constant number of stack slots.
-/
namespace Tic.Core
namespace Bc

/-- The machine iterates over the body of a function, in the same frame. -/
theorem tail_loop {P : LP} (hP : P.OK) {ps : List Name} {f : Name} {cn b i n0 st s1 code} (hf : FnAt P ps (some f) cn b i n0 st s1 code)
    {ρ0 : Env} {caps : List TVal} (hcap : BCaps P cn ρ0 caps) {ra : UInt64} {B : List TVal} {g : Nat → List Val} {ws0 : List TVal}
    (h0 : BRels P (g 0) ws0) (hl : ws0.length = ps.length) : ∀ (k : Nat),
    (∀ j, j < k → SelfTail f ((f, .rclo ρ0 f ps b) :: bindAll ρ0 ps (g j)) b (g (j + 1))) →
    ∃ (T : Nat → Nat) (W : Nat → List TVal), T 0 = 0 ∧ (∀ j, j < k → T j < T (j + 1)) ∧ ∀ j, j ≤ k → BRels P (g j) (W j) ∧
      (W j).length = ps.length ∧
      Steps P (T j) ⟨P.addr (i + 3), (ws0 ++ (.obj (P.clo i) caps :: P.ret ra :: caps)).reverse ++ B⟩
        ⟨P.addr (i + 3), (W j ++ (.obj (P.clo i) caps :: P.ret ra :: caps)).reverse ++ B⟩
  | 0, _ => ⟨fun _ => 0, fun _ => ws0, rfl, fun j h => absurd h (Nat.not_lt_zero _), fun j h => by
      rw [Nat.le_zero.1 h]
      exact ⟨h0, hl, rfl⟩⟩
  | k + 1, hs => by
    obtain ⟨T, W, t0, t1, t2⟩ := tail_loop hP hf hcap h0 hl k (fun j hj => hs j (by omega)) (ra := ra) (B := B)
    obtain ⟨r, hw, hk⟩ := t2 k (Nat.le_refl _)
    have hlay := fnStart_inv hf.good.nodup hf.start
    obtain ⟨u, hcode⟩ := hf.code
    rw [fnCode] at hcode
    have hco := hcode.append.2
    obtain ⟨hco, hret⟩ := hco.append
    have hconf := body_conf hf hcap r (by rw [r.len, hw]) (ra := ra)
    obtain ⟨us, m, h1, h2, h3⟩ := tail_reach hP hf hcap.len (B := B) (hs k (by omega)) (cn ++ (ps ++ (some f).toList)) st s1 code (i + 3)
      (W k) [] hf.good.good hf.good.shape hf.good.self_ (fun _ p hp => by simp [show p ∈ ps from hp]) hf.comp hf.fns hco
      (fn_cxInv hlay (List.nodup_append.1 hf.good.nodup).1)
      (by rw [List.append_nil]; exact hconf) hw hf.size
    rw [List.append_nil] at h3
    refine ⟨fun j => if j ≤ k then T j else T k + (m + 1), fun j => if j ≤ k then W j else us, ?_, fun j hj => ?_, fun j hj => ?_⟩
    · simp [t0]
    · by_cases e : j < k
      · simp only
        rw [if_pos (by omega), if_pos (by omega)]
        exact t1 j e
      · have : j = k := by omega
        subst this
        simp only
        rw [if_pos (by omega), if_neg (by omega)]
        omega
    · by_cases e : j ≤ k
      · simp only
        rw [if_pos e, if_pos e]
        exact t2 j e
      · have : j = k + 1 := by omega
        subst this
        simp only
        rw [if_neg (by omega), if_neg (by omega)]
        exact ⟨h1, h2, hk.trans h3⟩

end Bc
open Bc

/-- The state of the machine after some number of steps, if it gets there. -/
def vmAfter (ops : List LOp) (consts : List (List UInt8)) : Nat → VM → Option VM
  | 0, s => some s
  | n + 1, s =>
    match vmStep ops consts s with
    | .next s => vmAfter ops consts n s
    | _ => none

theorem Bc.Steps.after {P : Lk} : ∀ {k : Nat} {s t : VM}, Steps P.lp k s t → vmAfter P.lops P.st.consts k s = some t
  | 0, s, t, h => by cases h; rfl
  | k + 1, s, t, ⟨u, h1, h2⟩ => by
    replace h1 : vmStep P.lops P.st.consts s = .next u := h1
    rw [vmAfter, h1]
    exact Bc.Steps.after h2

/-- **C09.** Let a program call some recursive function value with arguments.  There is an address and a
stack height, such that whenever the function calls itself in tail position `k` times, with arguments
`g 1`, ..., `g k`, the machine passes through that address `k + 1` times with exactly this many values on its
stack, each time with the next arguments in the same place.  The address and the height do not depend on `k`. -/
theorem tail_calls_constant_stack {p : Program} {fe : Expr} {xs : List Expr} (h : BcProgram p [.call fe xs]) {n : Nat} {ρ : Env}
    (hd : evalDefs n p.defs [] = .ok ρ) {ρ0 : Env} {f : Name} {ps : List Name} {b : Expr}
    (hf : eval n ρ fe = .ok (.rclo ρ0 f ps b)) {vs : List Val} (hx : evalList (eval n ρ) xs = .ok vs) (hl : ps.length = vs.length) :
    ∃ ops lops st, compileProgram p [.call fe xs] = some ops ∧ link ops = some (lops, st) ∧
      ∃ addr height below, ∀ (k : Nat) (g : Nat → List Val), g 0 = vs →
        (∀ j, j < k → SelfTail f ((f, .rclo ρ0 f ps b) :: bindAll ρ0 ps (g j)) b (g (j + 1))) →
        ∃ T : Nat → Nat, (∀ j, j < k → T j < T (j + 1)) ∧
          ∀ j, j ≤ k → ∃ s, vmAfter lops st.consts (T j) ⟨0, []⟩ = some s ∧ s.ip = addr ∧ s.stack.length = height ∧
            decodeL st.ctors ((s.stack.drop below).take ps.length).reverse = some (obsList (g j)) := by
  obtain ⟨ops, d, c, s1, s2, h1, h2⟩ := compiled h.named h.shape h.exprs
  obtain ⟨lops, st, h3, h4⟩ := linked h2 (bigSize p [.call fe xs])
  obtain ⟨q1, q2⟩ := h.small ops h1
  have hP := h4 q1 (q2 _ _ h3)
  refine ⟨ops, lops, st, h1, h3, ?_⟩
  have hafter : ∀ {k : Nat} {s t : VM}, Steps (Lk.lp ⟨ops, lops, st, s2.fns, bigSize p [.call fe xs]⟩) k s t → vmAfter lops st.consts k s = some t := Bc.Steps.after
  have z0 : (Lk.lp ⟨ops, lops, st, s2.fns, bigSize p [.call fe xs]⟩).addr 0 = 0 := addrOf_zero ops
  replace hP := hP.lp
  generalize hPP : (Lk.lp ⟨ops, lops, st, s2.fns, bigSize p [.call fe xs]⟩) = P at hP hafter z0
  have hops : P.ops = ops := by rw [← hPP]; rfl
  have hst : P.st = st := by rw [← hPP]; rfl
  have hfns : P.fns = s2.fns := by rw [← hPP]; rfl
  have hD : P.D = bigSize p [.call fe xs] := by rw [← hPP]; rfl
  have hcode : CodeAt P 0 (.enter 0 s2.maxSize :: (d ++ (c ++ [.exit]))) :=
    codeAt_of_eq (a := []) (by rw [hops, h2.whole]; rfl)
  obtain ⟨o1, k1⟩ := hcode.cons
  obtain ⟨k1, k2⟩ := k1.append
  obtain ⟨k2, k3⟩ := k2.append
  have a0 : P.addr (0 + 1) = 0 := by rw [hP.silent o1 rfl]; exact z0
  obtain ⟨_, _, e1', z1, m1, i1⟩ := compDefs_ok p.defs [] ⟨0, [], 0, 0, []⟩ (wellNamed_iff.1 h.named) h.shape (fun x h => nomatch h)
  rw [h2.defs] at e1'
  cases e1'
  rw [List.append_nil] at i1
  have p2 := compL_post (top_cxX _) (fun e he => ⟨(h.exprs e he).1, (h.exprs e he).2, top_cxOK _⟩) h2.exprs i1 (top_cxInv _)
  have hdefs := defs_sim hP (n := n) p.defs [] ⟨0, [], 0, 0, []⟩ s1 d _ [] [] (wellNamed_iff.1 h.named) (fun d hd =>
    ⟨h.shape d hd, by
      rw [hD, bigSize]
      have := le_sum_of_mem (a := sizeOf d.value) (l := p.defs.map fun d => sizeOf d.value) (List.mem_map.2 ⟨d, hd, rfl⟩)
      omega⟩) h2.defs (by rw [hfns]; exact p2.emit.fns) k1 ⟨rfl, fun x h => nomatch h⟩
  rw [a0, (evalDefs_evalDefsA n p.defs [] ρ).1 hd] at hdefs
  obtain ⟨m1, _, hm1, S, rfl, hS⟩ := hdefs
  rw [List.append_nil] at hS
  -- the call
  obtain ⟨hg, hsh⟩ := h.exprs _ (List.mem_singleton_self _)
  have hxs : ∀ e' ∈ xs, ([], e') ∈ children (.call fe xs) := fun e' he => by simp [children, he]
  have hfm : ([], fe) ∈ children (.call fe xs) := by simp [children]
  have hexp := h2.exprs
  rw [compL] at hexp
  obtain ⟨⟨c1, t1⟩, e1, hexp⟩ := Option.bind_eq_some_iff.1 hexp
  rw [compL] at hexp
  cases hexp
  rw [comp] at e1
  obtain ⟨⟨c2, t2⟩, e2, e1⟩ := Option.bind_eq_some_iff.1 e1
  simp only at e1
  rw [if_neg (by cases fe <;> simp [isSelfTail])] at e1
  obtain ⟨⟨c3, t3⟩, e3, e1⟩ := Option.bind_eq_some_iff.1 e1
  have hch : ∀ e' ∈ xs, Good (p.defs.map (·.name)) e' ∧ BcShape e' ∧ CxOK topCx e' := fun e' he =>
    ⟨hg.child (hxs e' he), hsh.child (hxs e' he), top_cxOK _⟩
  have p1 := compL_post (top_cxX _) hch e2 hS.inS (top_cxInv _)
  have hx1 : ∀ x ∈ p.defs.map (·.name), x ∉ bcDefinedL xs := fun x hx hm => by
    obtain ⟨e', he, hm⟩ := mem_bcDefinedL.1 hm
    exact notDefined_child hg hx (hxs e' he) hm
  have hz1 := p1.size
  have p3 := comp_post (hg.child hfm) (hsh.child hfm) (top_cxOK _) (top_cxX _) e3 (hS.inS.post p1 hx1) (top_cxInv _)
  have hz3 := p3.size
  obtain ⟨t4, e4, z4, n4, f4, d4⟩ := plainCall_ok (k := xs.length) (s := t3) (by omega)
  simp only at e1
  rw [e4] at e1
  cases e1
  rw [f4] at hfns
  have hF3 : t3.fns <+: P.fns := by rw [hfns]; exact List.prefix_refl _
  rw [List.append_nil] at k2
  obtain ⟨k2, k4⟩ := k2.append
  obtain ⟨k4, k5⟩ := k4.append
  have hsz : ∀ e, ([], e) ∈ children (.call fe xs) → sizeOf e ≤ P.D := fun e he => by
    have := mem_children_size he
    have := size_mem (List.mem_singleton_self (Expr.call fe xs))
    rw [hD, bigSize]
    simp only at *
    omega
  have hsim := list_sim (simAt hP n) (top_cxX _) (B := []) xs s1 t2 c2 _ S (fun e' he => ⟨(hch e' he).1, (hch e' he).2.1, (hch e' he).2.2,
    hsz e' (hxs e' he)⟩) e2 (p3.emit.fns.trans hF3) k2 (top_cxInv _) hS
  rw [(evalList_same (eval_evalA n ρ) xs vs).1 hx] at hsim
  obtain ⟨m2, _, hm2, ws0, hr0, hwl, rfl⟩ := hsim
  have hS1 := hS.ext (t := t2) (L := ws0) (by rw [p1.size, hwl]) fun x hx => p1.depths x (hx1 x hx)
  obtain ⟨w, m3, hrf, hm3⟩ := eval_steps hP (hg.child hfm) (hsh.child hfm) (top_cxOK _) (top_cxX _) e3 hF3 k4 (top_cxInv _) hS1
    (hsz fe hfm) hf []
  have hop := k5 0 _ rfl
  rw [Nat.add_zero] at hop
  cases hrf with
  | @rclo _ _ _ _ cn i n0 st' s1' code caps hfa hcl hb hr =>
    have hcall := hP.step_call (T := (S ++ ws0).reverse ++ []) (j := i) (fs := caps) hop hfa.use
    obtain ⟨u, hcode⟩ := hfa.code
    rw [fnCode] at hcode
    obtain ⟨o1, hcode⟩ := hcode.cons
    obtain ⟨o2, hcode⟩ := hcode.cons
    obtain ⟨o3, hcode⟩ := hcode.cons
    obtain ⟨m4, hm4⟩ := hP.steps_enter (T := (S ++ ws0).reverse ++ [])
      (r := P.ret (UInt64.ofNat (P.addr (0 + 1 + d.length + c2.length + c3.length + 1))))
      (f := .obj (P.clo i) caps) o2 rfl (clo_plain hP hfa.use) hcl
    have a1 : P.addr (i + 1) = P.addr i := hP.silent o1 rfl
    have a3 : P.addr (i + 3) = P.addr (i + 2) := hP.silent o3 rfl
    rw [a1] at hm4
    rw [List.append_nil] at hm2
    have hall := (((hm1.trans hm2).trans hm3).trans (.one hcall)).trans hm4
    rw [← a3] at hall
    generalize hra : UInt64.ofNat (P.addr (0 + 1 + d.length + c2.length + c3.length + 1)) = ra at hall
    generalize hM : m1 + m2 + m3 + 1 + m4 = M at hall
    refine ⟨P.addr (i + 3), caps.length + 2 + ps.length + S.length, caps.length + 2, fun k g hg0 hgs => ?_⟩
    subst hg0
    obtain ⟨T, W, t0, t1, t2⟩ := tail_loop hP hfa (.mk' hcl hb hr) hr0 (by rw [hl, hr0.len]) k hgs (ra := ra) (B := S.reverse)
    refine ⟨fun j => M + T j, fun j hj => Nat.add_lt_add_left (t1 j hj) _, fun j hj => ?_⟩
    obtain ⟨r, hw, hk⟩ := t2 j hj
    have e5 : (ws0 ++ (TVal.obj (P.clo i) caps :: P.ret ra :: caps)).reverse ++ S.reverse =
      caps.reverse ++ (P.ret ra :: .obj (P.clo i) caps :: ((S ++ ws0).reverse ++ [])) := by simp
    rw [e5] at hk
    refine ⟨_, hafter (hall.trans hk), rfl, ?_, ?_⟩
    · simp only [List.length_append, List.length_reverse, List.length_cons, hw]
      omega
    · have e6 : (W j ++ (TVal.obj (P.clo i) caps :: P.ret ra :: caps)).reverse ++ S.reverse =
        (caps.reverse ++ [P.ret ra, .obj (P.clo i) caps]) ++ ((W j).reverse ++ S.reverse) := by simp
      simp only
      rw [e6, List.drop_left' (by simp), List.take_left' (by simp [hw]), List.reverse_reverse, ← hst, r.decode hP]

/-! ## A concrete loop -/

/-- `letrec f = \\i s. if i < 1 then s else let t = s + i in f (i - 1) t in f` -/
def exLoopF : Expr := .letrec 0 .int (.lam [(1, .int), (2, .int)]
  (.ite (.op (.name 1) .less (.int 1)) (.name 2)
    (.let_ 3 (.op (.name 2) .add (.name 1)) (.call (.name 0) [.op (.name 1) .subtract (.int 1), .name 3])))) (.name 0)

/-- called with `N` and 0 -/
def exLoop (N : UInt64) : Expr := .call exLoopF [.int N, .int 0]

theorem exLoop_bc (N : UInt64) : BcProgram ⟨[], []⟩ [exLoop N] where
  named := wnB_ok (by decide)
  shape := fun d h => nomatch h
  exprs := fun e he => by
    rw [List.mem_singleton.1 he]
    refine ⟨?_, bcShapeB_ok (by rfl)⟩
    have : WellNamed ⟨[], [⟨8, none, .int, exLoop N⟩]⟩ := wnB_ok (by rfl)
    have h := wellNamed_iff.1 this
    simp only [defPairs, List.map_cons, lets] at h
    exact (good_let.1 h).1
  small := by
    intro ops h
    have h0 : (compileProgram ⟨[], []⟩ [exLoop N]).map (fun ops => decide (ops.length < 2 ^ 48 ∧
        (∀ ls ∈ link ops, ls.2.ctors.length ≤ 2 ^ 48))) = some true := by rfl
    rw [h, Option.map_some, Option.some.injEq, decide_eq_true_eq] at h0
    exact ⟨h0.1, fun lops st hl => h0.2 _ hl⟩

/-- The hypotheses of `tail_calls_constant_stack` are met by a loop of a million million iterations:
all of them use the same stack slots. -/
example : ∃ ops lops st, compileProgram ⟨[], []⟩ [exLoop 1000000000000] = some ops ∧ link ops = some (lops, st) ∧
    ∃ addr height, ∃ T : Nat → Nat, (∀ j, j < 1000000000000 → T j < T (j + 1)) ∧
      ∀ j, j ≤ 1000000000000 → ∃ s, vmAfter lops st.consts (T j) ⟨0, []⟩ = some s ∧ s.ip = addr ∧ s.stack.length = height := by
  obtain ⟨ops, lops, st, h1, h2, addr, height, below, h3⟩ := tail_calls_constant_stack (exLoop_bc 1000000000000) (n := 5) (ρ := []) rfl
    (f := 0) (ps := [1, 2]) rfl (vs := [.int 1000000000000, .int 0]) rfl rfl
  let g : Nat → Nat × UInt64 := fun j => Nat.rec (1000000000000, 0) (fun _ q => (q.1 - 1, q.2 + UInt64.ofNat q.1)) j
  have hg : ∀ j, (g j).1 = 1000000000000 - j := by
    intro j
    induction j with
    | zero => rfl
    | succ j ih =>
      show (g j).1 - 1 = _
      omega
  obtain ⟨T, t1, t2⟩ := h3 1000000000000 (fun j => [.int (UInt64.ofNat (g j).1), .int (g j).2]) rfl (fun j hj => by
    have e1 : ¬ (UInt64.ofNat (g j).1 < 1) := by
      rw [UInt64.lt_iff_toNat_lt, UInt64.toNat_ofNat', Nat.mod_eq_of_lt (by rw [hg]; omega), hg]
      simp only [UInt64.toNat_one]
      omega
    have e2 : UInt64.ofNat (g j).1 - 1 = UInt64.ofNat (g (j + 1)).1 := by
      show _ = UInt64.ofNat ((g j).1 - 1)
      have : (g j).1 = (g j).1 - 1 + 1 := by rw [hg]; omega
      rw [this, UInt64.ofNat_add, Nat.add_sub_cancel]
      exact UInt64.add_sub_cancel _ _
    refine .else_ (n := 2) ?_ (.let_ (n := 2) (u := .int ((g j).2 + UInt64.ofNat (g j).1)) rfl (.call (n := 2) ?_))
    · show Res.ok (Val.bool (decide (UInt64.ofNat (g j).1 < 1))) = _
      rw [decide_eq_false e1]
    · show Res.ok [Val.int (UInt64.ofNat (g j).1 - 1), Val.int ((g j).2 + UInt64.ofNat (g j).1)] = _
      rw [e2])
  exact ⟨ops, lops, st, h1, h2, addr, height, T, t1, fun j hj => by
    obtain ⟨s, a, b, c, _⟩ := t2 j hj
    exact ⟨s, a, b, c⟩⟩

end Tic.Core
