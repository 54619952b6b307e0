import Verif.BytecodeSimAll
import Verif.OptSpec
/-
Whole programs: compiling and linking never panic, and the run follows evaluation with arguments first.
-/
namespace Tic.Core.Bc

/-- The context of code outside of functions. -/
abbrev topCx : FnCx := ⟨0, 0, [], none⟩

theorem top_cxInv (s : CS) : CxInv topCx s := fun h => nomatch h
theorem top_cxX (X : List Name) : CxX topCx X := fun h => nomatch h
theorem top_cxOK (e : Expr) : CxOK topCx e := fun _ h => nomatch h

/-- Definitions compile. -/
theorem compDefs_ok : ∀ (ds : List ValueDef) (X : List Name) (s : CS), Good X (lets (defPairs ds) unit) →
    (∀ d ∈ ds, BcShape d.value) → InS X s →
    ∃ code s', compDefs topCx ds s = some (code, s') ∧ s'.size = s.size + ds.length ∧
      Emit topCx s.next s.fns code s'.next s'.fns ∧ InS (ds.map (·.name) ++ X) s'
  | [], X, s, _, _, hs => ⟨[], s, rfl, rfl, .plain (fun _ h => nomatch h), hs⟩
  | d :: ds, X, s, hg, hsh, hs => by
    simp only [defPairs, List.map_cons, lets] at hg
    obtain ⟨g1, g2, g3, _, _⟩ := good_let.1 hg
    obtain ⟨c1, s1, e1, p1⟩ := comp_ok d.value topCx false X g1 (hsh d (by simp)) (top_cxOK _) (top_cxX _) s hs (top_cxInv _)
    have hz := p1.size
    have hs2 : InS (d.name :: X) { s1 with depths := (d.name, s1.size - 1) :: s1.depths } := by
      intro x hx
      by_cases e : d.name = x
      · exact ⟨s1.size - 1, by simp only [assoc]; rw [if_pos e], by simp only; omega⟩
      · rcases List.mem_cons.1 hx with h | h
        · exact absurd h.symm e
        · obtain ⟨a, h1, h2⟩ := hs x h
          exact ⟨a, by simp only [assoc]; rw [if_neg e, p1.depths x (g1.notDefined h), h1], by simp only; omega⟩
    obtain ⟨c2, s2, e2, z2, m2, i2⟩ := compDefs_ok ds (d.name :: X) _ g2 (fun d' h => hsh d' (by simp [h])) hs2
    refine ⟨c1 ++ c2, s2, ?_, ?_, p1.emit.seq m2, fun x hx => i2 x (by simp at hx ⊢; rcases hx with h | h | h <;> simp [h])⟩
    · rw [compDefs, e1, Option.bind_some, CS.define_ok (by simp only; omega), Option.bind_some]
      simp only [e2, Option.map_some]
    · simp only [List.length_cons] at z2 ⊢; omega

/-- Running definitions. -/
theorem defs_sim {P : LP} (hP : P.OK) {n : Nat} : ∀ (ds : List ValueDef) (X : List Name) (s s' : CS) (code : List BOp) (i : Nat)
    (ρ : Env) (S : List TVal), Good X (lets (defPairs ds) unit) →
    (∀ d ∈ ds, BcShape d.value ∧ sizeOf d.value ≤ P.D) → compDefs topCx ds s = some (code, s') → s'.fns <+: P.fns →
    CodeAt P i code → BConf P X s ρ S →
    Sim P (fun ρ' t => ∃ S', t = ⟨P.addr (i + code.length), S'.reverse⟩ ∧ BConf P (ds.map (·.name) ++ X) s' ρ' S') n P.D
      (evalDefsA n ds ρ) ⟨P.addr i, S.reverse⟩
  | [], X, s, s', code, i, ρ, S, _, _, h, _, _, hS => by
    rw [compDefs] at h
    cases h
    exact Sim.ok (k := 0) rfl ⟨S, rfl, hS⟩
  | d :: ds, X, s, s', code, i, ρ, S, hg, hd, h, hF, hc, hS => by
    simp only [defPairs, List.map_cons, lets] at hg
    obtain ⟨g1, g2, g3, _, _⟩ := good_let.1 hg
    rw [compDefs] at h
    obtain ⟨⟨c1, s1⟩, e1, h⟩ := Option.bind_eq_some_iff.1 h
    have p1 := comp_post g1 (hd d (by simp)).1 (top_cxOK _) (top_cxX _) e1 hS.inS (top_cxInv _)
    have hz := p1.size
    rw [CS.define_ok (by simp only; omega), Option.bind_some] at h
    obtain ⟨⟨c2, s2⟩, e2, h⟩ := Option.map_eq_some_iff.1 h
    cases h
    have hS2 : ∀ v w, BRel P v w → BConf P ([d.name] ++ X) { s1 with depths := (d.name, s1.size - 1) :: s1.depths }
        ((d.name, v) :: ρ) (S ++ [w]) := fun v w hr => by
      refine hS.add (by simp only [List.length_cons, List.length_nil]; omega) (fun y hy hn => ?_) (fun y hy => ?_)
      · have hne : d.name ≠ y := fun e => hn (by simp [e])
        exact ⟨by simp only [assoc]; rw [if_neg hne, p1.depths y (g1.notDefined hy)], by rw [lookup, if_neg hne]⟩
      · rw [List.mem_singleton] at hy
        subst hy
        refine ⟨0, v, w, ?_, by rw [lookup, if_pos rfl], rfl, hr⟩
        simp only [assoc, if_true, Option.some.injEq]
        omega
    have hF1 : s1.fns <+: P.fns := by
      obtain ⟨c2', s2', e2', z2, m2, i2⟩ := compDefs_ok ds (d.name :: X) _ g2 (fun d' h => (hd d' (by simp [h])).1)
        (hS2 _ _ (.int 0)).inS
      simp only at e2
      rw [e2] at e2'
      cases e2'
      exact m2.fns.trans hF
    obtain ⟨k1, k2⟩ := hc.append
    rw [evalDefsA]
    have hsim := simAt hP n d.value topCx false X s s1 c1 i ρ S [] 0 g1 (hd d (by simp)).1 (top_cxOK _) (top_cxX _) e1 hF1 k1
      (top_cxInv _) hS (fun h => nomatch h) (hd d (by simp)).2
    rw [List.append_nil] at hsim
    refine Sim.bind (Sim.weaken hsim (by have := (hd d (by simp)).2; omega)) fun v t hdn => ?_
    obtain ⟨w, r, rfl⟩ := hdn.fall
    have e3 : w :: S.reverse = (S ++ [w]).reverse := by simp
    rw [e3]
    refine Sim.post (defs_sim hP ds (d.name :: X) _ s2 c2 _ _ (S ++ [w]) g2 (fun d' h => hd d' (by simp [h])) e2 hF k2 (hS2 v w r)) ?_
    rintro ρ' t ⟨S', rfl, hS'⟩
    refine ⟨0, _, rfl, S', by rw [List.length_append, Nat.add_assoc], hS'.mono fun x hx => ?_⟩
    simp at hx ⊢
    rcases hx with h | h | h <;> simp [h]

/-! ## Compiling and linking -/

/-- The pieces of a compiled program. -/
structure Compiled (p : Program) (es : List Expr) (ops : List BOp) (d c : List BOp) (s1 s2 : CS) : Prop where
  defs : compDefs topCx p.defs ⟨0, [], 0, 0, []⟩ = some (d, s1)
  exprs : compL topCx es s1 = some (c, s2)
  whole : ops = (.enter 0 s2.maxSize :: (d ++ (c ++ [.exit]))) ++ s2.fns.flatten
  labels : ∀ l, ops.count (.label l) ≤ 1
  refs : ∀ l, Ref l ops → .label l ∈ ops

/-- **Compiling never panics.** -/
theorem compiled {p : Program} (hp : WellNamed p) (hd : ∀ d ∈ p.defs, BcShape d.value) {es : List Expr}
    (he : ∀ e ∈ es, Good (p.defs.map (·.name)) e ∧ BcShape e) :
    ∃ ops d c s1 s2, compileProgram p es = some ops ∧ Compiled p es ops d c s1 s2 := by
  obtain ⟨d, s1, h1, z1, m1, i1⟩ := compDefs_ok p.defs [] ⟨0, [], 0, 0, []⟩ (wellNamed_iff.1 hp) hd (fun x h => nomatch h)
  rw [List.append_nil] at i1
  obtain ⟨c, s2, h2, p2⟩ := compL_ok (top_cxX _) es s1 i1 (top_cxInv _) (fun e h =>
    ⟨comp_ok e topCx false _ (he e h).1 (he e h).2 (top_cxOK _) (top_cxX _), fun x hx => (he e h).1.notDefined hx⟩)
  have hm := m1.seq p2.emit
  have hz := p2.size
  simp only at z1
  refine ⟨_, d, c, s1, s2, ?_, h1, h2, rfl, fun l => ?_, fun l hl => ?_⟩
  · rw [compileProgram]
    rw [h1, Option.bind_some]
    simp only [h2, Option.bind_some]
    rw [if_pos (by omega)]
  · have := hm.labels l
    simp only [List.flatten_nil, List.count_nil, Nat.zero_add] at this
    rw [List.count_append] at this
    simp only [List.count_append, List.count_cons, List.count_nil, beq_iff_eq, reduceCtorEq, if_false, Nat.add_zero]
    split at this <;> omega
  · have hfn := hm.fnrefs (by intro l h; exact absurd h Ref.nil)
    have hcode := hm.refs
    simp only [Ref.append, Ref.cons, BOp.refs, List.not_mem_nil, false_or, Ref.nil, or_false] at hl hcode
    simp only [List.mem_append, List.mem_cons, reduceCtorEq, false_or, List.not_mem_nil, or_false]
    rcases hl with (hl | hl) | hl
    · rcases hcode l (.inl hl) with h | h | h
      · rw [List.mem_append] at h
        exact .inl h
      · exact .inr h
      · exact absurd h.2 (by decide)
    · rcases hcode l (.inr hl) with h | h | h
      · rw [List.mem_append] at h
        exact .inl h
      · exact .inr h
      · exact absurd h.2 (by decide)
    · exact .inr (hfn l hl)

theorem codeAt_of_eq {P : LP} {a b c : List BOp} (h : P.ops = a ++ (b ++ c)) : CodeAt P a.length b := by
  intro j o hj
  rw [h, List.getElem?_append_right (by omega), Nat.add_sub_cancel_left,
    List.getElem?_append_left (List.getElem?_eq_some_iff.1 hj).1, hj]

/-- Linking the compiled program never panics, and the linked program has the functions. -/
theorem linked {p : Program} {es : List Expr} {ops d c : List BOp} {s1 s2 : CS} (h : Compiled p es ops d c s1 s2) (D : Nat) :
    ∃ lops st, link ops = some (lops, st) ∧ (ops.length < tagSize → st.ctors.length ≤ tagSize →
      Lk.OK ⟨ops, lops, st, s2.fns, D⟩) := by
  obtain ⟨lops, st, h1, h2, h3⟩ := link_ok h.labels h.refs
  refine ⟨lops, st, h1, fun hs hc => ⟨h2, h3, fun f hf => ?_, hs, hc⟩⟩
  obtain ⟨a, b, hab⟩ := List.append_of_mem hf
  have e := h.whole
  simp only at hab
  rw [hab, List.flatten_append, List.flatten_cons, ← List.append_assoc] at e
  exact ⟨_, codeAt_of_eq (P := Lk.lp ⟨ops, lops, st, s2.fns, D⟩) e⟩

/-! ## Runs -/

theorem vmRun_steps {P : Lk} : ∀ {k : Nat} {s t : VM} (m : Nat), Steps P.lp k s t →
    vmRun P.lops P.st.consts (k + m) s = vmRun P.lops P.st.consts m t
  | 0, s, t, m, h => by
    cases h
    rw [Nat.zero_add]
  | k + 1, s, t, m, ⟨u, h1, h2⟩ => by
    rw [Nat.add_right_comm, vmRun]
    replace h1 : vmStep P.lops P.st.consts s = .next u := h1
    rw [h1]
    exact vmRun_steps m h2

theorem vmRun_short {P : Lk} : ∀ {k : Nat} {s t : VM} {m : Nat}, Steps P.lp k s t → m ≤ k →
    vmRun P.lops P.st.consts m s = .timeout
  | k, s, t, 0, h, _ => rfl
  | 0, s, t, m + 1, h, hm => absurd hm (by omega)
  | k + 1, s, t, m + 1, ⟨u, h1, h2⟩, hm => by
    rw [vmRun]
    replace h1 : vmStep P.lops P.st.consts s = .next u := h1
    rw [h1]
    exact vmRun_short h2 (by omega)

/-! ## Decoding -/

theorem decodeL_ok {P : LP} {ws : List TVal} {vs : List Val} (hl : vs.length = ws.length)
    (h : ∀ (j : Nat) v w, vs[j]? = some v → ws[j]? = some w → decode P.st.ctors w = some v.obs) :
    decodeL P.st.ctors ws = some (obsList vs) := by
  induction vs generalizing ws with
  | nil =>
    cases ws with
    | nil => rw [decodeL, obsList]
    | cons => simp at hl
  | cons v vs ih =>
    cases ws with
    | nil => simp at hl
    | cons w ws =>
      rw [decodeL, h 0 v w rfl rfl, Option.bind_some, ih (by simpa using hl)
        (fun j v' w' h1 h2 => h (j + 1) v' w' (by simpa using h1) (by simpa using h2)), obsList]
      rfl

theorem obsList_length : ∀ (vs : List Val), (obsList vs).length = vs.length
  | [] => by simp [obsList]
  | v :: vs => by simp [obsList, obsList_length vs]

theorem decode_ok {P : LP} (hP : P.OK) {v : Val} {w : TVal} (h : BRel P v w) : decode P.st.ctors w = some v.obs := by
  induction h with
  | int x => rw [decode, Val.obs]
  | bool x => rw [decode, Val.obs]
  | str x => rw [decode, Val.obs]
  | comp ht hl hm hr ih =>
    obtain ⟨i, h1, rfl⟩ := ht
    have g := indexOf_get h1
    have hlt : i < tagSize := Nat.lt_of_lt_of_le (List.getElem?_eq_some_iff.1 g).1 hP.ctors
    rw [decode, objTag_div hlt, if_neg (by decide), if_pos rfl, objTag_mod hlt, g]
    simp only
    rw [decodeL_ok hl ih, Option.bind_some, if_pos (by rw [obsList_length]; exact hm), Val.obs]
  | clo =>
    rw [decode, hP.clo_div (FnAt.use ‹_›), if_pos rfl, Val.obs]
  | rclo =>
    rw [decode, hP.clo_div (FnAt.use ‹_›), if_pos rfl, Val.obs]

theorem BRels.decode {P : LP} (hP : P.OK) {vs : List Val} {ws : List TVal} (h : BRels P vs ws) :
    decodeL P.st.ctors ws = some (obsList vs) :=
  decodeL_ok h.len fun j v w h1 h2 => decode_ok hP (h.has j v w h1 h2)

/-! ## The run of a program -/

/-- The code is small enough for 48-bit addresses and tags. -/
def SmallCode (p : Program) (es : List Expr) : Prop :=
  ∀ ops, compileProgram p es = some ops → ops.length < 2 ^ 48 ∧
    ∀ lops st, link ops = some (lops, st) → st.ctors.length ≤ 2 ^ 48

/-- What the theorems below assume of a program and expressions to evaluate. -/
structure BcProgram (p : Program) (es : List Expr) : Prop where
  named : WellNamed p
  shape : ∀ d ∈ p.defs, BcShape d.value
  exprs : ∀ e ∈ es, Good (p.defs.map (·.name)) e ∧ BcShape e
  small : SmallCode p es

/-- A bound on the sizes of the parts of a program. -/
noncomputable def bigSize (p : Program) (es : List Expr) : Nat := (p.defs.map fun d => sizeOf d.value).sum + sizeOf es

theorem le_sum_of_mem : ∀ {l : List Nat} {a : Nat}, a ∈ l → a ≤ l.sum
  | _ :: _, _, h => by
    rcases List.mem_cons.1 h with rfl | h
    · simp
    · have := le_sum_of_mem h
      simp; omega

theorem size_mem : ∀ {es : List Expr} {e : Expr}, e ∈ es → sizeOf e < sizeOf es
  | _ :: _, _, h => by
    rcases List.mem_cons.1 h with rfl | h
    · simp; omega
    · have := size_mem h
      simp; omega

/-- The run of the whole program, on any machine. -/
theorem lp_program {p : Program} {es : List Expr} (h : BcProgram p es) {ops d c : List BOp} {s1 s2 : CS} (h2 : Compiled p es ops d c s1 s2)
    {P : LP} (hP : P.OK) (hops : P.ops = ops) (hfns : P.fns = s2.fns) (hD : P.D = bigSize p es) (n : Nat) :
    Sim P (fun vs t => ∃ ws S, BRels P vs ws ∧ ws.length = es.length ∧ P.step t = .exit (ws.reverse ++ S)) n P.D
        (evalProgramA n p es) ⟨P.addr 0, []⟩ := by
  have hcode : CodeAt P 0 (.enter 0 s2.maxSize :: (d ++ (c ++ [.exit]))) :=
    codeAt_of_eq (a := []) (by rw [hops, h2.whole]; rfl)
  obtain ⟨o1, k1⟩ := hcode.cons
  obtain ⟨k1, k2⟩ := k1.append
  obtain ⟨k2, k3⟩ := k2.append
  have o3 := k3 0 _ rfl
  rw [Nat.add_zero] at o3
  have a0 : P.addr (0 + 1) = P.addr 0 := hP.silent o1 rfl
  obtain ⟨_, _, e1', z1, m1, i1⟩ := compDefs_ok p.defs [] ⟨0, [], 0, 0, []⟩ (wellNamed_iff.1 h.named) h.shape (fun x h => nomatch h)
  rw [h2.defs] at e1'
  cases e1'
  rw [List.append_nil] at i1
  have p2 := compL_post (top_cxX _) (fun e he => ⟨(h.exprs e he).1, (h.exprs e he).2, top_cxOK _⟩) h2.exprs i1 (top_cxInv _)
  rw [evalProgramA]
  have hdefs := defs_sim hP (n := n) p.defs [] ⟨0, [], 0, 0, []⟩ s1 d _ [] [] (wellNamed_iff.1 h.named) (fun d hd =>
    ⟨h.shape d hd, by
      rw [hD, bigSize]
      have := le_sum_of_mem (a := sizeOf d.value) (l := p.defs.map fun d => sizeOf d.value) (List.mem_map.2 ⟨d, hd, rfl⟩)
      omega⟩) h2.defs (by rw [hfns]; exact p2.emit.fns) k1 ⟨rfl, fun x h => nomatch h⟩
  rw [a0] at hdefs
  refine Sim.bind hdefs ?_
  rintro ρ t ⟨S, rfl, hS⟩
  rw [List.append_nil] at hS
  have hl := list_sim (simAt hP n) (top_cxX _) (ρ := ρ) (B := []) es s1 s2 c _ S (fun e he => ⟨(h.exprs e he).1, (h.exprs e he).2,
    top_cxOK _, by
      have := size_mem he
      rw [hD, bigSize]
      omega⟩) h2.exprs (by rw [hfns]; exact List.prefix_refl _) k2 (top_cxInv _) hS
  rw [List.append_nil] at hl
  refine Sim.post (Sim.weaken hl (by rw [hD, bigSize]; omega)) ?_
  rintro vs t ⟨ws, r, hwl, rfl⟩
  refine ⟨0, _, rfl, ws, S.reverse, r, hwl, ?_⟩
  rw [hP.step_exit o3]
  simp

/-- The run of the whole program. -/
theorem run_program {p : Program} {es : List Expr} (h : BcProgram p es) :
    ∃ ops, ∃ P : Lk, compileProgram p es = some ops ∧ link ops = some (P.lops, P.st) ∧ P.D = bigSize p es ∧ Lk.OK P ∧
      ∀ n, Sim P.lp (fun vs t => ∃ ws S, BRels P.lp vs ws ∧ ws.length = es.length ∧ P.step t = .exit (ws.reverse ++ S)) n P.D
        (evalProgramA n p es) ⟨0, []⟩ := by
  obtain ⟨ops, d, c, s1, s2, h1, h2⟩ := compiled h.named h.shape h.exprs
  obtain ⟨lops, st, h3, h4⟩ := linked h2 (bigSize p es)
  obtain ⟨q1, q2⟩ := h.small ops h1
  have hP := h4 q1 (q2 _ _ h3)
  refine ⟨ops, ⟨ops, lops, st, s2.fns, bigSize p es⟩, h1, h3, rfl, hP, fun n => ?_⟩
  have := lp_program h h2 hP.lp rfl rfl rfl n
  have a0 : (Lk.lp ⟨ops, lops, st, s2.fns, bigSize p es⟩).addr 0 = 0 := addrOf_zero ops
  rw [a0] at this
  exact this

end Tic.Core.Bc
