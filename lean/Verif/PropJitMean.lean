/-
C59.  `jit::eval` computes what the language means: compiling, assembling, the operations on the heap and the machine code together give the values of the evaluator.
-/
import Verif.JitHeap
import Verif.JitExample

namespace Tic.Jit
open Tic.Core (Op Intrinsic BOp LinkSt Name Program Expr Obs Res HOut Val compileProgram allSome hvDecode tagSize objTag fnTag TVal VM VStep HInv evalProgram evalProgramA obsList decodeL Ref exLam exLamQ)
open Tic.Core.Bc (LP Steps BRels Compiled Sim BcProgram)
open Tic.Heap (Heap Value Runtime)

/-! ### Assembling succeeds -/

theorem fnLabels_sub {l : Nat} : ∀ {ops : List BOp} {ls : List Nat}, l ∈ fnLabels ops ls → l ∈ ls ∨ ∃ n, .closure l n ∈ ops
  | [], _, h => .inl h
  | o :: ops, ls, h => by
    cases o with
    | closure l' n =>
      rw [fnLabels] at h
      rcases fnLabels_sub h with h | ⟨n, h⟩
      · split at h
        · exact .inl h
        · rcases List.mem_append.1 h with h | h
          · exact .inl h
          · cases List.mem_singleton.1 h
            exact .inr ⟨n, by simp⟩
      · exact .inr ⟨n, List.mem_cons_of_mem _ h⟩
    | _ =>
      rw [fnLabels] at h
      · rcases fnLabels_sub h with h | ⟨n, h⟩
        · exact .inl h
        · exact .inr ⟨n, List.mem_cons_of_mem _ h⟩
      · intro l n e; cases e

theorem resolveOps_some {fl : List Nat} : ∀ (ops : List BOp) (st : LinkSt), (∀ l n, .closure l n ∈ ops → l ∈ fl) → ∃ r, resolveOps fl ops st = some r
  | [], st, _ => ⟨_, rfl⟩
  | o :: ops, st, h => by
    have ho : ∃ r, resolveOp fl st o = some r := by
      cases o with
      | closure l n =>
        obtain ⟨i, hi⟩ := fnIndex_some (h l n (by simp))
        exact ⟨_, by rw [resolveOp, hi]; rfl⟩
      | _ => exact ⟨_, rfl⟩
    obtain ⟨r, hr⟩ := ho
    obtain ⟨r', hr'⟩ := resolveOps_some ops r.2 fun l n hm => h l n (List.mem_cons_of_mem _ hm)
    exact ⟨_, by rw [resolveOps, hr, Option.bind_some, hr']; rfl⟩

theorem allSome_some {α β : Type} {f : α → Option β} : ∀ {l : List α}, (∀ a ∈ l, ∃ b, f a = some b) → ∃ bs, allSome f l = some bs
  | [], _ => ⟨_, rfl⟩
  | a :: l, h => by
    obtain ⟨b, hb⟩ := h a (by simp)
    obtain ⟨bs, hbs⟩ := allSome_some (l := l) fun x hx => h x (List.mem_cons_of_mem _ hx)
    exact ⟨_, by rw [allSome, hb, Option.bind_some, hbs]; rfl⟩

theorem assemble_some {ops : List BOp} (hr : ∀ l, Ref l ops → .label l ∈ ops) : ∃ a, assemble ops = some a := by
  obtain ⟨r, h1⟩ := resolveOps_some (fl := fnLabels ops []) ops {} fun l n hm => by
    obtain ⟨i, hi, e⟩ := List.mem_iff_getElem.1 hm
    exact fnLabels_mem (by rw [List.getElem?_eq_getElem hi, e])
  obtain ⟨es, h2⟩ := allSome_some (f := (labelPos · r.1)) (l := fnLabels ops []) fun l hl => by
    rcases fnLabels_sub hl with hl | ⟨n, hl⟩
    · cases hl
    · have hm := hr l ⟨_, hl, by simp [BOp.refs]⟩
      obtain ⟨i, hi, e⟩ := List.mem_iff_getElem.1 hm
      obtain ⟨j, hj, q⟩ := (resolveOps_inv h1).2.2 i _ (List.getElem?_eq_getElem hi)
      rw [e] at q
      cases q
      exact labelPos_isSome hj
  exact ⟨_, by rw [assemble, h1, Option.bind_some, h2]; rfl⟩

/-! ### Both backends number constructors alike -/

theorem resolveTable_st {m : List (Nat × Nat)} : ∀ {t : List (Name × Nat × Nat)} {st : LinkSt} {r}, Core.linkTable m t st = some r → (resolveTable t st).2 = r.2
  | [], st, r, h => by cases h; rfl
  | (c, l, n) :: t, st, r, h => by
    rw [Core.linkTable] at h
    simp only [Option.bind_eq_some_iff, Option.map_eq_some_iff] at h
    obtain ⟨a, h1, r', h2, rfl⟩ := h
    exact resolveTable_st (t := t) (r := r') h2

theorem resolveOp_st {m : List (Nat × Nat)} {fl : List Nat} {st : LinkSt} {o : BOp} {r r'} (h : Core.linkOp m st o = some r) (h' : resolveOp fl st o = some r') : r'.2 = r.2 := by
  cases o with
  | enter k u => cases k <;> cases h <;> cases h' <;> rfl
  | jump l | jumpIfFalse l =>
    obtain ⟨_, _, rfl⟩ := Option.map_eq_some_iff.1 h
    cases h'; rfl
  | closure l n =>
    obtain ⟨_, _, rfl⟩ := Option.map_eq_some_iff.1 h
    obtain ⟨_, _, rfl⟩ := Option.map_eq_some_iff.1 h'
    rfl
  | branch t =>
    obtain ⟨_, h1, rfl⟩ := Option.map_eq_some_iff.1 h
    cases h'
    exact resolveTable_st h1
  | _ => cases h; cases h'; rfl

theorem resolveOps_st {m : List (Nat × Nat)} {fl : List Nat} : ∀ {ops : List BOp} {st : LinkSt} {r r'}, Core.linkOps m ops st = some r → resolveOps fl ops st = some r' → r'.2 = r.2
  | [], st, r, r', h, h' => by cases h; cases h'; rfl
  | o :: ops, st, r, r', h, h' => by
    rw [Core.linkOps] at h
    rw [resolveOps] at h'
    obtain ⟨r1, h1, h⟩ := Option.bind_eq_some_iff.1 h
    obtain ⟨r2, h2, rfl⟩ := Option.map_eq_some_iff.1 h
    obtain ⟨r1', h1', h'⟩ := Option.bind_eq_some_iff.1 h'
    obtain ⟨r2', h2', rfl⟩ := Option.map_eq_some_iff.1 h'
    rw [resolveOp_st h1 h1'] at h2'
    exact resolveOps_st (ops := ops) (r := r2) (r' := r2') h2 h2'

theorem assemble_link {ops : List BOp} {a : Asm} {r} (h : assemble ops = some a) (h' : Core.link ops = some r) : a.link = r.2 := by
  obtain ⟨r1, h1, h⟩ := Option.bind_eq_some_iff.1 h
  obtain ⟨es, h2, rfl⟩ := Option.map_eq_some_iff.1 h
  exact resolveOps_st h' h1

/-- No string is built as an object. -/
theorem goodTags {ops : List BOp} {a : Asm} (h : Assembled ops a) (hs : ops.length < tagSize) (hc : a.link.ctors.length ≤ tagSize) : GoodTags a.ops := by
  intro tag n hm
  obtain ⟨i, hi, e⟩ := List.mem_iff_getElem.1 hm
  have hi' : i < ops.length := h.len ▸ hi
  obtain ⟨j, hj, q⟩ := h.at_ i _ (List.getElem?_eq_getElem hi')
  rw [List.getElem?_eq_getElem hi, e] at hj
  cases hj
  generalize ops[i] = o at q
  cases o with
  | construct c k =>
    obtain ⟨t, e, k, h1, rfl⟩ := q
    cases e
    have hk := (List.getElem?_eq_some_iff.1 (Core.indexOf_get h1)).1
    have hd := Core.Bc.objTag_div (a := k) (by omega)
    rw [UInt64.toNat_ofNat', Nat.mod_eq_of_lt (by rw [tagSize] at hd; omega), hd]
    decide
  | closure l k =>
    obtain ⟨t, e, h1⟩ := q
    simp only [JOp.construct.injEq] at e
    obtain ⟨rfl, rfl⟩ := e
    have h2 := (List.getElem?_eq_some_iff.1 (fnIndex_get h1)).1
    have h3 := fnLabels_length ops []
    simp only [List.length_nil] at h3
    have ht : t < tagSize := by omega
    simp only [tagSize, fnTag] at ht ⊢
    rw [UInt64.toNat_ofNat']
    omega
  | pushStr | branch => obtain ⟨_, e, _⟩ := q; cases e
  | _ => cases q

/-! ### From the program to the results -/

theorem jv_start {consts : List (List UInt8)} {rt : Runtime} (ops : List JOp) (h : Runtime.start consts = some rt) :
    ∃ addrs, JInv ops consts ⟨skip ops 0, []⟩ ⟨0, [], rt⟩ addrs := by
  obtain ⟨addrs, hi⟩ := Core.start_hinv h
  exact ⟨addrs, rfl, hi, rfl⟩

/-- Running longer changes nothing. -/
theorem jvRun_stable {entries : List Nat} {ops : List JOp} : ∀ (n : Nat) {S : JVM} (m : Nat), jvRun entries ops n S ≠ .res .timeout →
    jvRun entries ops (n + m) S = jvRun entries ops n S
  | 0, S, m, h => absurd rfl h
  | n + 1, S, m, h => by
    rw [Nat.add_right_comm, jvRun, jvRun]
    rw [jvRun] at h
    cases hs : jvStep entries ops S with
    | next S' => rw [hs] at h; exact jvRun_stable n m h
    | _ => rfl

/-- The result of the operations, when they end with these values. -/
theorem decodeAll_ok {ops : List JOp} {consts : List (List UInt8)} {addrs : List Nat} {ws0 : List TVal} {T : JVM} {P : LP} (hP : P.OK) {vs : List Val} {ws S : List TVal}
    (hi : HInv consts ⟨0, ws0⟩ ⟨0, T.stack.map (er ops), T.rt⟩ addrs) (h : JL ops T.rt.heap addrs T.rt.true_ T.rt.false_ (ws.reverse ++ S) T.stack) (hb : BRels P vs ws) :
    decodeAll T.rt P.st.ctors (jTake ws.length T.stack) = .ok (obsList vs) := by
  have hall : ws.reverse.all notRet = true := by
    refine all_notRet fun w hw => ?_
    exact hb.plain hP w (List.mem_reverse.1 hw)
  have ht := h.take ws.length
  rw [show (ws.reverse ++ S).take ws.length = ws.reverse by rw [← List.length_reverse (as := ws), List.take_left]] at ht
  rw [jTake_eq (ops := ops) _ _ (by have := h.len; simp at this; omega) (ht.isVal_of hall)]
  have hr := ht.rep
  rw [map_eT hall] at hr
  have hr := hr.reverse
  rw [List.reverse_reverse] at hr
  have hd := Core.hvDecodeL_ok (n := T.rt.heap.len + 1) P.st.ctors hi.wf hi.ne ws _ hr (fun v _ => by
    cases v with
    | int x => simp only [Core.Enough]; omega
    | ptr a => simp only [Core.Enough]; omega)
  rw [decodeAll, Option.bind_some, hd, hb.decode hP]

theorem jit_run {p : Program} {es : List Expr} (h : BcProgram p es) :
    ∃ ops a fns, compileProgram p es = some ops ∧ assemble ops = some a ∧ GoodTags a.ops ∧ a.ops.length < 2 ^ 64 ∧ (jlp ops a fns (Core.Bc.bigSize p es)).OK ∧
      ∀ n, Sim (jlp ops a fns (Core.Bc.bigSize p es)) (fun vs t => ∃ ws S, BRels (jlp ops a fns (Core.Bc.bigSize p es)) vs ws ∧ ws.length = es.length ∧
        jmStep a.entries a.link.consts a.ops t = .exit (ws.reverse ++ S)) n (Core.Bc.bigSize p es) (evalProgramA n p es) ⟨skip a.ops 0, []⟩ := by
  obtain ⟨ops, d, c, s1, s2, h1, h2⟩ := Core.Bc.compiled h.named h.shape h.exprs
  obtain ⟨a, ha⟩ := assemble_some h2.refs
  have hA := assembled ha h2.labels
  obtain ⟨lops, st, hl, _⟩ := Core.Bc.linked h2 0
  obtain ⟨q1, q2⟩ := h.small ops h1
  have e := assemble_link ha hl
  have hs : ops.length < tagSize := q1
  have hc : a.link.ctors.length ≤ tagSize := by rw [e]; exact q2 _ _ hl
  have hP := jlp_ok hA hs hc (fns := s2.fns) (D := Core.Bc.bigSize p es) (fun f hf => by
    obtain ⟨x, y, hxy⟩ := List.append_of_mem hf
    have e := h2.whole
    rw [hxy, List.flatten_append, List.flatten_cons, ← List.append_assoc] at e
    exact ⟨_, Core.Bc.codeAt_of_eq (P := jlp ops a s2.fns 0) e⟩)
  exact ⟨ops, a, s2.fns, h1, ha, goodTags hA hs hc, by rw [hA.len]; exact Nat.lt_trans hs (by decide), hP, fun n => Core.Bc.lp_program h h2 hP rfl rfl rfl n⟩

/-- The operations, run on the heap, give what evaluating with arguments first gives. -/
theorem jv_argsFirst {p : Program} {es : List Expr} (h : BcProgram p es) :
    (∀ n vs, evalProgramA n p es = .ok vs → ∃ N, ∀ m, N ≤ m → jvEval m p es = .limit ∨ jvEval m p es = .res (.ok (obsList vs))) ∧
    (∀ n msg, evalProgramA n p es = .trap msg → ∃ N, ∀ m, N ≤ m → jvEval m p es = .limit ∨ jvEval m p es = .res (.trap msg)) ∧
    ((∀ n, evalProgramA n p es = .timeout) → ∀ m, jvEval m p es = .limit ∨ jvEval m p es = .res .timeout) := by
  obtain ⟨ops, a, fns, h1, h2, hg, hlen, hP, hsim⟩ := jit_run h
  cases hr : Runtime.start a.link.consts with
  | none =>
    have : ∀ m, jvEval m p es = .limit := fun m => by rw [jvEval]; simp only [h1, h2, hr]
    exact ⟨fun _ _ _ => ⟨0, fun m _ => .inl (this m)⟩, fun _ _ _ => ⟨0, fun m _ => .inl (this m)⟩, fun _ m => .inl (this m)⟩
  | some rt =>
    have hE : ∀ m, jvEval m p es = match jvRun a.entries a.ops m ⟨0, [], rt⟩ with
        | .limit => .limit
        | .res r => .res (r.bind fun s => decodeAll s.rt a.link.ctors (jTake es.length s.stack)) := fun m => by
      rw [jvEval]; simp only [h1, h2, hr]
      rfl
    obtain ⟨addrs, hi⟩ := jv_start a.ops hr
    refine ⟨fun n vs hv => ?_, fun n msg hv => ?_, fun hv m => ?_⟩
    · have hs := hsim n
      rw [hv] at hs
      obtain ⟨k, t, hk, ws, S, hb, hwl, hx⟩ := hs
      obtain ⟨N, _, hN | ⟨T, addrs', hT, hN⟩⟩ := jv_steps hg hlen k hk hi
      · refine ⟨N, fun m hm => .inl ?_⟩
        rw [hE, ← Nat.add_sub_cancel' hm, hN]
      · obtain ⟨N', T', hN', hi', hst⟩ := jv_exit (entries := a.entries) hg hlen hT hx
        refine ⟨N + N', fun m hm => .inr ?_⟩
        obtain ⟨j, rfl⟩ : ∃ j, m = N + (N' + j) := ⟨m - (N + N'), by omega⟩
        rw [hE, hN, hN', ← hwl]
        exact congrArg HOut.res (decodeAll_ok hP hi' hst hb)
    · have hs := hsim n
      rw [hv] at hs
      obtain ⟨k, t, hk, hx⟩ := hs
      obtain ⟨N, _, hN | ⟨T, addrs', hT, hN⟩⟩ := jv_steps hg hlen k hk hi
      · refine ⟨N, fun m hm => .inl ?_⟩
        rw [hE, ← Nat.add_sub_cancel' hm, hN]
      · obtain ⟨N', hN'⟩ := jv_trap (entries := a.entries) hg hlen hT hx
        refine ⟨N + N', fun m hm => .inr ?_⟩
        obtain ⟨j, rfl⟩ : ∃ j, m = N + (N' + j) := ⟨m - (N + N'), by omega⟩
        rw [hE, hN, hN']
        rfl
    · have hs := hsim ((m + 1) * (Core.Bc.bigSize p es + 1) + Core.Bc.bigSize p es)
      rw [hv] at hs
      obtain ⟨k, t, hk, hx⟩ := hs
      have hkm : m ≤ k := by
        refine Decidable.byContradiction fun hc => ?_
        have h3 : k * (Core.Bc.bigSize p es + 1) ≤ m * (Core.Bc.bigSize p es + 1) := Nat.mul_le_mul_right _ (by omega)
        have h4 : (m + 1) * (Core.Bc.bigSize p es + 1) = m * (Core.Bc.bigSize p es + 1) + (Core.Bc.bigSize p es + 1) := Nat.succ_mul _ _
        have hx : (m + 1) * (Core.Bc.bigSize p es + 1) + Core.Bc.bigSize p es ≤ k * (Core.Bc.bigSize p es + 1) + Core.Bc.bigSize p es := hx
        omega
      by_cases ht : jvRun a.entries a.ops m ⟨0, [], rt⟩ = .res .timeout
      · rw [hE, ht]; exact .inr rfl
      · obtain ⟨N, hkN, hN⟩ := jv_steps hg hlen k hk hi
        have h5 := jvRun_stable m (N - m) ht
        rw [show m + (N - m) = N + 0 by omega] at h5
        rcases hN with hN | ⟨T, addrs', hT, hN⟩
        · rw [hE, ← h5, hN]; exact .inl rfl
        · rw [hN] at h5; exact absurd h5.symm ht

/-- **C59, values.**  Of every program the compiler takes, if the evaluator gives values, `jit::eval` gives the same ones, or reaches the limit of the heap: whatever registers and memory hold at the start, and however the
stack grows and the collector moves the heap. -/
theorem jit_values {p : Program} {es : List Expr} (h : BcProgram p es) (hf : fitsProgram p es = true) (env : Env) (mem : Int → Word) {n : Nat} {vs : List Val}
    (hv : evalProgram n p es = .ok vs) : ∃ N, ∀ m, N ≤ m → jitEval env mem m p es = .limit ∨ jitEval env mem m p es = .res (.ok (obsList vs)) := by
  obtain ⟨N, hN⟩ := (jv_argsFirst h).1 n vs ((Core.program_same n p es vs).1 hv)
  refine ⟨N, fun m hm => ?_⟩
  rcases hN m hm with e | e <;> rw [jit_same env mem m p es hf (by rw [e]; nofun), e]
  · exact .inl rfl
  · exact .inr rfl

/-- **C59, traps.**  If evaluating with arguments first traps, so does `jit::eval`, with the same message. -/
theorem jit_traps {p : Program} {es : List Expr} (h : BcProgram p es) (hf : fitsProgram p es = true) (env : Env) (mem : Int → Word) {n : Nat} {msg : String}
    (hv : evalProgramA n p es = .trap msg) : ∃ N, ∀ m, N ≤ m → jitEval env mem m p es = .limit ∨ jitEval env mem m p es = .res (.trap msg) := by
  obtain ⟨N, hN⟩ := (jv_argsFirst h).2.1 n msg hv
  refine ⟨N, fun m hm => ?_⟩
  rcases hN m hm with e | e <;> rw [jit_same env mem m p es hf (by rw [e]; nofun), e]
  · exact .inl rfl
  · exact .inr rfl

/-- **C59, endless programs.**  If evaluating with arguments first does not end, `jit::eval` ends only with the limit of the heap. -/
theorem jit_endless {p : Program} {es : List Expr} (h : BcProgram p es) (hf : fitsProgram p es = true) (env : Env) (mem : Int → Word)
    (hv : ∀ n, evalProgramA n p es = .timeout) (m : Nat) : jitEval env mem m p es = .limit ∨ jitEval env mem m p es = .res .timeout := by
  rcases (jv_argsFirst h).2.2 hv m with e | e <;> rw [jit_same env mem m p es hf (by rw [e]; nofun), e]
  · exact .inl rfl
  · exact .inr rfl

/-- **C59, both backends.**  If the bytecode interpreter gives values, `jit::eval` gives the same ones, or reaches the limit of the heap; and if it traps, so does `jit::eval`, with the same message. -/
theorem jit_bytecode {p : Program} {es : List Expr} (h : BcProgram p es) (hf : fitsProgram p es = true) (hp : ∀ n, evalProgramA n p es ≠ .panic) (env : Env) (mem : Int → Word) {k : Nat} {r : Res (List Obs)}
    (hr : Core.bytecodeEval k p es = r) (ht : r ≠ .timeout) : ∃ N, ∀ m, N ≤ m → jitEval env mem m p es = .limit ∨ jitEval env mem m p es = .res r := by
  obtain ⟨h1, h2, h3⟩ := Core.bytecode_argsFirst h
  by_cases hall : ∀ n, evalProgramA n p es = .timeout
  · exact absurd (hr.symm.trans (h3 hall k)) ht
  · obtain ⟨n, hn⟩ := Classical.not_forall.1 hall
    cases hv : evalProgramA n p es with
    | timeout => exact absurd hv hn
    | panic => exact absurd hv (hp n)
    | ok vs =>
      obtain ⟨K, hK⟩ := h1 n vs hv
      have hk : K < k := Decidable.byContradiction fun hc => ht (hr.symm.trans ((hK k).1 (by omega)))
      have e : r = .ok (obsList vs) := hr.symm.trans ((hK k).2 hk)
      obtain ⟨N, hN⟩ := (jv_argsFirst h).1 n vs hv
      refine ⟨N, fun m hm => ?_⟩
      rcases hN m hm with e' | e' <;> rw [jit_same env mem m p es hf (by rw [e']; nofun), e']
      · exact .inl rfl
      · exact .inr (by rw [e])
    | trap msg =>
      obtain ⟨K, hK⟩ := h2 n msg hv
      have hk : K < k := Decidable.byContradiction fun hc => ht (hr.symm.trans ((hK k).1 (by omega)))
      have e : r = .trap msg := hr.symm.trans ((hK k).2 hk)
      obtain ⟨N, hN⟩ := jit_traps h hf env mem hv
      exact ⟨N, fun m hm => by rw [e]; exact hN m hm⟩

/-- The hypotheses hold of a program with functions that return functions, recursion and objects, and it gives a value. -/
example : ∃ N, ∀ m, N ≤ m → jitEval exEnv exMem m exLam [exLamQ] = .limit ∨ jitEval exEnv exMem m exLam [exLamQ] = .res (.ok [.comp 7 [.int 126, .fn]]) := by
  have hv : Core.seen (evalProgram 20 exLam [exLamQ]) = .ok [.comp 7 [.int 126, .fn]] := by rfl
  cases hr : evalProgram 20 exLam [exLamQ] with
  | ok vs =>
    rw [hr] at hv
    obtain ⟨N, hN⟩ := jit_values Core.exLam_bc (by decide +kernel) exEnv exMem hr
    simp only [Core.seen, Res.bind_ok, Res.ok.injEq] at hv
    exact ⟨N, fun m hm => hv ▸ hN m hm⟩
  | trap msg => rw [hr] at hv; cases hv
  | panic => rw [hr] at hv; cases hv
  | timeout => rw [hr] at hv; cases hv

/-- The condition on literals is needed: without it the machine code gives something else than the evaluator. -/
theorem jit_wrong_literal : BcProgram ⟨[], []⟩ [.int 3000000000] ∧ Core.seen (evalProgram 5 ⟨[], []⟩ [.int 3000000000]) = .ok [.int 3000000000] ∧
    jitEval exEnv exMem 20 ⟨[], []⟩ [.int 3000000000] = .res (.ok [.int 18446744072414584320]) := by
  refine ⟨⟨Core.wnB_ok (by decide), fun d h => (nomatch h), fun e he => ?_, ?_⟩, by rfl, pushInt_wrong.2⟩
  · rw [List.mem_singleton.1 he]
    refine ⟨?_, Core.bcShapeB_ok (by decide)⟩
    have : Core.WellNamed ⟨[], [⟨8, none, .int, .int 3000000000⟩]⟩ := Core.wnB_ok (by decide)
    have h := Core.wellNamed_iff.1 this
    simp only [Core.defPairs, List.map_cons, Core.lets] at h
    exact (Core.good_let.1 h).1
  · intro ops h
    have h0 : (compileProgram ⟨[], []⟩ [.int 3000000000]).map (fun ops => decide (ops.length < 2 ^ 48 ∧
        (∀ ls ∈ Core.link ops, ls.2.ctors.length ≤ 2 ^ 48))) = some true := by decide +kernel
    rw [h, Option.map_some, Option.some.injEq, decide_eq_true_eq] at h0
    exact ⟨h0.1, fun lops st hl => h0.2 _ hl⟩

end Tic.Jit
