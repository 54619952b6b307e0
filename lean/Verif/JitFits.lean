/-
When the operations of the JIT stay within the limits of the heap.
-/
import Verif.PropJitMean
import Verif.PropHeapVm

namespace Tic.Jit
open Tic.Core (BOp Op Intrinsic TVal VM VStep vmIntr Rep RepL HInv hvGc HVM HStep HOut Res Obs Val Program Expr Room treeBytesL tagSize stackPtrs hvFields_of hvStr_of inHeap_of_mem strTag_mod compileProgram evalProgram evalProgramA obsList)
open Tic.Core.Bc (LP Steps BRels Sim BcProgram)
open Tic.Heap (Heap Value Runtime allocObject allocBytes objBytes roundUp stringTag or_string_tag allocObject_spec allocBytes_spec)

section
variable {ops : List JOp} {consts : List (List UInt8)} {addrs : List Nat}

theorem jGc_fits {rt : Runtime} {st : List JVal} {ws : List TVal} {i ip : Nat} (hi : JInv ops consts ⟨i, ws⟩ ⟨ip, st, rt⟩ addrs)
    (hnd : (rt.consts ++ [rt.true_] ++ [rt.false_]).Nodup) (hcap : 256 ≤ rt.heap.len)
    (htab : rt.heap.len / 24 ≤ rt.heap.tableLen ∨
      rt.heap.len < 4 * ((rt.consts ++ [rt.true_] ++ [rt.false_]).map (Tic.Heap.sizeAt rt.heap.mem)).sum)
    (hb : treeBytesL (ws.map eT) + treeBytesL (consts.map .str) + 48 < 2 ^ 32) : ∃ S, jGc ip st rt = .next S ∧ Room S.rt := by
  obtain ⟨hs', h1, h2⟩ := Core.hvGc_fits hi.inv hnd hcap htab hb
  unfold hvGc at h1
  rw [← List.map_reverse, ← jPtrs_eq] at h1
  unfold jGc
  cases e : rt.maybeGc (jPtrs st.reverse) with
  | none => rw [e] at h1; cases h1
  | some r =>
    rw [e] at h1
    cases h1
    exact ⟨_, rfl, h2⟩

theorem jObject_fits {rt : Runtime} {st : List JVal} {ws fs : List TVal} {vals : List Value} {i ip tag : Nat} (hi : JInv ops consts ⟨i, ws⟩ ⟨ip, st, rt⟩ addrs) (hr : Room rt)
    (hv : RepL rt.heap addrs rt.true_ rt.false_ fs vals) (htag : tag < 2 ^ 64) (hcl : tag / tagSize ≠ 1) {n : Nat} (hn : vals.length = n) (h13 : n ≤ 13)
    (hb : treeBytesL ((TVal.obj tag fs :: ws).map eT) + treeBytesL (consts.map .str) + 48 < 2 ^ 32) :
    ∃ S, (if n ≤ 64 then
      match allocObject rt.heap tag vals with
      | some r => jGc ip (.ptr (UInt64.ofNat r.2) :: st) { rt with heap := r.1 }
      | none => .limit
    else .limit) = .next S ∧ Room S.rt := by
  subst hn
  have hl := hv.len
  have hfree := hr.free
  rw [if_pos (by omega)]
  obtain ⟨h', a, e, hA⟩ := allocObject_spec hi.inv.wf htag (by omega) (fun p hp => hv.mem hi.inv.true_ hi.inv.false_ _ hp)
    (vals := vals) (by simp only; omega)
  simp only at e
  rw [e]
  refine jGc_fits (hi.object hv htag hcl hA) hr.nodup ?_ ?_ hb
  · show 256 ≤ h'.len
    rw [hA.len]; exact hr.cap
  · exact Room.alloc hi.inv hr hA.old hA.len hA.tableLen

theorem jBytes_fits {rt : Runtime} {st : List JVal} {ws : List TVal} {i ip : Nat} {bs : List UInt8} (hi : JInv ops consts ⟨i, ws⟩ ⟨ip, st, rt⟩ addrs) (hr : Room rt)
    (hn : bs.length ≤ 104) (hb : treeBytesL ((TVal.str bs :: ws).map eT) + treeBytesL (consts.map .str) + 48 < 2 ^ 32) :
    ∃ S, jBytes ip st rt bs = .next S ∧ Room S.rt := by
  have hfree := hr.free
  have hru2 : roundUp bs.length ≤ 104 := by unfold roundUp; omega
  unfold jBytes
  obtain ⟨h', a, e, hA⟩ := allocBytes_spec hi.inv.wf (or_string_tag (show bs.length < 2 ^ 32 by omega)) (bs := bs) (by omega) (by
    simp only; omega)
  simp only at e
  rw [e]
  refine jGc_fits (hi.bytes (by omega) hA) hr.nodup ?_ ?_ hb
  · show 256 ≤ h'.len
    rw [hA.len]; exact hr.cap
  · exact Room.alloc hi.inv hr hA.old hA.len hA.tableLen

theorem jIntr_fits {ws ws' : List TVal} {S : JVM} {i ip : Nat} (hi : JInv ops consts ⟨i, ws⟩ S addrs) (hip : S.ip = ip) (hr : Room S.rt) (o : Intrinsic)
    (e : vmIntr o ws = some ws') (hn : ∀ bs st, ws' = .str bs :: st → bs.length ≤ 104)
    (hb : treeBytesL (ws'.map eT) + treeBytesL (consts.map .str) + 48 < 2 ^ 32) : ∃ S', jIntr ip S.rt o S.stack = .next S' ∧ Room S'.rt := by
  subst hip
  have hst := hi.stack
  have hw := hi.inv.wf
  have hsk := hi.ip
  simp only at hst hw
  cases o with
  | stringLen =>
    match ws, e, hst with
    | .str s :: ws, e, hst =>
      obtain ⟨v, vs, hvs, hv, hn, hst⟩ := hst.cons_inv
      obtain ⟨a, ea, ha, _, _, hs'⟩ := hv.str_inv
      obtain ⟨p, rfl, rfl⟩ := er_ptr ea
      rw [hvs, jIntr, hvFields_of hw ha]
      have e1 := strTag_mod hs'.small
      simp only []
      rw [show (Tic.Heap.objFields S.rt.heap p.toNat).1 = Tic.Heap.tagAt S.rt.heap.mem p.toNat from rfl, hs'.tag, if_pos e1.2]
      exact ⟨_, rfl, hr⟩
  | stringCharAt =>
    match ws, e, hst with
    | .str s :: .int x :: ws, e, hst =>
      simp only [vmIntr, Option.some.injEq] at e
      subst e
      obtain ⟨v, vs, hvs, hv, hn, hst⟩ := hst.cons_inv
      obtain ⟨a, ea, ha, _, _, hs'⟩ := hv.str_inv
      obtain ⟨p, rfl, rfl⟩ := er_ptr ea
      obtain ⟨v, vs, rfl, hv, hn, hst⟩ := hst.cons_inv
      rw [er_int hv.int_inv hn.symm] at hvs
      have fin : ∀ y : UInt64, ∃ S', jGc S.ip (.int y :: vs) S.rt = .next S' ∧ Room S'.rt := fun y =>
        jGc_fits (addrs := addrs) (ws := .int y :: ws) (hi.goto hsk (.cons (.int _) rfl hst)) hr.nodup hr.cap hr.table hb
      rw [hvs, jIntr, if_pos (inHeap_of_mem hw ha), hs'.tag, (strTag_mod hs'.small).1]
      have hget : x.toNat < s.length → (objBytes S.rt.heap p.toNat).2[x.toNat]? = s[x.toNat]? := fun hlt => by
        have h0 := congrArg (fun l => l[x.toNat]?) hs'.bytes
        simp only [List.getElem?_take_of_lt hlt] at h0
        exact h0
      split
      · rename_i hlt
        rw [hget hlt, List.getElem?_eq_getElem hlt]
        exact fin _
      · exact fin _
  | stringConcat =>
    match ws, e, hst with
    | .str s2 :: .str s1 :: ws, e, hst =>
      simp only [vmIntr, Option.some.injEq] at e
      subst e
      obtain ⟨v, vs, hvs, hv, _, hst1⟩ := hst.cons_inv
      obtain ⟨a2, e2, ha2, _, _, hs2⟩ := hv.str_inv
      obtain ⟨p2, rfl, rfl⟩ := er_ptr e2
      obtain ⟨v', vs', rfl, hv', hn', hst2⟩ := hst1.cons_inv
      obtain ⟨a1, e1, ha1, _, _, hs1⟩ := hv'.str_inv
      obtain ⟨p1, rfl, rfl⟩ := er_ptr e1
      rw [hvs, jIntr, hvStr_of hw ha2 hs2, hvStr_of hw ha1 hs1]
      exact jBytes_fits (addrs := addrs) (hi.goto hsk hst2) hr (hn _ _ rfl) hb
  | stringSubstring =>
    match ws, e, hst with
    | .str s :: .int len :: .int start :: ws, e, hst =>
      simp only [vmIntr, Option.some.injEq] at e
      subst e
      obtain ⟨v, vs, hvs, hv, _, hst⟩ := hst.cons_inv
      obtain ⟨a, ea, ha, _, _, hs'⟩ := hv.str_inv
      obtain ⟨p, rfl, rfl⟩ := er_ptr ea
      obtain ⟨v, vs, rfl, hv, hn1, hst⟩ := hst.cons_inv
      rw [er_int hv.int_inv hn1.symm] at hvs
      obtain ⟨v, vs, rfl, hv, hn2, hst⟩ := hst.cons_inv
      rw [er_int hv.int_inv hn2.symm] at hvs
      rw [hvs, jIntr, hvStr_of hw ha hs']
      exact jBytes_fits (addrs := addrs) (hi.goto hsk hst) hr (hn _ _ rfl) hb
  | stringFromChar =>
    match ws, e, hst with
    | .int x :: ws, e, hst =>
      simp only [vmIntr, Option.some.injEq] at e
      subst e
      obtain ⟨v, vs, hvs, hv, hn1, hst⟩ := hst.cons_inv
      rw [er_int hv.int_inv hn1.symm] at hvs
      rw [hvs, jIntr]
      exact jBytes_fits (addrs := addrs) (hi.goto hsk hst) hr (hn _ _ rfl) hb
  | intToString =>
    match ws, e, hst with
    | .int x :: ws, e, hst =>
      simp only [vmIntr, Option.some.injEq] at e
      subst e
      obtain ⟨v, vs, hvs, hv, hn1, hst⟩ := hst.cons_inv
      rw [er_int hv.int_inv hn1.symm] at hvs
      rw [hvs, jIntr]
      exact jBytes_fits (addrs := addrs) (hi.goto hsk hst) hr (hn _ _ rfl) hb

/-- Operations that do not allocate leave the heap alone and do not hit its limits. -/
theorem jvStep_rt {entries : List Nat} {S : JVM} (h1 : ∀ tag n, ops[S.ip]? ≠ some (.construct tag n)) (h2 : ∀ i, ops[S.ip]? ≠ some (.intr i)) :
    jvStep entries ops S ≠ .limit ∧ ∀ S', jvStep entries ops S = .next S' → S'.rt = S.rt := by
  unfold jvStep
  cases ho : ops[S.ip]? with
  | none => simp
  | some o =>
    rw [ho] at h1 h2
    cases o with
    | construct tag n => exact absurd rfl (h1 tag n)
    | intr i => exact absurd rfl (h2 i)
    | _ =>
      simp only []
      repeat' split
      all_goals first
        | contradiction
        | (rename_i heq _; cases heq; done)
        | (rename_i heq; cases heq; done)
        | exact ⟨by simp, by simp⟩
        | exact ⟨by simp, fun S' e => by cases e; rfl⟩

/-- The strings intrinsics make. -/
def SmallText (ops : List JOp) (s : VM) : Prop :=
  ∀ i bs st, ops[s.ip]? = some (.intr i) → vmIntr i s.stack = some (.str bs :: st) → bs.length ≤ 104

theorem jvStep_fits {entries : List Nat} (hops : GoodTags ops) (hf : ∀ tag n, JOp.construct tag n ∈ ops → n ≤ 13) {s : VM} {S : JVM} (hi : JInv ops consts s S addrs) (hip : S.ip = s.ip)
    (hr : Room S.rt) (hs1 : SmallText ops s) (hns : jmStep entries consts ops s ≠ .stuck)
    (hb : ∀ s', jmStep entries consts ops s = .next s' → treeBytesL (s'.stack.map eT) + treeBytesL (consts.map .str) + 48 < 2 ^ 32) :
    jvStep entries ops S ≠ .limit ∧ ∀ S', jvStep entries ops S = .next S' → Room S'.rt := by
  have done : (∃ S', jvStep entries ops S = .next S' ∧ Room S'.rt) → jvStep entries ops S ≠ .limit ∧ ∀ S', jvStep entries ops S = .next S' → Room S'.rt := by
    rintro ⟨S', e, h⟩
    rw [e]
    exact ⟨by simp, fun _ e => by cases e; exact h⟩
  obtain ⟨ip, ws⟩ := s
  obtain ⟨ip', vs, rt⟩ := S
  obtain rfl : ip' = ip := hip
  have hst := hi.stack
  simp only at hst
  by_cases hc : ∃ tag n, ops[ip']? = some (.construct tag n)
  · obtain ⟨tag, n, ho⟩ := hc
    have hmem := List.mem_iff_getElem?.2 ⟨_, ho⟩
    apply done
    unfold jvStep
    unfold jmStep at hns hb
    simp only [ho] at hns hb ⊢
    split at hns
    · rename_i hc
      simp only [if_pos hc] at hb
      obtain ⟨hn, hall⟩ := hc
      have hlt := hst.take n
      rw [jTake_eq (ops := ops) n vs (by rw [← hst.len]; exact hn) (hlt.isVal_of hall)]
      have hfs := hlt.rep.reverse
      rw [map_eT hall] at hfs
      exact jObject_fits (hi.goto (ip := ip' + 1) rfl (hst.drop n)) hr hfs (UInt64.toNat_lt tag) (hops tag n hmem)
        (by have := hst.len; simp; omega) (hf tag n hmem) (hb _ rfl)
    · exact absurd rfl hns
  · by_cases hc2 : ∃ i, ops[ip']? = some (.intr i)
    · obtain ⟨i, ho⟩ := hc2
      apply done
      unfold jvStep
      unfold jmStep at hns hb
      simp only [ho] at hns hb ⊢
      cases e : vmIntr i ws with
      | none => rw [e] at hns; exact absurd rfl hns
      | some ws' =>
        rw [e] at hb
        exact jIntr_fits (S := ⟨ip' + 1, vs, rt⟩) (hi.goto (ip := ip' + 1) rfl hst) rfl hr i e (fun bs st h => hs1 i bs st ho (h ▸ e)) (hb _ rfl)
    · obtain ⟨h1, h2⟩ := jvStep_rt (entries := entries) (ops := ops) (S := ⟨ip', vs, rt⟩) (fun tag n h => hc ⟨tag, n, h⟩) (fun i h => hc2 ⟨i, h⟩)
      refine ⟨h1, fun S' e => ?_⟩
      rw [h2 S' e]
      exact hr

/-! ### Runs that fit -/

/-- The operations on values, after `k` of them that do something. -/
def jmAfter (entries : List Nat) (consts : List (List UInt8)) (ops : List JOp) : Nat → VM → Option VM
  | 0, s => some s
  | k + 1, s => match jmStep entries consts ops s with
    | .next s => jmAfter entries consts ops k s
    | _ => none

/-- The operations stay within the limits of the heap: constants are below 4 GiB together; objects have at most 13 fields (constructors and captured variables); computed strings have at most 104 bytes; and what is on
the stack takes, without sharing, less than 4 GiB, with the constants. -/
structure JFits (a : Asm) : Prop where
  small : (a.link.consts.map fun s => s.length + 32).sum + 512 < 2 ^ 32
  fields : ∀ tag k, JOp.construct tag k ∈ a.ops → k ≤ 13
  run : ∀ k s, jmAfter a.entries a.link.consts a.ops k ⟨skip a.ops 0, []⟩ = some s →
    SmallText a.ops s ∧ treeBytesL (s.stack.map eT) + treeBytesL (a.link.consts.map .str) + 48 < 2 ^ 32

/-- After some steps of the machine on values, when they fit. -/
theorem jv_steps_fits {bops : List BOp} {a : Asm} {fns : List (List BOp)} {D : Nat} (hops : GoodTags a.ops) (hlen : a.ops.length < 2 ^ 64) (hf : ∀ tag n, JOp.construct tag n ∈ a.ops → n ≤ 13) :
    ∀ (k : Nat) {s t : VM} {S : JVM} {addrs : List Nat}, Core.Bc.Steps (jlp bops a fns D) k s t → JInv a.ops a.link.consts s S addrs → Room S.rt →
    (∀ j u, jmAfter a.entries a.link.consts a.ops j s = some u → SmallText a.ops u ∧ treeBytesL (u.stack.map eT) + treeBytesL (a.link.consts.map .str) + 48 < 2 ^ 32) →
    ∃ n, k ≤ n ∧ ∃ T addrs', JInv a.ops a.link.consts t T addrs' ∧ ∀ m, jvRun a.entries a.ops (n + m) S = jvRun a.entries a.ops m T
  | 0, s, t, S, addrs, h, hi, _, _ => by
    cases h
    exact ⟨0, Nat.le_refl _, S, addrs, hi, fun m => by rw [Nat.zero_add]⟩
  | k + 1, s, t, S, addrs, ⟨u, h1, h2⟩, hi, hr, hk => by
    have h1 : jmStep a.entries a.link.consts a.ops s = .next u := h1
    obtain ⟨d, hi', hd⟩ := jv_catch (entries := a.entries) hi (jmStep_lt (by rw [h1]; nofun))
    have hst := jvStep_ok (entries := a.entries) hops hi' rfl hlen
    have hk1 : ∀ j v, jmAfter a.entries a.link.consts a.ops j u = some v → jmAfter a.entries a.link.consts a.ops (j + 1) s = some v := fun j v e => by
      rw [jmAfter, h1]; exact e
    obtain ⟨g1, g2⟩ := jvStep_fits (entries := a.entries) hops hf hi' rfl hr (hk 0 s rfl).1 (by rw [h1]; nofun) (fun s' e => by
      rw [h1] at e
      cases e
      exact (hk 1 u (hk1 0 u rfl)).2)
    rw [h1] at hst
    rcases hst with hst | ⟨U, addrs1, hst, hU⟩
    · exact absurd hst g1
    · obtain ⟨n, hn, T, addrs', hT, hrun⟩ := jv_steps_fits hops hlen hf k h2 hU (g2 _ hst) fun j v e => hk (j + 1) v (hk1 j v e)
      refine ⟨d + (n + 1), by omega, T, addrs', hT, fun m => ?_⟩
      rw [Nat.add_assoc, hd, Nat.add_right_comm, jvRun, hst]
      exact hrun m

end

/-- The operations, run on the heap, give exactly what evaluating with arguments first gives, when they fit. -/
theorem jv_fits {p : Program} {es : List Expr} (h : BcProgram p es) (hf : ∀ ops a, compileProgram p es = some ops → assemble ops = some a → JFits a) :
    (∀ n vs, evalProgramA n p es = .ok vs → ∃ N, ∀ m, N ≤ m → jvEval m p es = .res (.ok (obsList vs))) ∧
    (∀ n msg, evalProgramA n p es = .trap msg → ∃ N, ∀ m, N ≤ m → jvEval m p es = .res (.trap msg)) ∧
    ((∀ n, evalProgramA n p es = .timeout) → ∀ m, jvEval m p es = .res .timeout) := by
  obtain ⟨ops, a, fns, h1, h2, hg, hlen, hP, hsim⟩ := jit_run h
  have hfit := hf ops a h1 h2
  obtain ⟨rt, addrs0, hr, hri⟩ := Tic.Heap.start_ok a.link.consts hfit.small
  have hroom : Room rt := ⟨hri.nodup, hri.cap, hri.free, hri.table⟩
  have hE : ∀ m, jvEval m p es = match jvRun a.entries a.ops m ⟨0, [], rt⟩ with
      | .limit => .limit
      | .res r => .res (r.bind fun s => decodeAll s.rt a.link.ctors (jTake es.length s.stack)) := fun m => by
    rw [jvEval]; simp only [h1, h2, hr]
    rfl
  obtain ⟨addrs, hi⟩ := jv_start a.ops hr
  refine ⟨fun n vs hv => ?_, fun n msg hv => ?_, fun hv m => ?_⟩
  · have hs := hsim n
    rw [hv] at hs
    obtain ⟨k, t, hk, ws, S, hb, hwl, hx⟩ := hs
    obtain ⟨N, _, T, addrs', hT, hN⟩ := jv_steps_fits hg hlen hfit.fields k hk hi hroom hfit.run
    obtain ⟨N', T', hN', hi', hst⟩ := jv_exit (entries := a.entries) hg hlen hT hx
    refine ⟨N + N', fun m hm => ?_⟩
    obtain ⟨j, rfl⟩ : ∃ j, m = N + (N' + j) := ⟨m - (N + N'), by omega⟩
    rw [hE, hN, hN', ← hwl]
    exact congrArg HOut.res (decodeAll_ok hP hi' hst hb)
  · have hs := hsim n
    rw [hv] at hs
    obtain ⟨k, t, hk, hx⟩ := hs
    obtain ⟨N, _, T, addrs', hT, hN⟩ := jv_steps_fits hg hlen hfit.fields k hk hi hroom hfit.run
    obtain ⟨N', hN'⟩ := jv_trap (entries := a.entries) hg hlen hT hx
    refine ⟨N + N', fun m hm => ?_⟩
    obtain ⟨j, rfl⟩ : ∃ j, m = N + (N' + j) := ⟨m - (N + N'), by omega⟩
    rw [hE, hN, hN']
    rfl
  · have hs := hsim ((m + 1) * (Core.Bc.bigSize p es + 1) + Core.Bc.bigSize p es)
    rw [hv] at hs
    obtain ⟨k, t, hk, hx⟩ := hs
    have hkm : m ≤ k := by
      refine Decidable.byContradiction fun hc => ?_
      have h3 : k * (Core.Bc.bigSize p es + 1) ≤ m * (Core.Bc.bigSize p es + 1) := Nat.mul_le_mul_right _ (by omega)
      have h4 : (m + 1) * (Core.Bc.bigSize p es + 1) = m * (Core.Bc.bigSize p es + 1) + (Core.Bc.bigSize p es + 1) := Nat.succ_mul _ _
      have hx : (m + 1) * (Core.Bc.bigSize p es + 1) + Core.Bc.bigSize p es ≤ k * (Core.Bc.bigSize p es + 1) + Core.Bc.bigSize p es := hx
      omega
    by_cases ht : jvRun a.entries a.ops m ⟨0, [], rt⟩ = .res .timeout
    · rw [hE, ht]; rfl
    · obtain ⟨N, hkN, T, addrs', hT, hN⟩ := jv_steps_fits hg hlen hfit.fields k hk hi hroom hfit.run
      have h5 := jvRun_stable m (N - m) ht
      rw [show m + (N - m) = N + 0 by omega, hN] at h5
      exact absurd h5.symm ht

/-- **C59, values, within the limits.**  Of a program whose constants, objects, strings and data fit, `jit::eval` gives the values of the evaluator, and no limit is reached. -/
theorem jit_values_fits {p : Program} {es : List Expr} (h : BcProgram p es) (hf : fitsProgram p es = true)
    (hr : ∀ ops a, compileProgram p es = some ops → assemble ops = some a → JFits a) (env : Env) (mem : Int → Word) {n : Nat} {vs : List Val}
    (hv : evalProgram n p es = .ok vs) : ∃ N, ∀ m, N ≤ m → jitEval env mem m p es = .res (.ok (obsList vs)) := by
  obtain ⟨N, hN⟩ := (jv_fits h hr).1 n vs ((Core.program_same n p es vs).1 hv)
  exact ⟨N, fun m hm => by rw [jit_same env mem m p es hf (by rw [hN m hm]; nofun), hN m hm]⟩

/-- **C59, traps, within the limits.** -/
theorem jit_traps_fits {p : Program} {es : List Expr} (h : BcProgram p es) (hf : fitsProgram p es = true)
    (hr : ∀ ops a, compileProgram p es = some ops → assemble ops = some a → JFits a) (env : Env) (mem : Int → Word) {n : Nat} {msg : String}
    (hv : evalProgramA n p es = .trap msg) : ∃ N, ∀ m, N ≤ m → jitEval env mem m p es = .res (.trap msg) := by
  obtain ⟨N, hN⟩ := (jv_fits h hr).2.1 n msg hv
  exact ⟨N, fun m hm => by rw [jit_same env mem m p es hf (by rw [hN m hm]; nofun), hN m hm]⟩

/-- **C59, endless programs, within the limits**: no amount of collecting and growing ends the run. -/
theorem jit_endless_fits {p : Program} {es : List Expr} (h : BcProgram p es) (hf : fitsProgram p es = true)
    (hr : ∀ ops a, compileProgram p es = some ops → assemble ops = some a → JFits a) (env : Env) (mem : Int → Word)
    (hv : ∀ n, evalProgramA n p es = .timeout) (m : Nat) : jitEval env mem m p es = .res .timeout := by
  have e := (jv_fits h hr).2.2 hv m
  rw [jit_same env mem m p es hf (by rw [e]; nofun), e]

/-! ### Checking that a program fits -/

def smallTextB (ops : List JOp) (s : VM) : Bool :=
  match ops[s.ip]? with
  | some (.intr i) => match vmIntr i s.stack with
    | some (.str bs :: _) => decide (bs.length ≤ 104)
    | _ => true
  | _ => true

/-- checks the states of a run -/
def jFitsB (entries : List Nat) (consts : List (List UInt8)) (ops : List JOp) : Nat → VM → Bool
  | n, s => smallTextB ops s && decide (treeBytesL (s.stack.map eT) + treeBytesL (consts.map .str) + 48 < 2 ^ 32) &&
    match n with
    | 0 => true
    | n + 1 => match jmStep entries consts ops s with
      | .next s => jFitsB entries consts ops n s
      | _ => true

theorem smallTextB_ok {ops : List JOp} {s : VM} (h : smallTextB ops s = true) : SmallText ops s := by
  intro i bs st h1 h2
  rw [smallTextB, h1] at h
  simp only [h2] at h
  simpa using h

theorem jFitsB_ok {entries : List Nat} {ops : List JOp} {consts : List (List UInt8)} : ∀ {n : Nat} {s : VM}, jFitsB entries consts ops n s = true → ∀ k s', k ≤ n →
    jmAfter entries consts ops k s = some s' → SmallText ops s' ∧ treeBytesL (s'.stack.map eT) + treeBytesL (consts.map .str) + 48 < 2 ^ 32
  | n, s, h, 0, s', _, e => by
    simp only [jmAfter, Option.some.injEq] at e
    subst e
    rw [jFitsB.eq_def] at h
    simp only [Bool.and_eq_true, decide_eq_true_eq] at h
    exact ⟨smallTextB_ok h.1.1, h.1.2⟩
  | 0, s, h, k + 1, s', hk, e => by omega
  | n + 1, s, h, k + 1, s', hk, e => by
    rw [jFitsB.eq_def] at h
    simp only [Bool.and_eq_true] at h
    rw [jmAfter] at e
    cases hv : jmStep entries consts ops s with
    | next s1 =>
      rw [hv] at h e
      exact jFitsB_ok h.2 k s' (by omega) e
    | exit st => rw [hv] at e; cases e
    | trap m => rw [hv] at e; cases e
    | stuck => rw [hv] at e; cases e

theorem jmAfter_none {entries : List Nat} {ops : List JOp} {consts : List (List UInt8)} : ∀ {n k : Nat} {s : VM}, jmAfter entries consts ops n s = none → n ≤ k →
    jmAfter entries consts ops k s = none
  | 0, k, s, h, _ => by simp [jmAfter] at h
  | n + 1, 0, s, h, hk => by omega
  | n + 1, k + 1, s, h, hk => by
    rw [jmAfter] at h ⊢
    cases hv : jmStep entries consts ops s with
    | next s1 => rw [hv] at h; exact jmAfter_none h (by omega)
    | exit st => rfl
    | trap m => rfl
    | stuck => rfl

/-- Checks that a program fits in the `n` operations after which it ends. -/
def jFitsProgB (n : Nat) (p : Program) (es : List Expr) : Bool :=
  match compileProgram p es with
  | none => false
  | some ops => match assemble ops with
    | none => false
    | some a =>
      decide ((a.link.consts.map fun s => s.length + 32).sum + 512 < 2 ^ 32) &&
      a.ops.all (fun o => match o with | .construct _ k => decide (k ≤ 13) | _ => true) &&
      jFitsB a.entries a.link.consts a.ops n ⟨skip a.ops 0, []⟩ && (jmAfter a.entries a.link.consts a.ops n ⟨skip a.ops 0, []⟩).isNone

theorem jFitsProgB_ok {n : Nat} {p : Program} {es : List Expr} (h : jFitsProgB n p es = true) (ops : List BOp) (a : Asm)
    (e1 : compileProgram p es = some ops) (e2 : assemble ops = some a) : JFits a := by
  rw [jFitsProgB, e1] at h
  simp only [e2, Bool.and_eq_true, decide_eq_true_eq, List.all_eq_true, Option.isNone_iff_eq_none] at h
  obtain ⟨⟨⟨h1, h2⟩, h3⟩, h4⟩ := h
  refine ⟨h1, fun tag k hm => ?_, fun k s e => ?_⟩
  · have := h2 _ hm
    simpa using this
  · by_cases hkn : k ≤ n
    · exact jFitsB_ok h3 k s hkn e
    · rw [jmAfter_none h4 (by omega)] at e
      cases e

/-! ### A program that fits -/

theorem exCells_jit : jFitsProgB 300 ⟨[], []⟩ [Core.exCells] = true := by decide +kernel

/-- A recursive function that builds a list of strings, in a heap that grows several times. -/
example : ∃ vs, evalProgram 40 ⟨[], []⟩ [Core.exCells] = .ok vs ∧ ∃ N, ∀ m, N ≤ m → jitEval exEnv exMem m ⟨[], []⟩ [Core.exCells] = .res (.ok (obsList vs)) := by
  have hv : (match evalProgram 40 ⟨[], []⟩ [Core.exCells] with | .ok _ => true | _ => false) = true := by decide +kernel
  cases hr : evalProgram 40 ⟨[], []⟩ [Core.exCells] with
  | ok vs => exact ⟨vs, rfl, jit_values_fits Core.exCells_bc (by decide +kernel) (jFitsProgB_ok exCells_jit) exEnv exMem hr⟩
  | trap msg => rw [hr] at hv; cases hv
  | panic => rw [hr] at hv; cases hv
  | timeout => rw [hr] at hv; cases hv

/-- The bound on strings is needed: `string_concat` of two strings of 200 bytes has a value, and no room in the heap of the JIT. -/
theorem jit_concat_fails : BcProgram ⟨[], []⟩ [Core.exConcat] ∧ fitsProgram ⟨[], []⟩ [Core.exConcat] = true ∧
    Core.seen (evalProgram 3 ⟨[], []⟩ [Core.exConcat]) = .ok [.str (List.replicate 400 97)] ∧ jitEval exEnv exMem 10 ⟨[], []⟩ [Core.exConcat] = .limit := by
  have hf : fitsProgram ⟨[], []⟩ [Core.exConcat] = true := by decide +kernel
  refine ⟨Core.exConcat_bc, hf, Core.concat_fails.2.1, ?_⟩
  have : (match jvEval 10 ⟨[], []⟩ [Core.exConcat] with | .limit => true | _ => false) = true := by decide +kernel
  have e : jvEval 10 ⟨[], []⟩ [Core.exConcat] = .limit := by
    cases hr : jvEval 10 ⟨[], []⟩ [Core.exConcat] with
    | limit => rfl
    | res r => rw [hr] at this; cases this
  rw [jit_same exEnv exMem 10 _ _ hf (by rw [e]; nofun), e]

end Tic.Jit
