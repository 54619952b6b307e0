import Verif.BytecodeRun
/-
Function bodies and calls.
-/
namespace Tic.Core.Bc

/-- The environment of a function body. -/
def fnEnv (ρ : Env) (ps : List Name) (r : Option Name) (b : Expr) (vs : List Val) : Env :=
  match r with
  | none => bindAll ρ ps vs
  | some f => (f, .rclo ρ f ps b) :: bindAll ρ ps vs

/-- The frame at the start of a function body. -/
theorem body_conf {P : LP} {ps r cn b i n0 st s1 code} (hf : FnAt P ps r cn b i n0 st s1 code) {ρ : Env} {caps : List TVal}
    (hc : BCaps P cn ρ caps) {vs : List Val} {ws : List TVal} (hv : BRels P vs ws) (hl : ps.length = vs.length) {ra : UInt64} :
    BConf P (cn ++ (ps ++ r.toList)) st (fnEnv ρ ps r b vs) (ws ++ (.obj (P.clo i) caps :: P.ret ra :: caps)) := by
  have hlay := fnStart_inv hf.good.nodup hf.start
  have hwl : ws.length = ps.length := by rw [hl, hv.len]
  have hnd := hf.good.nodup
  rw [List.nodup_append] at hnd
  obtain ⟨nd1, nd2, nd3⟩ := hnd
  have hrec : ∀ f, r = some f → f ∉ ps ∧ f ∉ cn := by
    intro f hr
    subst hr
    rw [Option.toList_some, List.singleton_append, List.nodup_cons] at nd2
    exact ⟨fun h => nd3 f h f (by simp) rfl, nd2.1⟩
  have look : ∀ x, (∀ f, r = some f → x ≠ f) → lookup x (fnEnv ρ ps r b vs) = lookup x (bindAll ρ ps vs) := by
    intro x hx
    unfold fnEnv
    split
    · rfl
    · rename_i f
      rw [lookup, if_neg (fun h => hx f rfl h.symm)]
  refine ⟨by rw [hlay.size]; simp only [List.length_append, List.length_cons, hc.len, hwl]; omega, fun x hx => ?_⟩
  rw [List.mem_append, List.mem_append] at hx
  rcases hx with hx | hx | hx
  · obtain ⟨j, hj⟩ := List.mem_iff_getElem?.1 hx
    obtain ⟨v, w, h1, h2, h3⟩ := hc.has j x hj
    refine ⟨_, v, w, hlay.caps j x hj, ?_, ?_, h3⟩
    · rw [look x fun f hr he => (hrec f hr).2 (he ▸ hx),
        lookup_bindAll_notMem (fun h => nd3 x h x (List.mem_append_right _ hx) rfl), h1]
    · rw [List.getElem?_append_right (by omega), hwl, show ps.length + 2 + j - ps.length = j + 1 + 1 by omega,
        List.getElem?_cons_succ, List.getElem?_cons_succ, h2]
  · obtain ⟨j, hj⟩ := List.mem_iff_getElem?.1 hx
    have hlt := (List.getElem?_eq_some_iff.1 hj).1
    have hvj : vs[j]? = some (vs[j]'(by omega)) := List.getElem?_eq_getElem (by omega)
    obtain ⟨w, h1, h2⟩ := hv.get hvj
    refine ⟨_, _, w, hlay.params j x hj, ?_, ?_, h2⟩
    · rw [look x fun f hr he => (hrec f hr).1 (he ▸ hx), lookup_bindAll_at nd1 hj hvj]
    · rw [Nat.zero_add, List.getElem?_append_left (by omega), h1]
  · cases r with
    | none => simp at hx
    | some f =>
      simp only [Option.toList_some, List.mem_singleton] at hx
      subst hx
      refine ⟨_, _, _, hlay.rec_ x rfl, by rw [fnEnv, lookup, if_pos rfl], ?_, .rclo hf hc.len hc.rel.1 hc.rel.2⟩
      rw [List.getElem?_append_right (by omega), hwl, Nat.sub_self, List.getElem?_cons_zero]

/-- From the start of a function body to its return. -/
theorem body_sim {P : LP} (hP : P.OK) {n : Nat} (IH : SimAt P n) {ps r cn b i n0 st s1 code}
    (hf : FnAt P ps r cn b i n0 st s1 code) {ρ : Env} {caps : List TVal} (hc : BCaps P cn ρ caps) {vs : List Val}
    {ws : List TVal} (hv : BRels P vs ws) (hl : ps.length = vs.length) {ra : UInt64} {B : List TVal} :
    Sim P (fun v t => ∃ w, BRel P v w ∧ t = ⟨ra.toNat, w :: B⟩) n P.D (evalA n (fnEnv ρ ps r b vs) b)
      ⟨P.addr (i + 3), (ws ++ (.obj (P.clo i) caps :: P.ret ra :: caps)).reverse ++ B⟩ := by
  have hlay := fnStart_inv hf.good.nodup hf.start
  have hwl : ws.length = ps.length := by rw [hl, hv.len]
  obtain ⟨u, hcode⟩ := hf.code
  rw [fnCode] at hcode
  have hco := hcode.append.2
  obtain ⟨hco, hret⟩ := hco.append
  have h := IH b ⟨st.size, n0 + 1, ps, r⟩ true (cn ++ (ps ++ r.toList)) st s1 code (i + 3) (fnEnv ρ ps r b vs)
    (ws ++ (.obj (P.clo i) caps :: P.ret ra :: caps)) B ra.toNat hf.good.good hf.good.shape hf.good.self_
    (fun _ p hp => by simp [show p ∈ ps from hp]) hf.comp hf.fns hco
    (fn_cxInv hlay (List.nodup_append.1 hf.good.nodup).1) (body_conf hf hc hv hl)
    (fun _ => ⟨ws, .obj (P.clo i) caps, ra, caps, [], by simp, rfl, hwl, by simp only; rw [hlay.size, hwl, hc.len],
      fun f hr => ⟨by simp only at hr; subst hr; simp, ρ, b, cn, i, n0, st, s1, code, by simp only at hr; subst hr; exact hf, rfl, rfl, hc, by
        simp only at hr; subst hr; rw [fnEnv, lookup, if_pos rfl]⟩⟩) hf.size
  refine Sim.post (Sim.weaken (z' := P.D) h (by have := hf.size; omega)) ?_
  rintro v t ⟨w, h1, rfl | ⟨_, rfl⟩⟩
  · refine ⟨1, _, .one ?_, w, h1, rfl⟩
    have e : (ws ++ (.obj (P.clo i) caps :: P.ret ra :: caps)).reverse ++ B =
      caps.reverse ++ (P.ret ra :: .obj (P.clo i) caps :: (ws.reverse ++ B)) := by simp
    rw [e]
    exact hP.step_ret (hret 0 _ rfl) (by rw [List.length_reverse, hc.len]) (by rw [List.length_reverse, hwl])
  · exact ⟨0, _, rfl, w, h1, rfl⟩

theorem addr_toNat {P : LP} (hP : P.OK) (j : Nat) : (UInt64.ofNat (P.addr j)).toNat = P.addr j := by
  rw [UInt64.toNat_ofNat']
  exact Nat.mod_eq_of_lt (Nat.lt_trans hP.addr_lt (by decide))

/-- A call, until it returns. -/
theorem call_sim {P : LP} (hP : P.OK) {n : Nat} (IH : SimAt P n) {fv : Val} {w : TVal} (hfv : BRel P fv w) {vs : List Val}
    {ws : List TVal} (hv : BRels P vs ws) {i : Nat} {T : List TVal} (hop : P.ops[i]? = some .call) :
    Sim P (fun v t => ∃ w, BRel P v w ∧ t = ⟨P.addr (i + 1), w :: T⟩) (n + 1) 0 (applyFn (evalA n) fv vs)
      ⟨P.addr i, w :: (ws.reverse ++ T)⟩ := by
  have main : ∀ {ps r cn b i' n0 st s1 code ρ caps}, FnAt P ps r cn b i' n0 st s1 code → BCaps P cn ρ caps →
      ps.length = vs.length → Sim P (fun v t => ∃ w, BRel P v w ∧ t = ⟨P.addr (i + 1), w :: T⟩) (n + 1) 0
        (evalA n (fnEnv ρ ps r b vs) b) ⟨P.addr i, .obj (P.clo i') caps :: (ws.reverse ++ T)⟩ := by
    intro ps r cn b i' n0 st s1 code ρ caps hf hc hl
    have hb := body_sim hP IH hf hc hv hl (ra := UInt64.ofNat (P.addr (i + 1))) (B := T)
    rw [addr_toNat hP] at hb
    obtain ⟨u, hcode⟩ := hf.code
    rw [fnCode] at hcode
    obtain ⟨o1, hcode⟩ := hcode.cons
    obtain ⟨o2, hcode⟩ := hcode.cons
    obtain ⟨o3, hcode⟩ := hcode.cons
    obtain ⟨k, hk⟩ := hP.steps_enter (T := ws.reverse ++ T) (r := P.ret (UInt64.ofNat (P.addr (i + 1))))
      (f := .obj (P.clo i') caps) o2 rfl (clo_plain hP hf.use) hc.len
    have a1 : P.addr (i' + 1) = P.addr i' := hP.silent o1 rfl
    have a3 : P.addr (i' + 3) = P.addr (i' + 2) := hP.silent o3 rfl
    have hcall := hP.step_call (T := ws.reverse ++ T) (j := i') (fs := caps) hop hf.use
    rw [a1] at hk
    refine Sim.pre ((Steps.one hcall).trans hk) ?_ (n := n) (z := P.D) ?_
    · rw [a3] at hb
      have e : (ws ++ (.obj (P.clo i') caps :: P.ret (UInt64.ofNat (P.addr (i + 1))) :: caps)).reverse ++ T =
        caps.reverse ++ (P.ret (UInt64.ofNat (P.addr (i + 1))) :: .obj (P.clo i') caps :: (ws.reverse ++ T)) := by simp
      rw [e] at hb
      exact hb
    · rw [Nat.add_mul]; omega
  cases hfv with
  | clo h1 h2 h3 h4 =>
    rw [applyFn]
    split
    · exact main (r := none) h1 (.mk' h2 h3 h4) ‹_›
    · trivial
  | rclo h1 h2 h3 h4 =>
    rw [applyFn]
    split
    · exact main (r := some _) h1 (.mk' h2 h3 h4) ‹_›
    · trivial
  | _ => trivial

end Tic.Core.Bc
