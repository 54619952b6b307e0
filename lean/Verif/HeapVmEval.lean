import Verif.HeapVmStart
/-
The heap machine from program to results.
-/
namespace Tic.Core
open Tic.Heap Tic.Core.Bc

/-! ### The tags in linked code -/

theorem mem_linkOps {m : List (Nat × Nat)} {lo : LOp} : ∀ {ops : List BOp} {st : LinkSt} {r : List LOp × LinkSt},
    linkOps m ops st = some r → lo ∈ r.1 → ∃ o, LinkedOp m r.2 o lo
  | [], st, r, h, hm => by
    cases h
    simp at hm
  | a :: ops, st, r, h, hm => by
    rw [linkOps] at h
    obtain ⟨r1, h1, h⟩ := Option.bind_eq_some_iff.1 h
    obtain ⟨r2, h2, h⟩ := Option.map_eq_some_iff.1 h
    subst h
    obtain ⟨g1, g2⟩ := linkOp_inv h1
    obtain ⟨g3, g4⟩ := linkOps_inv h2
    simp only [List.mem_append] at hm
    rcases hm with hm | hm
    · cases hsa : a.silent with
      | true =>
        rw [hsa, if_pos rfl] at g2
        rw [g2] at hm
        simp at hm
      | false =>
        rw [hsa, if_neg (by simp)] at g2
        obtain ⟨la, ea, hl⟩ := g2
        rw [ea, List.mem_singleton] at hm
        subst hm
        exact ⟨a, hl.le g3⟩
    · exact mem_linkOps (r := r2) h2 hm

theorem assoc_labelAddrs_le {l x : Nat} : ∀ {ops : List BOp} {a : Nat} {m : List (Nat × Nat)}, assoc l (labelAddrs ops a m) = some x →
    (∀ y, assoc l m = some y → y ≤ a) → x ≤ a + ops.length
  | [], a, m, h, hm => by
    rw [labelAddrs] at h
    exact Nat.le_trans (hm _ h) (by simp)
  | o :: ops, a, m, h, hm => by
    by_cases ho : ∃ k, o = .label k
    · obtain ⟨k, rfl⟩ := ho
      rw [labelAddrs] at h
      have := assoc_labelAddrs_le h (fun y hy => by
        rw [assoc] at hy
        split at hy
        · simp only [Option.some.injEq] at hy; omega
        · exact hm y hy)
      simp only [List.length_cons]; omega
    · rw [labelAddrs_cons (fun k hk => ho ⟨k, hk⟩)] at h
      have := assoc_labelAddrs_le h (fun y hy => by
        have := hm y hy
        split <;> omega)
      simp only [List.length_cons]
      split at this <;> omega

theorem indexOf_lt {x : Name} : ∀ {l : List Name} {i : Nat}, indexOf x l = some i → i < l.length
  | [], i, h => by simp [indexOf] at h
  | y :: ys, i, h => by
    rw [indexOf] at h
    split at h
    · simp only [Option.some.injEq] at h; simp [← h]
    · obtain ⟨j, hj, rfl⟩ := Option.map_eq_some_iff.1 h
      have := indexOf_lt hj
      simp; omega

/-- Code within the size limits makes objects with tags of functions and constructors only. -/
theorem goodOps_link {ops : List BOp} {lops : List LOp} {st : LinkSt} (e : link ops = some (lops, st))
    (h1 : ops.length < 2 ^ 48) (h2 : st.ctors.length ≤ 2 ^ 48) : GoodOps lops := by
  have hsz : tagSize = 2 ^ 48 := rfl
  intro tag n hm
  obtain ⟨o, ho⟩ := mem_linkOps e hm
  cases o with
  | construct c k =>
    obtain ⟨tag', e1, i, e2, e3⟩ := ho
    simp only [LOp.construct.injEq] at e1
    obtain ⟨rfl, rfl⟩ := e1
    have hi : i < tagSize := by
      have := indexOf_lt e2
      simp only at this
      omega
    subst e3
    refine ⟨Nat.or_lt_two_pow (by omega) (by unfold objTag; decide), ?_⟩
    rw [objTag_div hi]; decide
  | closure l k =>
    obtain ⟨a, e1, e2⟩ := ho
    simp only [LOp.construct.injEq] at e1
    obtain ⟨rfl, rfl⟩ := e1
    have ha : a < tagSize := by
      have := assoc_labelAddrs_le e2 (fun y hy => by simp [assoc] at hy)
      omega
    refine ⟨Nat.or_lt_two_pow (by omega) (by unfold fnTag; decide), ?_⟩
    rw [fnTag_div ha]; decide
  | enter a b => simp [LinkedOp] at ho
  | label l => exact absurd ho (by simp [LinkedOp])
  | pushStr s => obtain ⟨i, e1, _⟩ := ho; cases e1
  | jump l => obtain ⟨i, e1, _⟩ := ho; cases e1
  | jumpIfFalse l => obtain ⟨i, e1, _⟩ := ho; cases e1
  | branch l => obtain ⟨i, e1, _⟩ := ho; cases e1
  | _ => simp [LinkedOp] at ho

/-! ### Reading the results -/

/-- Enough fuel to read the value `v`. -/
def Enough (h : Heap) (n : Nat) : Value → Prop
  | .int _ => 0 < n
  | .ptr a => h.len < n + a ∧ 0 < n

theorem enough_fields {h : Heap} {addrs : List Nat} (hw : WF h addrs) {a n : Nat} (ha : a ∈ addrs) (hn : h.len < n + 1 + a) :
    ∀ v ∈ (objFields h a).2, Enough h n v := by
  intro v hv
  have hsz := hw.tiled.size a ha
  simp only [objFields, List.mem_map, List.mem_range] at hv
  obtain ⟨i, _, rfl⟩ := hv
  split
  · rename_i hb
    have := hw.ok.bits a ha i hb
    simp only [Enough]
    omega
  · simp only [Enough]; omega

mutual
theorem hvDecode_ok {rt : Runtime} {addrs : List Nat} (ctors : List Name) (hw : WF rt.heap addrs) (hne : rt.true_ ≠ rt.false_) :
    ∀ (w : TVal) (v : Value) (n : Nat), Rep rt.heap addrs rt.true_ rt.false_ w v → Enough rt.heap n v →
    hvDecode rt ctors n v = decode ctors w
  | .int x, v, n, h1, hn => by
    obtain rfl := h1.int_inv
    obtain ⟨n, rfl⟩ : ∃ k, n = k + 1 := ⟨n - 1, by simp only [Enough] at hn; omega⟩
    rw [hvDecode, decode]
  | .bool b, v, n, h1, hn => by
    obtain rfl := h1.bool_inv
    obtain ⟨n, rfl⟩ : ∃ k, n = k + 1 := ⟨n - 1, by simp only [Enough] at hn; omega⟩
    rw [hvDecode, decode]
    cases b with
    | true => rw [if_pos rfl, if_pos rfl]
    | false => rw [if_neg (by simpa using hne.symm), if_pos (by simp)]
  | .str s, v, n, h1, hn => by
    obtain ⟨a, rfl, ha, ht, hf, hs⟩ := h1.str_inv
    obtain ⟨n, rfl⟩ : ∃ k, n = k + 1 := ⟨n - 1, by simp only [Enough] at hn; omega⟩
    rw [hvDecode, if_neg ht, if_neg hf, if_pos (inHeap_of_mem hw ha), hvStr_of hw ha hs, hs.tag, decode]
    simp only [(strTag_mod hs.small).2]
    rfl
  | .obj tag fs, v, n, h1, hn => by
    obtain ⟨a, rfl, ha, ht, hf, htag, h1, hfs⟩ := h1.obj_inv
    obtain ⟨n, rfl⟩ : ∃ k, n = k + 1 := ⟨n - 1, by simp only [Enough] at hn; omega⟩
    have ih := hvDecodeL_ok ctors hw hne fs _ n hfs (enough_fields hw ha (by simp only [Enough] at hn; omega))
    rw [hvDecode, if_neg ht, if_neg hf, if_pos (inHeap_of_mem hw ha), htag, decode]
    simp only [h1, if_false, ih]
    rfl
theorem hvDecodeL_ok {rt : Runtime} {addrs : List Nat} (ctors : List Name) (hw : WF rt.heap addrs) (hne : rt.true_ ≠ rt.false_) :
    ∀ (ws : List TVal) (vs : List Value) (n : Nat), RepL rt.heap addrs rt.true_ rt.false_ ws vs → (∀ v ∈ vs, Enough rt.heap n v) →
    allSome (hvDecode rt ctors n) vs = decodeL ctors ws
  | [], vs, n, h1, hn => by
    obtain rfl := h1.nil_inv
    rw [allSome, decodeL]
  | w :: ws, vs, n, h1, hn => by
    obtain ⟨v, vs, rfl, h2, h3⟩ := h1.cons_inv
    rw [allSome, decodeL, hvDecode_ok ctors hw hne w v n h2 (hn v (by simp)),
      hvDecodeL_ok ctors hw hne ws vs n h3 (fun v hv => hn v (by simp [hv]))]
end

/-! ### From program to results -/

/-- The interpreter on the heap gives what the interpreter on trees gives, or hits a limit of the heap. -/
theorem heapEval_ok {p : Program} {es : List Expr} (hs : SmallCode p es) (n : Nat) (hp : bytecodeEval n p es ≠ .panic) :
    heapEval n p es = .limit ∨ heapEval n p es = .res (bytecodeEval n p es) := by
  unfold heapEval bytecodeEval at *
  cases hc : compileProgram p es with
  | none => exact .inr rfl
  | some ops =>
    rw [hc] at hp
    simp only [] at hp ⊢
    cases hl : link ops with
    | none => exact .inr rfl
    | some r =>
      obtain ⟨lops, st⟩ := r
      rw [hl] at hp
      simp only [] at hp ⊢
      obtain ⟨hs1, hs2⟩ := hs ops hc
      have hops := goodOps_link hl hs1 (hs2 lops st hl)
      cases hr : Runtime.start st.consts with
      | none => exact .inl rfl
      | some rt =>
        obtain ⟨addrs, hi⟩ := start_hinv hr
        simp only []
        have hp' : vmRun lops st.consts n ⟨0, []⟩ ≠ .panic := fun e => hp (by rw [e]; rfl)
        have hrun := hvRun_ok hops n hi hp'
        rcases hrun with hrun | hrun
        · rw [hrun]; exact .inl rfl
        · cases hv : vmRun lops st.consts n ⟨0, []⟩ with
          | ok stack =>
            rw [hv] at hrun
            obtain ⟨hs', addrs', ip, e, hi'⟩ := hrun
            rw [e]
            refine .inr ?_
            simp only [Res.bind]
            have hlen := hi'.stack.len
            simp only at hlen
            rw [← hlen]
            split
            · have hdec := hvDecodeL_ok st.ctors hi'.wf hi'.ne _ _ (hs'.rt.heap.len + 1) (hi'.stack.take es.length).reverse (fun v hv => by
                cases v with
                | int x => simp only [Enough]; omega
                | ptr a => simp only [Enough]; omega)
              rw [hdec]
              simp only []
              cases decodeL st.ctors (stack.take es.length).reverse <;> rfl
            · rfl
          | trap m => rw [hv] at hrun; rw [hrun]; exact .inr rfl
          | timeout => rw [hv] at hrun; rw [hrun]; exact .inr rfl
          | panic => exact absurd hv hp'

end Tic.Core
