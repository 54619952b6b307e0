import Verif.BytecodeOK
/-
Linking: addresses of operations and labels.
-/
namespace Tic.Core

theorem addrOf_zero (ops : List BOp) : addrOf ops 0 = 0 := rfl

theorem addrOf_cons (o : BOp) (ops : List BOp) (i : Nat) :
    addrOf (o :: ops) (i + 1) = (if o.silent then 0 else 1) + addrOf ops i := by
  simp only [addrOf, List.take_succ_cons, List.filter_cons]
  cases o.silent with
  | true => simp
  | false => simp; omega

theorem addrOf_succ : ∀ {ops : List BOp} {i : Nat} {o : BOp}, ops[i]? = some o →
    addrOf ops (i + 1) = addrOf ops i + (if o.silent then 0 else 1)
  | [], _, _, h => by simp at h
  | a :: ops, 0, o, h => by
    simp only [List.getElem?_cons_zero, Option.some.injEq] at h
    subst h
    rw [addrOf_cons, addrOf_zero, addrOf_zero]; omega
  | a :: ops, i + 1, o, h => by
    rw [List.getElem?_cons_succ] at h
    rw [addrOf_cons, addrOf_cons, addrOf_succ h]; omega

theorem addrOf_le (ops : List BOp) (i : Nat) : addrOf ops i ≤ ops.length := by
  rw [addrOf]
  exact Nat.le_trans (List.length_filter_le _ _) (by rw [List.length_take]; exact Nat.min_le_right _ _)

/-! ## Labels -/

theorem labelAddrs_cons {o : BOp} {ops : List BOp} {a : Nat} {m : List (Nat × Nat)} (h : ∀ l, o ≠ .label l) :
    labelAddrs (o :: ops) a m = labelAddrs ops (if o.silent then a else a + 1) m := by
  cases o <;> first | rfl | exact absurd rfl (h _)

theorem labelAddrs_other {l : Nat} : ∀ {ops : List BOp} {a : Nat} {m : List (Nat × Nat)}, .label l ∉ ops →
    assoc l (labelAddrs ops a m) = assoc l m
  | [], _, _, _ => rfl
  | o :: ops, a, m, h => by
    rw [List.mem_cons, not_or] at h
    by_cases ho : ∃ k, o = .label k
    · obtain ⟨k, rfl⟩ := ho
      rw [labelAddrs, labelAddrs_other h.2, assoc, if_neg (fun e => h.1 (by rw [e]))]
    · rw [labelAddrs_cons (fun k hk => ho ⟨k, hk⟩), labelAddrs_other h.2]

theorem labelAddrs_at {l : Nat} : ∀ {ops : List BOp} {a : Nat} {m : List (Nat × Nat)} {i : Nat},
    ops.count (.label l) ≤ 1 → ops[i]? = some (.label l) → assoc l (labelAddrs ops a m) = some (a + addrOf ops i)
  | [], _, _, _, _, h => by simp at h
  | o :: ops, a, m, 0, hc, h => by
    simp only [List.getElem?_cons_zero, Option.some.injEq] at h
    subst h
    rw [labelAddrs, labelAddrs_other, assoc, if_pos rfl, addrOf_zero, Nat.add_zero]
    intro hm
    have := List.count_pos_iff.2 hm
    rw [List.count_cons] at hc
    simp only [beq_self_eq_true, if_true] at hc
    omega
  | o :: ops, a, m, i + 1, hc, h => by
    rw [List.getElem?_cons_succ] at h
    rw [List.count_cons] at hc
    by_cases ho : ∃ k, o = .label k
    · obtain ⟨k, rfl⟩ := ho
      rw [labelAddrs, labelAddrs_at (by omega) h, addrOf_cons]
      simp [BOp.silent]
    · rw [labelAddrs_cons (fun k hk => ho ⟨k, hk⟩), labelAddrs_at (by omega) h, addrOf_cons]
      cases o.silent <;> simp <;> omega

/-! ## Tables -/

theorem indexOf_get {x : Name} : ∀ {l : List Name} {i : Nat}, indexOf x l = some i → l[i]? = some x
  | [], _, h => by simp [indexOf] at h
  | y :: ys, i, h => by
    rw [indexOf] at h
    split at h
    · rename_i e
      cases h
      simp [e]
    · cases hi : indexOf x ys with
      | none => rw [hi] at h; cases h
      | some j =>
        rw [hi] at h
        simp only [Option.map_some, Option.some.injEq] at h
        subst h
        rw [List.getElem?_cons_succ]
        exact indexOf_get hi

theorem indexOf_append {x : Name} : ∀ {l l' : List Name} {i : Nat}, indexOf x l = some i → indexOf x (l ++ l') = some i
  | [], _, _, h => by simp [indexOf] at h
  | y :: ys, l', i, h => by
    rw [List.cons_append, indexOf]
    rw [indexOf] at h
    split
    · rename_i e
      rw [if_pos e] at h
      exact h
    · rename_i e
      rw [if_neg e] at h
      cases hi : indexOf x ys with
      | none => rw [hi] at h; cases h
      | some j => rw [indexOf_append hi]; rw [hi] at h; exact h

theorem indexOf_new {x : Name} : ∀ {l : List Name}, indexOf x l = none → indexOf x (l ++ [x]) = some l.length
  | [], _ => by simp [indexOf]
  | y :: ys, h => by
    rw [List.cons_append, indexOf]
    rw [indexOf] at h
    split at h
    · cases h
    · rename_i e
      rw [if_neg e]
      cases hi : indexOf x ys with
      | none => rw [indexOf_new hi]; rfl
      | some j => rw [hi] at h; cases h

/-- The tables only grow. -/
def LinkSt.Le (a b : LinkSt) : Prop := a.consts <+: b.consts ∧ a.ctors <+: b.ctors

theorem LinkSt.Le.refl (a : LinkSt) : a.Le a := ⟨List.prefix_refl _, List.prefix_refl _⟩
theorem LinkSt.Le.trans {a b c : LinkSt} (h : a.Le b) (h' : b.Le c) : a.Le c := ⟨h.1.trans h'.1, h.2.trans h'.2⟩

/-- The tag of a constructor. -/
def HasTag (st : LinkSt) (c : Name) (tag : Nat) : Prop := ∃ i, indexOf c st.ctors = some i ∧ tag = i ||| objTag

theorem HasTag.le {st st' : LinkSt} {c : Name} {tag : Nat} (h : HasTag st c tag) (hle : st.Le st') : HasTag st' c tag := by
  obtain ⟨i, h1, h2⟩ := h
  obtain ⟨t, ht⟩ := hle.2
  exact ⟨i, by rw [← ht]; exact indexOf_append h1, h2⟩

theorem resolve_le (st : LinkSt) (c : Name) : st.Le (st.resolve c).2 := by
  rw [LinkSt.resolve]
  split
  · exact .refl _
  · exact ⟨List.prefix_refl _, List.prefix_append _ _⟩

theorem resolve_tag (st : LinkSt) (c : Name) : HasTag (st.resolve c).2 c (st.resolve c).1 := by
  rw [LinkSt.resolve]
  split
  · rename_i i hi
    exact ⟨i, hi, rfl⟩
  · rename_i hi
    exact ⟨_, indexOf_new hi, rfl⟩

/-- A linked branch table. -/
inductive LinkedTable (m : List (Nat × Nat)) (st : LinkSt) : List (Name × Nat × Nat) → List (Nat × Nat) → Prop
  | nil : LinkedTable m st [] []
  | cons {c l k a tag t t'} : HasTag st c tag → assoc l m = some a → LinkedTable m st t t' →
      LinkedTable m st ((c, l, k) :: t) ((tag, a) :: t')

theorem LinkedTable.le {m st st' t t'} (h : LinkedTable m st t t') (hle : st.Le st') : LinkedTable m st' t t' := by
  induction h with
  | nil => exact .nil
  | cons h1 h2 _ ih => exact .cons (h1.le hle) h2 ih

theorem linkTable_inv {m : List (Nat × Nat)} : ∀ {t : List (Name × Nat × Nat)} {st : LinkSt} {r}, linkTable m t st = some r →
    st.Le r.2 ∧ LinkedTable m r.2 t r.1
  | [], st, r, h => by
    rw [linkTable] at h
    cases h
    exact ⟨.refl _, .nil⟩
  | (c, l, k) :: t, st, r, h => by
    rw [linkTable] at h
    obtain ⟨a, ha, h⟩ := Option.bind_eq_some_iff.1 h
    obtain ⟨r', hr, h⟩ := Option.map_eq_some_iff.1 h
    subst h
    obtain ⟨h1, h2⟩ := linkTable_inv hr
    exact ⟨(resolve_le st c).trans h1, .cons ((resolve_tag st c).le h1) ha h2⟩

theorem linkTable_ok {m : List (Nat × Nat)} : ∀ {t : List (Name × Nat × Nat)} {st : LinkSt},
    (∀ p ∈ t, (assoc p.2.1 m).isSome = true) → (linkTable m t st).isSome = true
  | [], st, _ => rfl
  | (c, l, k) :: t, st, h => by
    obtain ⟨a, ha⟩ := Option.isSome_iff_exists.1 (h (c, l, k) (by simp))
    obtain ⟨r, hr⟩ := Option.isSome_iff_exists.1 (linkTable_ok (t := t) (st := (st.resolve c).2) (fun p hp => h p (by simp [hp])))
    rw [linkTable, ha, Option.bind_some, hr]
    rfl

/-- What an operation is linked to. -/
def LinkedOp (m : List (Nat × Nat)) (st : LinkSt) : BOp → LOp → Prop
  | .pushInt x, lo => lo = .pushInt x
  | .pushBool b, lo => lo = .pushBool b
  | .pushStr s, lo => ∃ i, lo = .const i ∧ st.consts[i]? = some s
  | .pick d, lo => lo = .pick d
  | .set d, lo => lo = .set d
  | .popN n, lo => lo = .popN n
  | .swapPop, lo => lo = .swapPop
  | .arith o, lo => lo = .arith o
  | .jump l, lo => ∃ a, lo = .jump a ∧ assoc l m = some a
  | .jumpIfFalse l, lo => ∃ a, lo = .jumpIfFalse a ∧ assoc l m = some a
  | .ret p c, lo => lo = .ret p c
  | .call, lo => lo = .call
  | .enter _ _, lo => lo = .unpackUpvalues
  | .construct c n, lo => ∃ tag, lo = .construct tag n ∧ HasTag st c tag
  | .closure l n, lo => ∃ a, lo = .construct (a ||| fnTag) n ∧ assoc l m = some a
  | .branch t, lo => ∃ t', lo = .branch t' ∧ LinkedTable m st t t'
  | .trap msg, lo => lo = .trap msg
  | .intr i, lo => lo = .intr i
  | .label _, _ => False
  | .exit, lo => lo = .exit

theorem LinkedOp.le {m st st' o lo} (h : LinkedOp m st o lo) (hle : st.Le st') : LinkedOp m st' o lo := by
  cases o with
  | pushStr s =>
    obtain ⟨i, h1, h2⟩ := h
    obtain ⟨t, ht⟩ := hle.1
    exact ⟨i, h1, by rw [← ht, List.getElem?_append_left (List.getElem?_eq_some_iff.1 h2).1]; exact h2⟩
  | construct c n =>
    obtain ⟨tag, h1, h2⟩ := h
    exact ⟨tag, h1, h2.le hle⟩
  | branch t =>
    obtain ⟨t', h1, h2⟩ := h
    exact ⟨t', h1, h2.le hle⟩
  | _ => exact h

theorem linkOp_inv {m : List (Nat × Nat)} {st : LinkSt} {o : BOp} {r : List LOp × LinkSt} (h : linkOp m st o = some r) :
    st.Le r.2 ∧ (if o.silent then r.1 = [] else ∃ lo, r.1 = [lo] ∧ LinkedOp m r.2 o lo) := by
  cases o with
  | jump l =>
    obtain ⟨a, ha, h⟩ := Option.map_eq_some_iff.1 h
    subst h
    exact ⟨.refl _, by simp [BOp.silent, LinkedOp, ha]⟩
  | jumpIfFalse l =>
    obtain ⟨a, ha, h⟩ := Option.map_eq_some_iff.1 h
    subst h
    exact ⟨.refl _, by simp [BOp.silent, LinkedOp, ha]⟩
  | closure l n =>
    obtain ⟨a, ha, h⟩ := Option.map_eq_some_iff.1 h
    subst h
    exact ⟨.refl _, by simp [BOp.silent, LinkedOp, ha]⟩
  | branch t =>
    obtain ⟨a, ha, h⟩ := Option.map_eq_some_iff.1 h
    subst h
    obtain ⟨h1, h2⟩ := linkTable_inv ha
    exact ⟨h1, by simpa [BOp.silent, LinkedOp] using h2⟩
  | construct c n =>
    cases h
    exact ⟨resolve_le st c, by simpa [BOp.silent, LinkedOp] using resolve_tag st c⟩
  | pushStr s =>
    cases h
    exact ⟨⟨List.prefix_append _ _, List.prefix_refl _⟩, by simp [BOp.silent, LinkedOp]⟩
  | enter u k =>
    cases u with
    | zero => cases h; exact ⟨.refl _, by simp [BOp.silent]⟩
    | succ u => cases h; exact ⟨.refl _, by simp [BOp.silent, LinkedOp]⟩
  | label l => cases h; exact ⟨.refl _, by simp [BOp.silent]⟩
  | _ => cases h; exact ⟨.refl _, by simp [BOp.silent, LinkedOp]⟩

theorem linkOps_inv {m : List (Nat × Nat)} : ∀ {ops : List BOp} {st : LinkSt} {r : List LOp × LinkSt},
    linkOps m ops st = some r → st.Le r.2 ∧ ∀ (i : Nat) o, ops[i]? = some o → o.silent = false →
      ∃ lo, r.1[addrOf ops i]? = some lo ∧ LinkedOp m r.2 o lo
  | [], st, r, h => by
    cases h
    exact ⟨.refl _, fun i o h => by simp at h⟩
  | a :: ops, st, r, h => by
    rw [linkOps] at h
    obtain ⟨r1, h1, h⟩ := Option.bind_eq_some_iff.1 h
    obtain ⟨r2, h2, h⟩ := Option.map_eq_some_iff.1 h
    subst h
    obtain ⟨g1, g2⟩ := linkOp_inv h1
    obtain ⟨g3, g4⟩ := linkOps_inv h2
    refine ⟨g1.trans g3, fun i o ho hs => ?_⟩
    cases i with
    | zero =>
      simp only [List.getElem?_cons_zero, Option.some.injEq] at ho
      subst ho
      rw [if_neg (by simp [hs])] at g2
      obtain ⟨lo, e, hl⟩ := g2
      refine ⟨lo, ?_, hl.le g3⟩
      rw [e, addrOf_zero]
      rfl
    | succ i =>
      rw [List.getElem?_cons_succ] at ho
      obtain ⟨lo, e, hl⟩ := g4 i o ho hs
      refine ⟨lo, ?_, hl⟩
      rw [addrOf_cons]
      cases hsa : a.silent with
      | true =>
        rw [hsa, if_pos rfl] at g2
        rw [g2]
        simpa using e
      | false =>
        rw [hsa, if_neg (by simp)] at g2
        obtain ⟨la, ea, _⟩ := g2
        rw [ea]
        simp only [Bool.false_eq_true, if_false, List.singleton_append]
        rw [Nat.add_comm, List.getElem?_cons_succ]
        exact e

theorem linkOp_ok {m : List (Nat × Nat)} {st : LinkSt} {o : BOp} (h : ∀ l ∈ o.refs, (assoc l m).isSome = true) :
    (linkOp m st o).isSome = true := by
  cases o with
  | jump l =>
    obtain ⟨a, ha⟩ := Option.isSome_iff_exists.1 (h l (by simp [BOp.refs]))
    rw [linkOp, ha]; rfl
  | jumpIfFalse l =>
    obtain ⟨a, ha⟩ := Option.isSome_iff_exists.1 (h l (by simp [BOp.refs]))
    rw [linkOp, ha]; rfl
  | closure l n =>
    obtain ⟨a, ha⟩ := Option.isSome_iff_exists.1 (h l (by simp [BOp.refs]))
    rw [linkOp, ha]; rfl
  | branch t =>
    obtain ⟨r, hr⟩ := Option.isSome_iff_exists.1 (linkTable_ok (m := m) (t := t) (st := st) (fun p hp =>
      h p.2.1 (by simp only [BOp.refs, List.mem_map]; exact ⟨p, hp, rfl⟩)))
    rw [linkOp, hr]; rfl
  | enter u k => cases u <;> rfl
  | _ => rfl

theorem linkOps_ok {m : List (Nat × Nat)} : ∀ {ops : List BOp} {st : LinkSt}, (∀ l, Ref l ops → (assoc l m).isSome = true) →
    (linkOps m ops st).isSome = true
  | [], _, _ => rfl
  | o :: ops, st, h => by
    obtain ⟨r1, h1⟩ := Option.isSome_iff_exists.1 (linkOp_ok (st := st) (o := o) (fun l hl => h l (Ref.cons.2 (.inl hl))))
    obtain ⟨r2, h2⟩ := Option.isSome_iff_exists.1 (linkOps_ok (ops := ops) (st := r1.2) (fun l hl => h l (Ref.cons.2 (.inr hl))))
    rw [linkOps, h1, Option.bind_some, h2]
    rfl

/-- **Linking**: with every label defined once and every reference defined, linking succeeds, and the
operation at a position is at the address of that position. -/
theorem link_ok {ops : List BOp} (h1 : ∀ l, ops.count (.label l) ≤ 1) (h2 : ∀ l, Ref l ops → .label l ∈ ops) :
    ∃ lops st, link ops = some (lops, st) ∧
      (∀ (i : Nat) o, ops[i]? = some o → o.silent = false →
        ∃ lo, lops[addrOf ops i]? = some lo ∧ LinkedOp (labelAddrs ops 0 []) st o lo) ∧
      (∀ (i : Nat) l, ops[i]? = some (.label l) → assoc l (labelAddrs ops 0 []) = some (addrOf ops i)) := by
  have hl : ∀ (i : Nat) l, ops[i]? = some (.label l) → assoc l (labelAddrs ops 0 []) = some (addrOf ops i) := fun i l h => by
    rw [labelAddrs_at (h1 l) h, Nat.zero_add]
  obtain ⟨r, hr⟩ := Option.isSome_iff_exists.1 (linkOps_ok (m := labelAddrs ops 0 []) (ops := ops) (st := {}) (fun l hl' => by
    obtain ⟨i, hi⟩ := List.mem_iff_getElem?.1 (h2 l hl')
    rw [hl i l hi]; rfl))
  obtain ⟨_, g⟩ := linkOps_inv hr
  exact ⟨r.1, r.2, hr, g, hl⟩

end Tic.Core
