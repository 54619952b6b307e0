import Verif.Verify
import Verif.Scope
/-
What the verifier establishes about names: facts about its state.
-/
namespace Tic.Core

variable {L : Nat}

/-- Names in scope have been defined. -/
structure Pre (st : VSt) : Prop where
  sub : ∀ x ∈ st.inScope, x ∈ st.defined
  subTy : ∀ a ∈ st.inScopeTy, a ∈ st.definedTy

/-- From `st` to `st'` the names `bs` have been defined. -/
structure Grows (L : Nat) (st st' : VSt) (bs : List Name) : Prop where
  cnt : ∀ y, st'.defined.count y = bs.count y + st.defined.count y
  nodup : st.defined.Nodup → st'.defined.Nodup
  lt : ∀ y ∈ bs, y < L
  types : ∀ x ∈ st.defined, vget x st'.types = vget x st.types
  kinds : st'.kinds = st.kinds
  ctors : st'.ctors = st.ctors
  tys : ∀ a ∈ st.definedTy, a ∈ st'.definedTy

theorem Grows.refl (st : VSt) : Grows L st st [] := ⟨by simp, id, by simp, fun _ _ => rfl, rfl, rfl, fun _ h => h⟩

theorem Grows.sub {st st' : VSt} {bs : List Name} (h : Grows L st st' bs) {x : Name} (hx : x ∈ st.defined) : x ∈ st'.defined := by
  rw [← List.count_pos_iff] at hx ⊢
  have := h.cnt x
  omega

theorem Grows.mem {st st' : VSt} {bs : List Name} (h : Grows L st st' bs) {x : Name} (hx : x ∈ bs) : x ∈ st'.defined := by
  rw [← List.count_pos_iff] at hx ⊢
  have := h.cnt x
  omega

theorem Grows.trans {st st' st'' : VSt} {as bs : List Name} (h : Grows L st st' as) (h' : Grows L st' st'' bs) : Grows L st st'' (as ++ bs) :=
  ⟨fun y => by rw [h'.cnt, h.cnt, List.count_append]; omega, fun hn => h'.nodup (h.nodup hn),
    fun y hy => (List.mem_append.1 hy).elim (h.lt y) (h'.lt y),
    fun x hx => (h'.types x (h.sub hx)).trans (h.types x hx), h'.kinds.trans h.kinds, h'.ctors.trans h.ctors,
    fun a ha => h'.tys a (h.tys a ha)⟩

theorem Grows.perm {st st' : VSt} {as bs : List Name} (h : Grows L st st' as) (hc : ∀ y, bs.count y = as.count y) : Grows L st st' bs :=
  ⟨fun y => by rw [h.cnt, hc], h.nodup, fun y hy => h.lt y (by rw [← List.count_pos_iff] at hy ⊢; rw [← hc]; exact hy), h.types, h.kinds, h.ctors, h.tys⟩

/-- `Grows`, with the same names in scope before and after. -/
structure Chk (L : Nat) (st st' : VSt) (bs : List Name) : Prop extends Grows L st st' bs where
  inScope : st'.inScope = st.inScope
  inScopeTy : st'.inScopeTy = st.inScopeTy

theorem Chk.refl (st : VSt) : Chk L st st [] := ⟨.refl st, rfl, rfl⟩

theorem Chk.trans {st st' st'' : VSt} {as bs : List Name} (h : Chk L st st' as) (h' : Chk L st' st'' bs) : Chk L st st'' (as ++ bs) :=
  ⟨h.toGrows.trans h'.toGrows, h'.inScope.trans h.inScope, h'.inScopeTy.trans h.inScopeTy⟩

theorem Chk.pre {st st' : VSt} {bs : List Name} (h : Chk L st st' bs) (hp : Pre st) : Pre st' :=
  ⟨fun x hx => h.sub (hp.sub x (h.inScope ▸ hx)), fun a ha => h.tys a (hp.subTy a (h.inScopeTy ▸ ha))⟩

/-! ### Entering and leaving scopes -/

theorem enter_spec {st st' : VSt} {n : Name} (h : st.enter L n = some st') :
    n < L ∧ n ∉ st.defined ∧ st' = { st with defined := n :: st.defined, inScope := n :: st.inScope } := by
  unfold VSt.enter at h
  split at h
  · simp at h
  · split at h
    · simp at h
    · rename_i h1 h2
      exact ⟨Nat.lt_of_not_le h1, h2, (Option.some.inj h).symm⟩

theorem enter_ext {st st' : VSt} {n : Name} (h : st.enter L n = some st') : Grows L st st' [n] := by
  obtain ⟨h1, h2, rfl⟩ := enter_spec h
  refine ⟨fun y => ?_, fun hn => List.nodup_cons.2 ⟨h2, hn⟩, by simpa using h1, fun _ _ => rfl, rfl, rfl, fun _ h => h⟩
  simp only [List.count_cons, List.count_nil]; omega

theorem enterTy_spec {st st' : VSt} {v : TyVar} (h : st.enterTy v = some st') :
    v ∉ st.definedTy ∧ st' = { st with definedTy := v :: st.definedTy, inScopeTy := v :: st.inScopeTy } := by
  unfold VSt.enterTy at h
  split at h
  · simp at h
  · rename_i h2
    exact ⟨h2, (Option.some.inj h).symm⟩

theorem enterTy_ext {st st' : VSt} {v : TyVar} (h : st.enterTy v = some st') : Grows L st st' [] := by
  obtain ⟨-, rfl⟩ := enterTy_spec h
  exact ⟨by simp, id, by simp, fun _ _ => rfl, rfl, rfl, fun _ h => List.mem_cons_of_mem _ h⟩

theorem exit_spec {st st' : VSt} {n : Name} (h : st.exit n = some st') : st' = { st with inScope := st.inScope.filter (fun m => m != n) } := by
  unfold VSt.exit at h
  split at h
  · exact (Option.some.inj h).symm
  · simp at h

theorem exitTy_spec {st st' : VSt} {n : TyVar} (h : st.exitTy n = some st') : st' = { st with inScopeTy := st.inScopeTy.filter (fun m => m != n) } := by
  unfold VSt.exitTy at h
  split at h
  · exact (Option.some.inj h).symm
  · simp at h

theorem filter_all {α : Type} {p : α → Bool} {l : List α} (h : ∀ x ∈ l, p x = true) : l.filter p = l := List.filter_eq_self.2 h

theorem exits_spec : ∀ {ns : List Name} {st st' : VSt}, st.exits ns = some st' →
    st' = { st with inScope := st.inScope.filter (fun m => decide (m ∉ ns)) }
  | [], st, st', h => by
    simp only [VSt.exits, Option.some.injEq] at h; subst h
    rw [filter_all (by simp)]
  | n :: ns, st, st', h => by
    simp only [VSt.exits, Option.bind_eq_some_iff] at h
    obtain ⟨st1, h1, h2⟩ := h
    rw [exits_spec h2, exit_spec h1]
    simp only [List.filter_filter]
    congr 1
    refine List.filter_congr fun m _ => ?_
    by_cases h1 : m = n <;> by_cases h2 : m ∈ ns <;> simp [h1, h2]

theorem exitTys_spec : ∀ {ns : List TyVar} {st st' : VSt}, st.exitTys ns = some st' →
    st' = { st with inScopeTy := st.inScopeTy.filter (fun m => decide (m ∉ ns)) }
  | [], st, st', h => by
    simp only [VSt.exitTys, Option.some.injEq] at h; subst h
    rw [filter_all (by simp)]
  | n :: ns, st, st', h => by
    simp only [VSt.exitTys, Option.bind_eq_some_iff] at h
    obtain ⟨st1, h1, h2⟩ := h
    rw [exitTys_spec h2, exitTy_spec h1]
    simp only [List.filter_filter]
    congr 1
    refine List.filter_congr fun m _ => ?_
    by_cases h1 : m = n <;> by_cases h2 : m ∈ ns <;> simp [h1, h2]

/-! ### Types -/

mutual
theorem checkTy_chk : ∀ {t : Ty} {st st' : VSt}, Pre st → checkTy st t = some st' → Chk L st st' [] ∧ st'.types = st.types ∧ st'.defined = st.defined
  | .bool, st, st', _, h => by simp only [checkTy, Option.some.injEq] at h; subst h; exact ⟨.refl _, rfl, rfl⟩
  | .int, st, st', _, h => by simp only [checkTy, Option.some.injEq] at h; subst h; exact ⟨.refl _, rfl, rfl⟩
  | .string, st, st', _, h => by simp only [checkTy, Option.some.injEq] at h; subst h; exact ⟨.refl _, rfl, rfl⟩
  | .var v, st, st', _, h => by
    simp only [checkTy] at h
    split at h
    · simp only [Option.some.injEq] at h; subst h; exact ⟨.refl _, rfl, rfl⟩
    · simp at h
  | .named n args, st, st', hp, h => by
    simp only [checkTy] at h
    split at h
    · simp only [Option.bind_eq_some_iff] at h
      obtain ⟨k, -, h⟩ := h
      split at h
      · exact checkTys_chk hp h
      · simp at h
    · simp at h
  | .fn ps out, st, st', hp, h => by
    simp only [checkTy, Option.bind_eq_some_iff] at h
    obtain ⟨st1, h1, h2⟩ := h
    obtain ⟨a1, a2, a3⟩ := checkTys_chk hp h1
    obtain ⟨b1, b2, b3⟩ := checkTy_chk (a1.pre hp) h2
    exact ⟨a1.trans b1, b2.trans a2, b3.trans a3⟩
  | .abs v t, st, st', hp, h => by
    simp only [checkTy, Option.bind_eq_some_iff] at h
    obtain ⟨st1, h1, st2, h2, h3⟩ := h
    have e1 := enterTy_ext (L := L) h1
    obtain ⟨hv, rfl⟩ := enterTy_spec h1
    have hp1 : Pre { st with definedTy := v :: st.definedTy, inScopeTy := v :: st.inScopeTy } :=
      ⟨hp.sub, fun a ha => by
        rcases List.mem_cons.1 ha with rfl | ha
        · simp
        · exact List.mem_cons_of_mem _ (hp.subTy a ha)⟩
    obtain ⟨b1, b2, b3⟩ := checkTy_chk hp1 h2
    have h3 := exitTy_spec h3
    subst h3
    refine ⟨⟨?_, b1.inScope, ?_⟩, b2, b3⟩
    · exact ⟨fun y => (b1.cnt y).trans (by simp), b1.nodup, by simp, b1.types, b1.kinds, b1.ctors, fun a ha => b1.tys a (List.mem_cons_of_mem _ ha)⟩
    · show List.filter _ st2.inScopeTy = _
      rw [b1.inScopeTy]
      simp only [List.filter_cons, bne_self_eq_false, Bool.false_eq_true, if_false]
      exact filter_all fun x hx => by
        simp only [bne_iff_ne, ne_eq]; rintro rfl; exact hv (hp.subTy x hx)
theorem checkTys_chk : ∀ {ts : List Ty} {st st' : VSt}, Pre st → checkTys st ts = some st' → Chk L st st' [] ∧ st'.types = st.types ∧ st'.defined = st.defined
  | [], st, st', _, h => by simp only [checkTys, Option.some.injEq] at h; subst h; exact ⟨.refl _, rfl, rfl⟩
  | t :: ts, st, st', hp, h => by
    simp only [checkTys, Option.bind_eq_some_iff] at h
    obtain ⟨st1, h1, h2⟩ := h
    obtain ⟨a1, a2, a3⟩ := checkTy_chk hp h1
    obtain ⟨b1, b2, b3⟩ := checkTys_chk (a1.pre hp) h2
    exact ⟨a1.trans b1, b2.trans a2, b3.trans a3⟩
end

/-- `ns` have just been entered, with types `ts`. -/
structure Entered (L : Nat) (st st' : VSt) (ns : List Name) (ts : List Ty) : Prop extends Grows L st st' ns where
  inScope : st'.inScope = ns.reverse ++ st.inScope
  inScopeTy : st'.inScopeTy = st.inScopeTy
  fresh : ∀ n ∈ ns, n ∉ st.defined
  dist : ns.Nodup
  bound : ∀ n ∈ ns, (vget n st'.types).isSome = true

theorem Entered.pre {st st' : VSt} {ns : List Name} {ts : List Ty} (h : Entered L st st' ns ts) (hp : Pre st) : Pre st' :=
  ⟨fun x hx => by
    rw [h.inScope, List.mem_append, List.mem_reverse] at hx
    exact hx.elim h.mem fun hx => h.sub (hp.sub x hx),
   fun a ha => h.tys a (hp.subTy a (h.inScopeTy ▸ ha))⟩

theorem Entered.nil (st : VSt) : Entered L st st [] [] := ⟨.refl st, rfl, rfl, by simp, by simp, by simp⟩

theorem vget_cons {α : Type} {n m : Name} {v : α} {l : List (Name × α)} : vget n ((m, v) :: l) = if m = n then some v else vget n l := rfl

/-- Entering a name and giving it a type. -/
theorem entered_one {st st1 st2 : VSt} {n : Name} {t : Ty} (h : st.enter L n = some st1) (h1 : Chk L st1 st2 []) : Entered L st (st2.setTy n t) [n] [t] := by
  have e1 := enter_ext h
  obtain ⟨-, hn, rfl⟩ := enter_spec h
  have e2 := e1.trans h1.toGrows
  refine ⟨⟨e2.cnt, e2.nodup, e2.lt, fun x hx => ?_, e2.kinds, e2.ctors, e2.tys⟩, h1.inScope, h1.inScopeTy, by simpa using hn, by simp, ?_⟩
  · simp only [VSt.setTy, vget_cons]
    rw [if_neg (by rintro rfl; exact hn hx)]
    exact e2.types x hx
  · simp [VSt.setTy, vget_cons]

theorem Entered.trans {st st1 st2 : VSt} {ns ms : List Name} {ts us : List Ty} (h : Entered L st st1 ns ts) (h' : Entered L st1 st2 ms us) :
    Entered L st st2 (ns ++ ms) (ts ++ us) := by
  refine ⟨h.toGrows.trans h'.toGrows, ?_, h'.inScopeTy.trans h.inScopeTy, ?_, ?_, ?_⟩
  · rw [h'.inScope, h.inScope]; simp
  · intro n hn
    rcases List.mem_append.1 hn with hn | hn
    · exact h.fresh n hn
    · exact fun hd => h'.fresh n hn (h.sub hd)
  · rw [List.nodup_append]
    exact ⟨h.dist, h'.dist, fun a ha b hb hab => h'.fresh b hb (hab ▸ h.mem ha)⟩
  · intro n hn
    rcases List.mem_append.1 hn with hn | hn
    · rw [h'.types n (h.mem hn)]; exact h.bound n hn
    · exact h'.bound n hn

theorem enterPs_spec : ∀ {ps : List (Name × Ty)} {st st' : VSt}, Pre st → enterPs L st ps = some st' →
    Entered L st st' (ps.map (·.1)) (ps.map (·.2))
  | [], st, st', _, h => by simp only [enterPs, Option.some.injEq] at h; subst h; exact .nil _
  | (n, t) :: ps, st, st', hp, h => by
    simp only [enterPs, Option.bind_eq_some_iff] at h
    obtain ⟨st1, h1, st2, h2, h3⟩ := h
    have hp1 : Pre st1 := by
      obtain ⟨-, -, rfl⟩ := enter_spec h1
      exact ⟨fun x hx => by
        rcases List.mem_cons.1 hx with rfl | hx
        · simp
        · exact List.mem_cons_of_mem _ (hp.sub x hx), hp.subTy⟩
    have e := entered_one h1 (checkTy_chk (L := L) hp1 h2).1 (t := t)
    exact e.trans (enterPs_spec (e.pre hp) h3)

theorem enterBinds_spec {vars : List TyVar} {args : List Ty} : ∀ {ns : List Name} {fs : List Ty} {st st' : VSt}, ns.length = fs.length →
    enterBinds L vars args st ns fs = some st' → Pre st → Entered L st st' ns (fs.map (replaceAll vars args))
  | [], [], st, st', _, h, _ => by simp only [enterBinds, Option.some.injEq] at h; subst h; exact .nil _
  | [], _ :: _, _, _, hl, _, _ => by simp at hl
  | _ :: _, [], _, _, hl, _, _ => by simp at hl
  | n :: ns, f :: fs, st, st', hl, h, hp => by
    simp only [enterBinds, Option.bind_eq_some_iff] at h
    obtain ⟨st1, h1, h3⟩ := h
    have e := entered_one h1 (Chk.refl st1) (t := replaceAll vars args f)
    exact e.trans (enterBinds_spec (by simpa using hl) h3 (e.pre hp))

/-- Leaving the scope just entered. -/
theorem Entered.leave {st st1 st2 st3 : VSt} {ns bs : List Name} {ts : List Ty} (h : Entered L st st1 ns ts) (hp : Pre st) (hc : Chk L st1 st2 bs)
    (he : st2.exits ns = some st3) : Chk L st st3 (ns ++ bs) := by
  have he := exits_spec he
  subst he
  have e := h.toGrows.trans hc.toGrows
  refine ⟨⟨e.cnt, e.nodup, e.lt, e.types, e.kinds, e.ctors, e.tys⟩, ?_, hc.inScopeTy.trans h.inScopeTy⟩
  show List.filter _ st2.inScope = _
  rw [hc.inScope, h.inScope, List.filter_append]
  rw [List.filter_eq_nil_iff.2 (by simp), List.nil_append]
  exact filter_all fun x hx => decide_eq_true fun hn => h.fresh x hn (hp.sub x hx)

theorem exits_one {st : VSt} {n : Name} : st.exits [n] = st.exit n := by
  simp only [VSt.exits]; cases st.exit n <;> rfl

/-- `x` is in scope and has a type. -/
def Bnd (st : VSt) (x : Name) : Prop := x ∈ st.inScope ∧ (vget x st.types).isSome = true

theorem Chk.bnd {st st' : VSt} {bs : List Name} (h : Chk L st st' bs) (hp : Pre st) {x : Name} : Bnd st' x → Bnd st x := by
  rintro ⟨h1, h2⟩
  rw [h.inScope] at h1
  exact ⟨h1, h.types x (hp.sub x h1) ▸ h2⟩

theorem Entered.bnd {st st' : VSt} {ns : List Name} {ts : List Ty} (h : Entered L st st' ns ts) (hp : Pre st) {x : Name} (hx : x ∉ ns) :
    Bnd st' x → Bnd st x := by
  rintro ⟨h1, h2⟩
  rw [h.inScope, List.mem_append, List.mem_reverse] at h1
  have h1 := h1.resolve_left hx
  exact ⟨h1, h.types x (hp.sub x h1) ▸ h2⟩

theorem entered_let {st st1 : VSt} {n : Name} {t : Ty} (h : (st.setTy n t).enter L n = some st1) : Entered L st st1 [n] [t] := by
  obtain ⟨h1, h2, rfl⟩ := enter_spec h
  have : st.enter L n = some { st with defined := n :: st.defined, inScope := n :: st.inScope } := by
    unfold VSt.enter
    rw [if_neg (Nat.not_le.2 h1), if_neg (show n ∉ st.defined from h2)]
  exact entered_one this (Chk.refl _)

mutual
theorem checkExpr_chk : ∀ {e : Expr} {st : VSt} {r : Ty × VSt}, Pre st → checkExpr L st e = some r →
    Chk L st r.2 (binders e) ∧ ∀ x, Free x e → Bnd st x
  | .bool _, st, r, _, h => by
    simp only [checkExpr, Option.some.injEq] at h; subst h; exact ⟨.refl _, by simp [Free]⟩
  | .int _, st, r, _, h => by
    simp only [checkExpr, Option.some.injEq] at h; subst h; exact ⟨.refl _, by simp [Free]⟩
  | .str _, st, r, _, h => by
    simp only [checkExpr, Option.some.injEq] at h; subst h; exact ⟨.refl _, by simp [Free]⟩
  | .name n, st, r, _, h => by
    simp only [checkExpr] at h
    split at h
    · rename_i hn
      simp only [Option.bind_eq_some_iff, Option.some.injEq] at h
      obtain ⟨t, h1, rfl⟩ := h
      refine ⟨.refl _, fun x hx => ?_⟩
      simp only [Free] at hx
      subst hx
      exact ⟨hn, by rw [h1]; rfl⟩
    · simp at h
  | .trap m t, st, r, hp, h => by
    simp only [checkExpr, Option.bind_eq_some_iff, Option.some.injEq] at h
    obtain ⟨st1, h1, rfl⟩ := h
    exact ⟨(checkTy_chk hp h1).1, by simp [Free]⟩
  | .call f xs, st, r, hp, h => by
    simp only [checkExpr, Option.bind_eq_some_iff] at h
    obtain ⟨⟨t1, st1⟩, h1, h2⟩ := h
    obtain ⟨a1, a2⟩ := checkExpr_chk hp h1
    split at h2
    · split at h2
      · rename_i ps out _ hl
        simp only [Option.bind_eq_some_iff, Option.some.injEq] at h2
        obtain ⟨st2, h3, rfl⟩ := h2
        obtain ⟨b1, b2⟩ := checkArgs_chk (a1.pre hp) hl h3
        refine ⟨a1.trans b1, fun x hx => ?_⟩
        simp only [Free] at hx
        exact hx.elim (a2 x) fun hx => a1.bnd hp (b2 x hx)
      · simp at h2
    · simp at h2
  | .intr i xs, st, r, hp, h => by
    simp only [checkExpr] at h
    split at h
    · rename_i hl
      simp only [Option.bind_eq_some_iff, Option.some.injEq] at h
      obtain ⟨st2, h3, rfl⟩ := h
      obtain ⟨b1, b2⟩ := checkArgs_chk hp hl h3
      exact ⟨b1, b2⟩
    · simp at h
  | .ite c a b, st, r, hp, h => by
    simp only [checkExpr, Option.bind_eq_some_iff] at h
    obtain ⟨⟨t1, st1⟩, h1, h2⟩ := h
    obtain ⟨a1, a2⟩ := checkExpr_chk hp h1
    split at h2
    · simp only [Option.bind_eq_some_iff] at h2
      obtain ⟨⟨t2, st2⟩, h3, ⟨t3, st3⟩, h4, h5⟩ := h2
      obtain ⟨b1, b2⟩ := checkExpr_chk (a1.pre hp) h3
      have hab := a1.trans b1
      obtain ⟨c1, c2⟩ := checkExpr_chk (hab.pre hp) h4
      split at h5
      · simp only [Option.some.injEq] at h5; subst h5
        refine ⟨hab.trans c1, fun x hx => ?_⟩
        simp only [Free] at hx
        rcases hx with hx | hx | hx
        · exact a2 x hx
        · exact a1.bnd hp (b2 x hx)
        · exact hab.bnd hp (c2 x hx)
      · simp at h5
    · simp at h2
  | .op a o b, st, r, hp, h => by
    simp only [checkExpr, Option.bind_eq_some_iff] at h
    obtain ⟨⟨t1, st1⟩, h1, h2⟩ := h
    obtain ⟨a1, a2⟩ := checkExpr_chk hp h1
    split at h2
    · simp only [Option.bind_eq_some_iff] at h2
      obtain ⟨⟨t2, st2⟩, h3, h5⟩ := h2
      obtain ⟨b1, b2⟩ := checkExpr_chk (a1.pre hp) h3
      split at h5
      · simp only [Option.some.injEq] at h5; subst h5
        refine ⟨a1.trans b1, fun x hx => ?_⟩
        simp only [Free] at hx
        exact hx.elim (a2 x) fun hx => a1.bnd hp (b2 x hx)
      · simp at h5
    · simp at h2
  | .lam ps b, st, r, hp, h => by
    simp only [checkExpr, Option.bind_eq_some_iff, Option.some.injEq] at h
    obtain ⟨st1, h1, ⟨t2, st2⟩, h2, st3, h3, rfl⟩ := h
    have e := enterPs_spec hp h1
    obtain ⟨b1, b2⟩ := checkExpr_chk (e.pre hp) h2
    refine ⟨e.leave hp b1 h3, fun x hx => ?_⟩
    simp only [Free] at hx
    exact e.bnd hp hx.1 (b2 x hx.2)
  | .mtch e bs, st, r, hp, h => by
    simp only [checkExpr, Option.bind_eq_some_iff] at h
    obtain ⟨⟨t1, st1⟩, h1, h2⟩ := h
    obtain ⟨a1, a2⟩ := checkExpr_chk hp h1
    split at h2
    · simp only [Option.bind_eq_some_iff, Option.some.injEq] at h2
      obtain ⟨⟨t2, st2⟩, h3, t, -, rfl⟩ := h2
      obtain ⟨b1, b2⟩ := checkBranches_chk (a1.pre hp) h3
      refine ⟨a1.trans b1, fun x hx => ?_⟩
      simp only [Free] at hx
      exact hx.elim (a2 x) fun hx => a1.bnd hp (b2 x hx)
    · simp at h2
  | .con c tys xs, st, r, hp, h => by
    simp only [checkExpr, Option.bind_eq_some_iff] at h
    obtain ⟨d, h1, h2⟩ := h
    split at h2
    · rename_i hl
      simp only [Option.bind_eq_some_iff, Option.some.injEq] at h2
      obtain ⟨st2, h3, rfl⟩ := h2
      obtain ⟨b1, b2⟩ := checkFields_chk hp hl.2 h3
      exact ⟨b1, b2⟩
    · simp at h2
  | .let_ n a b, st, r, hp, h => by
    simp only [checkExpr, Option.bind_eq_some_iff, Option.some.injEq] at h
    obtain ⟨⟨t1, st1⟩, h1, st2, h2, ⟨t3, st3⟩, h3, st4, h4, rfl⟩ := h
    obtain ⟨a1, a2⟩ := checkExpr_chk hp h1
    have e := entered_let h2
    have hp1 := a1.pre hp
    obtain ⟨b1, b2⟩ := checkExpr_chk (e.pre hp1) h3
    have l := e.leave hp1 b1 (exits_one.trans h4)
    refine ⟨⟨(a1.trans l).toGrows.perm fun y => ?_, (a1.trans l).inScope, (a1.trans l).inScopeTy⟩, fun x hx => ?_⟩
    · simp only [binders, List.count_cons, List.count_append, List.count_nil]; omega
    · simp only [Free] at hx
      exact hx.elim (a2 x) fun hx => a1.bnd hp (e.bnd hp1 (by simpa using hx.1) (b2 x hx.2))
  | .letrec n t a b, st, r, hp, h => by
    simp only [checkExpr, Option.bind_eq_some_iff] at h
    obtain ⟨st0, h0, st1, h1, ⟨t2, st2⟩, h2, h3⟩ := h
    split at h3
    · simp only [Option.bind_eq_some_iff, Option.some.injEq] at h3
      obtain ⟨⟨t3, st3⟩, h3, st4, h4, rfl⟩ := h3
      have c0 := (checkTy_chk (L := L) hp h0).1
      have hp0 := c0.pre hp
      have e := entered_one h1 (Chk.refl st1) (t := t)
      obtain ⟨a1, a2⟩ := checkExpr_chk (e.pre hp0) h2
      obtain ⟨b1, b2⟩ := checkExpr_chk (a1.pre (e.pre hp0)) h3
      have l := e.leave hp0 (a1.trans b1) (exits_one.trans h4)
      refine ⟨c0.trans l, fun x hx => ?_⟩
      simp only [Free] at hx
      refine c0.bnd hp (e.bnd hp0 (by simpa using hx.1) ?_)
      exact hx.2.elim (a2 x) fun hx => a1.bnd (e.pre hp0) (b2 x hx)
    · simp at h3
  | .pi v e, st, r, hp, h => by
    simp only [checkExpr, Option.bind_eq_some_iff, Option.some.injEq] at h
    obtain ⟨st1, h1, ⟨t2, st2⟩, h2, st3, h3, rfl⟩ := h
    obtain ⟨hv, rfl⟩ := enterTy_spec h1
    have hp1 : Pre { st with definedTy := v :: st.definedTy, inScopeTy := v :: st.inScopeTy } :=
      ⟨hp.sub, fun a ha => by
        rcases List.mem_cons.1 ha with rfl | ha
        · simp
        · exact List.mem_cons_of_mem _ (hp.subTy a ha)⟩
    obtain ⟨b1, b2⟩ := checkExpr_chk hp1 h2
    have h3 := exitTy_spec h3
    subst h3
    refine ⟨⟨⟨b1.cnt, b1.nodup, b1.lt, b1.types, b1.kinds, b1.ctors, fun a ha => b1.tys a (List.mem_cons_of_mem _ ha)⟩, b1.inScope, ?_⟩, b2⟩
    show List.filter _ st2.inScopeTy = _
    rw [b1.inScopeTy]
    simp only [List.filter_cons, bne_self_eq_false, Bool.false_eq_true, if_false]
    exact filter_all fun x hx => by
      simp only [bne_iff_ne, ne_eq]; rintro rfl; exact hv (hp.subTy x hx)
  | .piApp e u, st, r, hp, h => by
    simp only [checkExpr, Option.bind_eq_some_iff] at h
    obtain ⟨⟨t1, st1⟩, h1, h2⟩ := h
    obtain ⟨a1, a2⟩ := checkExpr_chk hp h1
    split at h2
    · simp only [Option.some.injEq] at h2; subst h2
      exact ⟨a1, a2⟩
    · simp at h2
theorem checkArgs_chk : ∀ {xs : List Expr} {ts : List Ty} {st st' : VSt}, Pre st → ts.length = xs.length → checkArgs L st ts xs = some st' →
    Chk L st st' (bindersL xs) ∧ ∀ x, FreeL x xs → Bnd st x
  | [], _, st, st', _, hl, h => by
    obtain rfl := List.length_eq_zero_iff.1 hl
    simp only [checkArgs, Option.some.injEq] at h; subst h; exact ⟨.refl _, by simp [FreeL]⟩
  | _ :: _, [], _, _, _, hl, _ => by simp at hl
  | x :: xs, t :: ts, st, st', hp, hl, h => by
    simp only [checkArgs, Option.bind_eq_some_iff] at h
    obtain ⟨⟨t1, st1⟩, h1, h2⟩ := h
    obtain ⟨a1, a2⟩ := checkExpr_chk hp h1
    split at h2
    · obtain ⟨b1, b2⟩ := checkArgs_chk (a1.pre hp) (by simpa using hl) h2
      refine ⟨a1.trans b1, fun x hx => ?_⟩
      simp only [FreeL] at hx
      exact hx.elim (a2 x) fun hx => a1.bnd hp (b2 x hx)
    · simp at h2
theorem checkFields_chk {vars : List TyVar} {tys : List Ty} : ∀ {xs : List Expr} {ts : List Ty} {st st' : VSt}, Pre st → ts.length = xs.length →
    checkFields L vars tys st ts xs = some st' → Chk L st st' (bindersL xs) ∧ ∀ x, FreeL x xs → Bnd st x
  | [], _, st, st', _, hl, h => by
    obtain rfl := List.length_eq_zero_iff.1 hl
    simp only [checkFields, Option.some.injEq] at h; subst h; exact ⟨.refl _, by simp [FreeL]⟩
  | _ :: _, [], _, _, _, hl, _ => by simp at hl
  | x :: xs, t :: ts, st, st', hp, hl, h => by
    simp only [checkFields, Option.bind_eq_some_iff] at h
    obtain ⟨⟨t1, st1⟩, h1, h2⟩ := h
    obtain ⟨a1, a2⟩ := checkExpr_chk hp h1
    split at h2
    · obtain ⟨b1, b2⟩ := checkFields_chk (a1.pre hp) (by simpa using hl) h2
      refine ⟨a1.trans b1, fun x hx => ?_⟩
      simp only [FreeL] at hx
      exact hx.elim (a2 x) fun hx => a1.bnd hp (b2 x hx)
    · simp at h2
theorem checkBranches_chk {n : Name} {args : List Ty} : ∀ {bs : List Branch} {acc : Option Ty} {st : VSt} {r : Option Ty × VSt}, Pre st →
    checkBranches L n args st acc bs = some r → Chk L st r.2 (bindersB bs) ∧ ∀ x, FreeB x bs → Bnd st x
  | [], acc, st, r, _, h => by
    simp only [checkBranches, Option.some.injEq] at h; subst h; exact ⟨.refl _, by simp [FreeB]⟩
  | .mk c ns e :: bs, acc, st, r, hp, h => by
    simp only [checkBranches, Option.bind_eq_some_iff] at h
    obtain ⟨d, h1, h2⟩ := h
    split at h2
    · rename_i hl
      simp only [Option.bind_eq_some_iff] at h2
      obtain ⟨st1, h3, ⟨t2, st2⟩, h4, t, -, st3, h5, h6⟩ := h2
      have en := enterBinds_spec hl.2.2.symm h3 hp
      obtain ⟨a1, a2⟩ := checkExpr_chk (en.pre hp) h4
      have l := en.leave hp a1 h5
      obtain ⟨b1, b2⟩ := checkBranches_chk (l.pre hp) h6
      refine ⟨l.trans b1, fun x hx => ?_⟩
      simp only [FreeB] at hx
      exact hx.elim (fun hx => en.bnd hp hx.1 (a2 x hx.2)) fun hx => l.bnd hp (b2 x hx)
    · simp at h2
end

end Tic.Core
