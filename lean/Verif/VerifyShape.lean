import Verif.PropVerify
import Verif.BytecodeProg
/-
What the verifier's verdict means for the bytecode compiler: intrinsics and calls of the function being
defined have the right number of arguments.
-/
namespace Tic.Core

variable {L : Nat}

/-- What was known in `st` is known in `st'`. -/
structure Later (st st' : VSt) : Prop where
  pre : Pre st'
  sub : ∀ x ∈ st.defined, x ∈ st'.defined
  types : ∀ x ∈ st.defined, vget x st'.types = vget x st.types

theorem Later.refl {st : VSt} (hp : Pre st) : Later st st := ⟨hp, fun _ h => h, fun _ _ => rfl⟩

theorem Later.trans {a b c : VSt} (h : Later a b) (h' : Later b c) : Later a c :=
  ⟨h'.pre, fun x hx => h'.sub x (h.sub x hx), fun x hx => (h'.types x (h.sub x hx)).trans (h.types x hx)⟩

theorem Chk.later {st st' : VSt} {bs : List Name} (h : Chk L st st' bs) (hp : Pre st) : Later st st' := ⟨h.pre hp, fun _ hx => h.sub hx, h.types⟩

theorem Entered.later {st st' : VSt} {ns : List Name} {ts : List Ty} (h : Entered L st st' ns ts) (hp : Pre st) : Later st st' := ⟨h.pre hp, fun _ hx => h.sub hx, h.types⟩

/-- The verifier has looked at `e`, later than `st`. -/
def Looked (L : Nat) (st : VSt) (e : Expr) : Prop := ∃ st' r, Later st st' ∧ checkExpr L st' e = some r

theorem Looked.later {st st' : VSt} {e : Expr} (h : Looked L st' e) (h' : Later st st') : Looked L st e := by
  obtain ⟨st2, r, h1, h2⟩ := h
  exact ⟨st2, r, h'.trans h1, h2⟩

theorem looked_args : ∀ {xs : List Expr} {ts : List Ty} {st st' : VSt}, Pre st → ts.length = xs.length → checkArgs L st ts xs = some st' → ∀ x ∈ xs, Looked L st x
  | [], _, _, _, _, _, _, x, hx => by simp at hx
  | _ :: _, [], _, _, _, hl, _, _, _ => by simp at hl
  | x :: xs, t :: ts, st, st', hp, hl, h, y, hy => by
    simp only [checkArgs, Option.bind_eq_some_iff] at h
    obtain ⟨⟨t1, st1⟩, h1, h2⟩ := h
    obtain ⟨a1, -⟩ := checkExpr_chk hp h1
    split at h2
    · rcases List.mem_cons.1 hy with rfl | hy
      · exact ⟨st, _, .refl hp, h1⟩
      · exact (looked_args (a1.pre hp) (by simpa using hl) h2 y hy).later (a1.later hp)
    · simp at h2

theorem looked_fields {vars : List TyVar} {tys : List Ty} : ∀ {xs : List Expr} {ts : List Ty} {st st' : VSt}, Pre st → ts.length = xs.length → checkFields L vars tys st ts xs = some st' → ∀ x ∈ xs, Looked L st x
  | [], _, _, _, _, _, _, x, hx => by simp at hx
  | _ :: _, [], _, _, _, hl, _, _, _ => by simp at hl
  | x :: xs, t :: ts, st, st', hp, hl, h, y, hy => by
    simp only [checkFields, Option.bind_eq_some_iff] at h
    obtain ⟨⟨t1, st1⟩, h1, h2⟩ := h
    obtain ⟨a1, -⟩ := checkExpr_chk hp h1
    split at h2
    · rcases List.mem_cons.1 hy with rfl | hy
      · exact ⟨st, _, .refl hp, h1⟩
      · exact (looked_fields (a1.pre hp) (by simpa using hl) h2 y hy).later (a1.later hp)
    · simp at h2

theorem looked_branches {n : Name} {args : List Ty} : ∀ {bs : List Branch} {acc : Option Ty} {st : VSt} {r : Option Ty × VSt}, Pre st →
    checkBranches L n args st acc bs = some r → ∀ b ∈ bs, Looked L st b.body
  | [], _, _, _, _, _, b, hb => by simp at hb
  | .mk c ns e :: bs, acc, st, r, hp, h, b, hb => by
    simp only [checkBranches, Option.bind_eq_some_iff] at h
    obtain ⟨d, h1, h2⟩ := h
    split at h2
    · rename_i hl
      simp only [Option.bind_eq_some_iff] at h2
      obtain ⟨st1, h3, ⟨t2, st2⟩, h4, t, -, st3, h5, h6⟩ := h2
      have en := enterBinds_spec hl.2.2.symm h3 hp
      obtain ⟨a1, -⟩ := checkExpr_chk (en.pre hp) h4
      have l := en.leave hp a1 h5
      rcases List.mem_cons.1 hb with rfl | hb
      · exact ⟨st1, _, en.later hp, h4⟩
      · exact (looked_branches (l.pre hp) h6 b hb).later (l.later hp)
    · simp at h2

/-- The verifier looks at every part of an expression. -/
theorem looked_child {e : Expr} {st : VSt} {r : Ty × VSt} (hp : Pre st) (h : checkExpr L st e = some r) {c : List Name × Expr} (hc : c ∈ children e) : Looked L st c.2 := by
  cases e with
  | bool | int | str | name | trap => simp [children] at hc
  | call f xs =>
    simp only [checkExpr, Option.bind_eq_some_iff] at h
    obtain ⟨⟨t1, st1⟩, h1, h2⟩ := h
    obtain ⟨a1, -⟩ := checkExpr_chk hp h1
    split at h2
    · split at h2
      · rename_i ps out _ hl
        simp only [Option.bind_eq_some_iff, Option.some.injEq] at h2
        obtain ⟨st2, h3, rfl⟩ := h2
        simp only [children, List.mem_cons, List.mem_map] at hc
        rcases hc with rfl | ⟨x, hx, rfl⟩
        · exact ⟨st, _, .refl hp, h1⟩
        · exact (looked_args (a1.pre hp) hl h3 x hx).later (a1.later hp)
      · simp at h2
    · simp at h2
  | intr i xs =>
    simp only [checkExpr] at h
    split at h
    · rename_i hl
      simp only [Option.bind_eq_some_iff, Option.some.injEq] at h
      obtain ⟨st2, h3, rfl⟩ := h
      simp only [children, List.mem_map] at hc
      obtain ⟨x, hx, rfl⟩ := hc
      exact looked_args hp hl h3 x hx
    · simp at h
  | ite q a b =>
    simp only [checkExpr, Option.bind_eq_some_iff] at h
    obtain ⟨⟨t1, st1⟩, h1, h2⟩ := h
    obtain ⟨a1, -⟩ := checkExpr_chk hp h1
    split at h2
    · simp only [Option.bind_eq_some_iff] at h2
      obtain ⟨⟨t2, st2⟩, h3, ⟨t3, st3⟩, h4, h5⟩ := h2
      obtain ⟨b1, -⟩ := checkExpr_chk (a1.pre hp) h3
      have hab := a1.trans b1
      simp only [children, List.mem_cons, List.not_mem_nil, or_false] at hc
      rcases hc with rfl | rfl | rfl
      · exact ⟨st, _, .refl hp, h1⟩
      · exact ⟨st1, _, a1.later hp, h3⟩
      · exact ⟨st2, _, hab.later hp, h4⟩
    · simp at h2
  | op a o b =>
    simp only [checkExpr, Option.bind_eq_some_iff] at h
    obtain ⟨⟨t1, st1⟩, h1, h2⟩ := h
    obtain ⟨a1, -⟩ := checkExpr_chk hp h1
    split at h2
    · simp only [Option.bind_eq_some_iff] at h2
      obtain ⟨⟨t2, st2⟩, h3, h5⟩ := h2
      simp only [children, List.mem_cons, List.not_mem_nil, or_false] at hc
      rcases hc with rfl | rfl
      · exact ⟨st, _, .refl hp, h1⟩
      · exact ⟨st1, _, a1.later hp, h3⟩
    · simp at h2
  | lam ps b =>
    simp only [checkExpr, Option.bind_eq_some_iff, Option.some.injEq] at h
    obtain ⟨st1, h1, ⟨t2, st2⟩, h2, st3, h3, rfl⟩ := h
    have e := enterPs_spec hp h1
    simp only [children, List.mem_singleton] at hc
    subst hc
    exact ⟨st1, _, e.later hp, h2⟩
  | mtch e bs =>
    simp only [checkExpr, Option.bind_eq_some_iff] at h
    obtain ⟨⟨t1, st1⟩, h1, h2⟩ := h
    obtain ⟨a1, -⟩ := checkExpr_chk hp h1
    split at h2
    · simp only [Option.bind_eq_some_iff, Option.some.injEq] at h2
      obtain ⟨⟨t2, st2⟩, h3, t, -, rfl⟩ := h2
      simp only [children, List.mem_cons, List.mem_map] at hc
      rcases hc with rfl | ⟨b, hb, rfl⟩
      · exact ⟨st, _, .refl hp, h1⟩
      · exact (looked_branches (a1.pre hp) h3 b hb).later (a1.later hp)
    · simp at h2
  | con k tys xs =>
    simp only [checkExpr, Option.bind_eq_some_iff] at h
    obtain ⟨d, h1, h2⟩ := h
    split at h2
    · rename_i hl
      simp only [Option.bind_eq_some_iff, Option.some.injEq] at h2
      obtain ⟨st2, h3, rfl⟩ := h2
      simp only [children, List.mem_map] at hc
      obtain ⟨x, hx, rfl⟩ := hc
      exact looked_fields hp hl.2 h3 x hx
    · simp at h2
  | let_ n a b =>
    simp only [checkExpr, Option.bind_eq_some_iff, Option.some.injEq] at h
    obtain ⟨⟨t1, st1⟩, h1, st2, h2, ⟨t3, st3⟩, h3, st4, h4, rfl⟩ := h
    obtain ⟨a1, -⟩ := checkExpr_chk hp h1
    have e := entered_let h2
    simp only [children, List.mem_cons, List.not_mem_nil, or_false] at hc
    rcases hc with rfl | rfl
    · exact ⟨st, _, .refl hp, h1⟩
    · exact ⟨st2, _, (a1.later hp).trans (e.later (a1.pre hp)), h3⟩
  | letrec n t a b =>
    simp only [checkExpr, Option.bind_eq_some_iff] at h
    obtain ⟨st0, h0, st1, h1, ⟨t2, st2⟩, h2, h3⟩ := h
    split at h3
    · simp only [Option.bind_eq_some_iff, Option.some.injEq] at h3
      obtain ⟨⟨t3, st3⟩, h3, st4, h4, rfl⟩ := h3
      have c0 := (checkTy_chk (L := L) hp h0).1
      have hp0 := c0.pre hp
      have e := entered_one h1 (Chk.refl st1) (t := t)
      obtain ⟨a1, -⟩ := checkExpr_chk (e.pre hp0) h2
      have l0 := (c0.later hp).trans (e.later hp0)
      simp only [children, List.mem_cons, List.not_mem_nil, or_false] at hc
      rcases hc with rfl | rfl
      · exact ⟨_, _, l0, h2⟩
      · exact ⟨_, _, l0.trans (a1.later (e.pre hp0)), h3⟩
    · simp at h3
  | pi v e =>
    simp only [checkExpr, Option.bind_eq_some_iff, Option.some.injEq] at h
    obtain ⟨st1, h1, ⟨t2, st2⟩, h2, st3, h3, rfl⟩ := h
    obtain ⟨hv, rfl⟩ := enterTy_spec h1
    simp only [children, List.mem_singleton] at hc
    subst hc
    exact ⟨{ st with definedTy := v :: st.definedTy, inScopeTy := v :: st.inScopeTy }, _, ⟨⟨hp.sub, fun a ha => by
        rcases List.mem_cons.1 ha with rfl | ha
        · simp
        · exact List.mem_cons_of_mem _ (hp.subTy a ha)⟩, fun _ h => h, fun _ _ => rfl⟩, h2⟩
  | piApp e u =>
    simp only [checkExpr, Option.bind_eq_some_iff] at h
    obtain ⟨⟨t1, st1⟩, h1, h2⟩ := h
    simp only [children, List.mem_singleton] at hc
    subst hc
    exact ⟨st, _, .refl hp, h1⟩

theorem looked_sub {e e' : Expr} (h : SubE e' e) : ∀ {st : VSt}, Looked L st e → Looked L st e' := by
  induction h with
  | refl => exact id
  | step hc _ ih =>
    intro st h
    obtain ⟨st1, r, h1, h2⟩ := h
    exact ih ((looked_child h1.pre h2 hc).later h1)

/-- Calls of a variable have as many arguments as its type says. -/
theorem looked_call {st : VSt} {e : Expr} {x : Name} {t : Ty} {xs : List Expr} (h : Looked L st e) (hx : x ∈ st.defined) (ht : vget x st.types = some t)
    (hs : SubE (.call (.name x) xs) e) : ∃ ps out, t = .fn ps out ∧ ps.length = xs.length := by
  obtain ⟨st1, r, h1, h2⟩ := looked_sub hs h
  simp only [checkExpr, Option.bind_eq_some_iff] at h2
  obtain ⟨⟨t1, st2⟩, h3, h4⟩ := h2
  split at h3
  · simp only [Option.bind_eq_some_iff, Option.some.injEq, Prod.mk.injEq] at h3
    obtain ⟨t2, h3, rfl, rfl⟩ := h3
    rw [h1.types x hx, ht] at h3
    cases h3
    split at h4
    · rename_i ps out he
      split at h4
      · rename_i hl
        exact ⟨ps, out, he, hl⟩
      · cases h4
    · cases h4
  · cases h3

theorem fits_fn {ps : List Ty} {out t : Ty} (h : fits (.fn ps out) t = true) : ∃ qs o, t = .fn qs o ∧ ps.length = qs.length := by
  cases t <;> simp only [fits, fitsP, Option.isSome_none, Bool.false_eq_true, reduceCtorEq] at h
  rename_i qs o
  split at h
  · rename_i hl
    exact ⟨qs, o, rfl, hl⟩
  · cases h

theorem fits_abs {v : TyVar} {u t : Ty} (h : fits (.abs v u) t = true) : ∃ a b, t = .abs a b := by
  cases t <;> simp only [fits, fitsP, Option.isSome_none, Bool.false_eq_true, reduceCtorEq] at h
  exact ⟨_, _, rfl⟩

/-- What the verifier has looked at is fit for the bytecode compiler. -/
theorem looked_bcShape {st : VSt} {e : Expr} (h : Looked L st e) : BcShape e := by
  constructor
  · intro i xs hs
    obtain ⟨st1, r, h1, h2⟩ := looked_sub hs h
    simp only [checkExpr] at h2
    split at h2
    · rename_i hl
      rw [← hl]
      cases i <;> rfl
    · cases h2
  · intro x ty v b ps e' hs hr xs hc
    obtain ⟨st1, r, h1, h2⟩ := looked_sub hs h
    simp only [checkExpr, Option.bind_eq_some_iff] at h2
    obtain ⟨st2, h3, st3, h4, ⟨t4, st4⟩, h5, h6⟩ := h2
    split at h6
    · rename_i hf
      have c0 := (checkTy_chk (L := L) h1.pre h3).1
      have hp0 := c0.pre h1.pre
      have en := entered_one h4 (Chk.refl st3) (t := ty)
      have hb : Looked L (st3.setTy x ty) v := ⟨_, _, .refl (en.pre hp0), h5⟩
      obtain ⟨qs, out, rfl, hl⟩ := looked_call hb (t := ty) (en.mem (by simp)) (by simp [VSt.setTy, vget_cons]) (hc.trans (recLam_sub hr))
      rw [← hl]
      cases v <;> simp only [recLam, stripPis, reduceCtorEq, Option.some.injEq, Prod.mk.injEq] at hr
      · obtain ⟨rfl, rfl⟩ := hr
        simp only [checkExpr, Option.bind_eq_some_iff, Option.some.injEq] at h5
        obtain ⟨_, _, _, _, _, _, h5⟩ := h5
        cases h5
        obtain ⟨qs', o', e, hl'⟩ := fits_fn hf
        cases e
        simp at hl' ⊢
        exact hl'.symm
      · simp only [checkExpr, Option.bind_eq_some_iff, Option.some.injEq] at h5
        obtain ⟨_, _, _, _, _, _, h5⟩ := h5
        cases h5
        obtain ⟨a, b, e⟩ := fits_abs hf
        cases e
    · cases h6

theorem checkDefs_bcShape : ∀ {ds : List ValueDef} {st st' : VSt}, Pre st → checkDefs L st ds = some st' → ∀ d ∈ ds, BcShape d.value
  | [], _, _, _, _, d, hd => by simp at hd
  | d :: ds, st, st', hp, h, d', hd => by
    simp only [checkDefs, Option.bind_eq_some_iff] at h
    obtain ⟨st1, h1, ⟨t2, st2⟩, h2, h3⟩ := h
    have c0 := (checkTy_chk (L := L) hp h1).1
    obtain ⟨c1, -⟩ := checkExpr_chk (c0.pre hp) h2
    split at h3
    · simp only [Option.bind_eq_some_iff] at h3
      obtain ⟨st3, h3, h4⟩ := h3
      rcases List.mem_cons.1 hd with rfl | hd
      · exact looked_bcShape ⟨st1, _, .refl (c0.pre hp), h2⟩
      · exact checkDefs_bcShape ((entered_one h3 (Chk.refl st3) (t := t2)).pre (c1.pre (c0.pre hp))) h4 d' hd
    · cases h3

/-- What the verifier accepts is fit for the bytecode compiler. -/
theorem verify_bcShape {p : Program} {st : VSt} (h : verify L p = some st) : ∀ d ∈ p.defs, BcShape d.value := by
  simp only [verify, Option.bind_eq_some_iff] at h
  obtain ⟨st1, h1, h2⟩ := h
  have hp : Pre {} := ⟨(fun _ h => nomatch h), (fun _ h => nomatch h)⟩
  exact checkDefs_bcShape (checkTyDefs_spec hp rfl h1).1.pre h2

end Tic.Core
