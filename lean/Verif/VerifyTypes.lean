import Verif.VerifyScope
import Verif.TyCompat
/-
What the verifier establishes about types: the expressions it accepts have the types it
computes.
-/
namespace Tic.Core

variable {L : Nat}

/-! ### Conditions the verifier does not check -/

mutual
/-- All types written in the expression are free of quantifiers, and type arguments mention
only type variables in scope. -/
def Simple (Δ : List TyVar) : Expr → Prop
  | .call f xs => Simple Δ f ∧ SimpleL Δ xs
  | .ite c t e => Simple Δ c ∧ Simple Δ t ∧ Simple Δ e
  | .op a _ b => Simple Δ a ∧ Simple Δ b
  | .intr _ xs => SimpleL Δ xs
  | .lam ps b => (∀ p ∈ ps, Mono0 p.2) ∧ Simple Δ b
  | .mtch e bs => Simple Δ e ∧ SimpleB Δ bs
  | .con _ ts xs => (∀ t ∈ ts, Mono0 t ∧ ∀ a ∈ tfv t, a ∈ Δ) ∧ SimpleL Δ xs
  | .let_ _ v e => Simple Δ v ∧ Simple Δ e
  | .letrec _ t v e => Mono0 t ∧ Simple Δ v ∧ Simple Δ e
  | .pi a e => Simple (a :: Δ) e
  | .piApp e t => (Mono0 t ∧ ∀ a ∈ tfv t, a ∈ Δ) ∧ Simple Δ e
  | .trap _ t => Mono0 t
  | _ => True
/-- ... in a list of expressions. -/
def SimpleL (Δ : List TyVar) : List Expr → Prop
  | [] => True
  | e :: es => Simple Δ e ∧ SimpleL Δ es
/-- ... in a list of branches. -/
def SimpleB (Δ : List TyVar) : List Branch → Prop
  | [] => True
  | .mk _ _ e :: bs => Simple Δ e ∧ SimpleB Δ bs
end

/-- A match that has a branch for one constructor of a type has one for each; a recursive
definition is a function. -/
def NodeTotal (C : Name → Option Ctor) : Expr → Prop
  | .mtch _ bs => ∀ b ∈ bs, ∀ d, C b.ctor = some d → ∀ c d', C c = some d' → d'.tyName = d.tyName → ∃ b' ∈ bs, b'.ctor = c
  | .letrec _ _ v _ => (recLam v).isSome = true
  | _ => True

/-- ... everywhere inside `e`. -/
def Total (C : Name → Option Ctor) (e : Expr) : Prop := ∀ e', SubE e' e → NodeTotal C e'

theorem Total.child {C : Name → Option Ctor} {e : Expr} (h : Total C e) {c : List Name × Expr} (hc : c ∈ children e) : Total C c.2 :=
  fun e' he => h e' (.step hc he)

/-! ### Types -/

mutual
theorem tyEq_eq : ∀ {a b : Ty}, tyEq a b = true → a = b
  | .bool, b, h => by cases b <;> simp [tyEq] at h ⊢
  | .int, b, h => by cases b <;> simp [tyEq] at h ⊢
  | .string, b, h => by cases b <;> simp [tyEq] at h ⊢
  | .var x, b, h => by cases b <;> simp [tyEq] at h ⊢; exact h
  | .named n xs, b, h => by
    cases b <;> simp [tyEq] at h ⊢
    exact ⟨h.1, tysEq_eq h.2⟩
  | .fn xs x, b, h => by
    cases b <;> simp [tyEq] at h ⊢
    exact ⟨tysEq_eq h.1, tyEq_eq h.2⟩
  | .abs a x, b, h => by
    cases b <;> simp [tyEq] at h ⊢
    exact ⟨h.1, tyEq_eq h.2⟩
theorem tysEq_eq : ∀ {a b : List Ty}, tysEq a b = true → a = b
  | [], b, h => by cases b <;> simp [tysEq] at h ⊢
  | x :: xs, b, h => by
    cases b <;> simp [tysEq] at h ⊢
    exact ⟨tyEq_eq h.1, tysEq_eq h.2⟩
end

mutual
theorem fitsP_eq : ∀ {a b : Ty} {ps : List (TyVar × TyVar)}, (Mono0 a ∨ Mono0 b) → fitsP [] a b = some ps → a = b ∧ ps = []
  | .bool, b, ps, hm, h => by cases b <;> simp [fitsP] at h ⊢; exact h
  | .int, b, ps, hm, h => by cases b <;> simp [fitsP] at h ⊢; exact h
  | .string, b, ps, hm, h => by cases b <;> simp [fitsP] at h ⊢; exact h
  | .var x, b, ps, hm, h => by
    cases b <;> simp [fitsP] at h ⊢; exact h
  | .named n xs, b, ps, hm, h => by
    cases b <;> simp only [fitsP, reduceCtorEq] at h
    split at h
    · rename_i hl
      obtain ⟨h1, h2⟩ := fitsL_eq hm hl.2 h
      exact ⟨by rw [hl.1, h1], h2⟩
    · simp at h
  | .fn xs x, b, ps, hm, h => by
    cases b <;> simp only [fitsP, reduceCtorEq] at h
    split at h
    · rename_i hl
      simp only [Option.bind_eq_some_iff] at h
      obtain ⟨ps1, h1, h2⟩ := h
      obtain ⟨h3, rfl⟩ := fitsL_eq (hm.imp And.left And.left) hl h1
      obtain ⟨h4, h5⟩ := fitsP_eq (hm.imp And.right And.right) h2
      exact ⟨by rw [h3, h4], h5⟩
    · simp at h
  | .abs x a, b, ps, hm, h => by
    cases b <;> simp only [fitsP, reduceCtorEq] at h
    simp [Mono0] at hm
theorem fitsL_eq : ∀ {as bs : List Ty} {ps : List (TyVar × TyVar)}, (Mono0L as ∨ Mono0L bs) → as.length = bs.length → fitsL [] as bs = some ps → as = bs ∧ ps = []
  | [], b, ps, _, hl, h => by
    obtain rfl := List.length_eq_zero_iff.1 hl.symm
    simp only [fitsL, Option.some.injEq] at h; exact ⟨rfl, h.symm⟩
  | _ :: _, [], _, _, hl, _ => by simp at hl
  | a :: as, b :: bs, ps, hm, hl, h => by
    simp only [fitsL, Option.bind_eq_some_iff] at h
    obtain ⟨ps1, h1, h2⟩ := h
    obtain ⟨h3, rfl⟩ := fitsP_eq (hm.imp And.left And.left) h1
    obtain ⟨h4, h5⟩ := fitsL_eq (hm.imp And.right And.right) (by simpa using hl) h2
    exact ⟨by rw [h3, h4], h5⟩
end

theorem fits_eq {a b : Ty} (hm : Mono0 a ∨ Mono0 b) (h : fits a b = true) : a = b := by
  unfold fits at h
  obtain ⟨ps, hp⟩ := Option.isSome_iff_exists.1 h
  exact (fitsP_eq hm hp).1

/-- Quantifiers only in result positions, and no variable bound twice on the way. -/
def Rank : Ty → Prop
  | .named _ args => Mono0L args
  | .fn ps out => Mono0L ps ∧ Rank out
  | .abs a t => a ∉ tbv t ∧ Rank t
  | _ => True

theorem rank_of_mono0 : ∀ {t : Ty}, Mono0 t → Rank t
  | .bool, _ => trivial
  | .int, _ => trivial
  | .string, _ => trivial
  | .var _, _ => trivial
  | .named _ _, h => h
  | .fn _ _, h => ⟨h.1, rank_of_mono0 h.2⟩
  | .abs _ _, h => h.elim

mutual
theorem tbv_replace {a : TyVar} {u : Ty} (hu : Mono0 u) : ∀ (t : Ty), tbv (replace a u t) = tbv t
  | .bool => rfl
  | .int => rfl
  | .string => rfl
  | .var b => by
    simp only [replace]
    split
    · rw [mono0_tbv hu]; rfl
    · rfl
  | .named _ args => by simp only [replace, tbv]; exact tbvL_replace hu args
  | .fn ps out => by simp only [replace, tbv]; rw [tbvL_replace hu ps, tbv_replace hu out]
  | .abs b t => by simp only [replace, tbv]; rw [tbv_replace hu t]
theorem tbvL_replace {a : TyVar} {u : Ty} (hu : Mono0 u) : ∀ (ts : List Ty), tbvL (replaceL a u ts) = tbvL ts
  | [] => rfl
  | t :: ts => by simp only [replaceL, tbvL]; rw [tbv_replace hu t, tbvL_replace hu ts]
end

theorem rank_replace {a : TyVar} {u : Ty} (hu : Mono0 u) : ∀ {t : Ty}, Rank t → Rank (replace a u t)
  | .bool, _ => trivial
  | .int, _ => trivial
  | .string, _ => trivial
  | .var b, _ => by
    simp only [replace]
    split
    · exact rank_of_mono0 hu
    · trivial
  | .named _ args, h => mono0L_replace hu h
  | .fn ps out, h => ⟨mono0L_replace hu h.1, rank_replace hu h.2⟩
  | .abs b t, h => ⟨by rw [tbv_replace hu]; exact h.1, rank_replace hu h.2⟩

mutual
theorem tfv_replace {a b : TyVar} {u : Ty} : ∀ {t : Ty}, b ∈ tfv (replace a u t) → (b ∈ tfv t ∧ b ≠ a) ∨ b ∈ tfv u
  | .bool, h => by simp [replace, tfv] at h
  | .int, h => by simp [replace, tfv] at h
  | .string, h => by simp [replace, tfv] at h
  | .var c, h => by
    simp only [replace] at h
    split at h
    · exact .inr h
    · rename_i hne
      simp only [tfv, List.mem_singleton] at h ⊢
      subst h; exact .inl ⟨rfl, hne⟩
  | .named _ args, h => by simp only [replace, tfv] at h ⊢; exact tfvL_replace h
  | .fn ps out, h => by
    simp only [replace, tfv, List.mem_append] at h ⊢
    rcases h with h | h
    · exact (tfvL_replace h).imp (fun h => ⟨.inl h.1, h.2⟩) id
    · exact (tfv_replace h).imp (fun h => ⟨.inr h.1, h.2⟩) id
  | .abs c t, h => by
    simp only [replace, tfv, List.mem_filter, bne_iff_ne, ne_eq] at h ⊢
    exact (tfv_replace h.1).imp (fun h' => ⟨⟨h'.1, h.2⟩, h'.2⟩) id
theorem tfvL_replace {a b : TyVar} {u : Ty} : ∀ {ts : List Ty}, b ∈ tfvL (replaceL a u ts) → (b ∈ tfvL ts ∧ b ≠ a) ∨ b ∈ tfv u
  | [], h => by simp [replaceL, tfvL] at h
  | t :: ts, h => by
    simp only [replaceL, tfvL, List.mem_append] at h ⊢
    rcases h with h | h
    · exact (tfv_replace h).imp (fun h => ⟨.inl h.1, h.2⟩) id
    · exact (tfvL_replace h).imp (fun h => ⟨.inr h.1, h.2⟩) id
end

theorem tfv_replaceAll {b : TyVar} : ∀ {as : List TyVar} {us : List Ty} {t : Ty}, as.length = us.length → b ∈ tfv (replaceAll as us t) →
    (b ∈ tfv t ∧ b ∉ as) ∨ ∃ u ∈ us, b ∈ tfv u
  | [], [], t, _, h => by simp only [replaceAll] at h; exact .inl ⟨h, by simp⟩
  | [], _ :: _, _, hl, _ => by simp at hl
  | _ :: _, [], _, hl, _ => by simp at hl
  | a :: as, u :: us, t, hl, h => by
    simp only [replaceAll] at h
    rcases tfv_replaceAll (by simpa using hl) h with ⟨h1, h2⟩ | ⟨u', hu', h1⟩
    · rcases tfv_replace h1 with h3 | h3
      · exact .inl ⟨h3.1, by simp [h3.2, h2]⟩
      · exact .inr ⟨u, by simp, h3⟩
    · exact .inr ⟨u', List.mem_cons_of_mem _ hu', h1⟩

mutual
/-- Checked types mention only type variables in scope. -/
theorem checkTy_tfv : ∀ {t : Ty} {st st' : VSt}, Pre st → checkTy st t = some st' → ∀ a ∈ tfv t, a ∈ st.inScopeTy
  | .bool, _, _, _, _ => by simp [tfv]
  | .int, _, _, _, _ => by simp [tfv]
  | .string, _, _, _, _ => by simp [tfv]
  | .var v, st, st', _, h => by
    simp only [checkTy] at h
    split at h
    · rename_i hv; simpa [tfv] using hv
    · simp at h
  | .named n args, st, st', hp, h => by
    simp only [checkTy] at h
    split at h
    · simp only [Option.bind_eq_some_iff] at h
      obtain ⟨k, -, h⟩ := h
      split at h
      · exact checkTys_tfv hp h
      · simp at h
    · simp at h
  | .fn ps out, st, st', hp, h => by
    simp only [checkTy, Option.bind_eq_some_iff] at h
    obtain ⟨st1, h1, h2⟩ := h
    have c := (checkTys_chk (L := 0) hp h1).1
    intro a ha
    simp only [tfv, List.mem_append] at ha
    rcases ha with ha | ha
    · exact checkTys_tfv hp h1 a ha
    · exact c.inScopeTy ▸ checkTy_tfv (c.pre hp) h2 a ha
  | .abs v t, st, st', hp, h => by
    simp only [checkTy, Option.bind_eq_some_iff] at h
    obtain ⟨st1, h1, st2, h2, h3⟩ := h
    obtain ⟨hv, rfl⟩ := enterTy_spec h1
    have hp1 : Pre { st with definedTy := v :: st.definedTy, inScopeTy := v :: st.inScopeTy } :=
      ⟨hp.sub, fun a ha => by
        rcases List.mem_cons.1 ha with rfl | ha
        · simp
        · exact List.mem_cons_of_mem _ (hp.subTy a ha)⟩
    intro a ha
    simp only [tfv, List.mem_filter, bne_iff_ne, ne_eq] at ha
    have := checkTy_tfv hp1 h2 a ha.1
    exact (List.mem_cons.1 this).resolve_left ha.2
theorem checkTys_tfv : ∀ {ts : List Ty} {st st' : VSt}, Pre st → checkTys st ts = some st' → ∀ a ∈ tfvL ts, a ∈ st.inScopeTy
  | [], _, _, _, _ => by simp [tfvL]
  | t :: ts, st, st', hp, h => by
    simp only [checkTys, Option.bind_eq_some_iff] at h
    obtain ⟨st1, h1, h2⟩ := h
    have c := (checkTy_chk (L := 0) hp h1).1
    intro a ha
    simp only [tfvL, List.mem_append] at ha
    rcases ha with ha | ha
    · exact checkTy_tfv hp h1 a ha
    · exact c.inScopeTy ▸ checkTys_tfv (c.pre hp) h2 a ha
end

/-! ### The verifier's state, read as a typing context -/

/-- Types of the names in scope. -/
def gam (st : VSt) : Gam := fun x => if x ∈ st.inScope then vget x st.types else none

variable {X : List TyVar}

/-- A type is well formed in a state, and binds none of `X`. -/
structure GoodTy (X : List TyVar) (st : VSt) (t : Ty) : Prop where
  fv : ∀ a ∈ tfv t, a ∈ st.inScopeTy
  bv : ∀ a ∈ tbv t, a ∈ st.definedTy ∧ a ∉ st.inScopeTy ∧ a ∉ X
  rank : Rank t

/-- A constructor declaration is well formed. -/
structure CtorOk (d : Ctor) : Prop where
  small : d.fields.length ≤ maxFields
  mono : ∀ F ∈ d.fields, Mono0 F
  scope : ∀ F ∈ d.fields, ∀ a ∈ tfv F, a ∈ d.vars

/-- Invariant of the verifier, after the type definitions. -/
structure VInv (X : List TyVar) (cs : List (Name × Ctor)) (st : VSt) : Prop extends Pre st where
  ctors : st.ctors = cs
  avoid : ∀ a ∈ X, a ∈ st.definedTy
  ty : ∀ x t, gam st x = some t → GoodTy X st t
  ctor : ∀ c d, vget c cs = some d → CtorOk d ∧ ∀ a ∈ d.vars, a ∈ st.definedTy ∧ a ∉ st.inScopeTy

theorem GoodTy.mono0 {st : VSt} {t : Ty} (hm : Mono0 t) (hf : ∀ a ∈ tfv t, a ∈ st.inScopeTy) : GoodTy X st t :=
  ⟨hf, by simp [mono0_tbv hm], rank_of_mono0 hm⟩

theorem GoodTy.chk {st st' : VSt} {bs : List Name} {t : Ty} (h : GoodTy X st t) (hc : Grows L st st' bs) (hs : st'.inScopeTy = st.inScopeTy) : GoodTy X st' t :=
  ⟨fun a ha => hs ▸ h.fv a ha, fun a ha => ⟨hc.tys a (h.bv a ha).1, hs ▸ (h.bv a ha).2.1, (h.bv a ha).2.2⟩, h.rank⟩

theorem Chk.gam {st st' : VSt} {bs : List Name} (h : Chk L st st' bs) (hp : Pre st) : gam st' = gam st := by
  funext x
  simp only [Core.gam, h.inScope]
  split
  · rename_i hx; exact h.types x (hp.sub x hx)
  · rfl

theorem VInv.chk {cs : List (Name × Ctor)} {st st' : VSt} {bs : List Name} (h : VInv X cs st) (hc : Chk L st st' bs) : VInv X cs st' :=
  ⟨hc.pre h.toPre, hc.ctors.trans h.ctors, fun a ha => hc.tys a (h.avoid a ha), fun x t hx => (h.ty x t (hc.gam h.toPre ▸ hx)).chk hc.toGrows hc.inScopeTy,
    fun c d hd => ⟨(h.ctor c d hd).1, fun a ha => ⟨hc.tys a ((h.ctor c d hd).2 a ha).1, hc.inScopeTy ▸ ((h.ctor c d hd).2 a ha).2⟩⟩⟩

theorem gam_one {st st1 st2 : VSt} {n : Name} {t : Ty} (hp : Pre st) (h : st.enter L n = some st1) (h1 : Chk L st1 st2 []) :
    gam (st2.setTy n t) = (gam st).set n t := by
  have e1 := enter_ext h
  obtain ⟨-, hn, rfl⟩ := enter_spec h
  have e2 := e1.trans h1.toGrows
  funext x
  simp only [gam, Gam.set, VSt.setTy, vget_cons, h1.inScope, List.mem_cons]
  by_cases hx : x = n
  · subst hx; simp
  · simp only [hx, false_or, if_false]
    split
    · rename_i hx'
      rw [if_neg (fun h => hx h.symm)]
      exact e2.types x (hp.sub x hx')
    · rfl

theorem gam_let {st st1 : VSt} {n : Name} {t : Ty} (hp : Pre st) (h : (st.setTy n t).enter L n = some st1) : gam st1 = (gam st).set n t := by
  obtain ⟨h1, h2, rfl⟩ := enter_spec h
  have : st.enter L n = some { st with defined := n :: st.defined, inScope := n :: st.inScope } := by
    unfold VSt.enter
    rw [if_neg (Nat.not_le.2 h1), if_neg (show n ∉ st.defined from h2)]
  exact gam_one hp this (Chk.refl _)

/-- One more well-typed name keeps the invariant. -/
theorem VInv.enter {cs : List (Name × Ctor)} {st st' : VSt} {n : Name} {t : Ty} (h : VInv X cs st) (he : Entered L st st' [n] [t])
    (hg : gam st' = (gam st).set n t) (ht : GoodTy X st t) : VInv X cs st' :=
  ⟨he.pre h.toPre, he.ctors.trans h.ctors, fun a ha => he.tys a (h.avoid a ha), fun x u hx => by
    rw [hg] at hx
    simp only [Gam.set] at hx
    split at hx
    · obtain rfl := Option.some.inj hx
      exact ht.chk he.toGrows he.inScopeTy
    · exact (h.ty x u hx).chk he.toGrows he.inScopeTy,
    fun c d hd => ⟨(h.ctor c d hd).1, fun a ha => ⟨he.tys a ((h.ctor c d hd).2 a ha).1, he.inScopeTy ▸ ((h.ctor c d hd).2 a ha).2⟩⟩⟩

theorem pre_enter {st st1 : VSt} {n : Name} (hp : Pre st) (h : st.enter L n = some st1) : Pre st1 := by
  obtain ⟨-, -, rfl⟩ := enter_spec h
  exact ⟨fun x hx => by
    rcases List.mem_cons.1 hx with rfl | hx
    · simp
    · exact List.mem_cons_of_mem _ (hp.sub x hx), hp.subTy⟩

theorem enterPs_inv {cs : List (Name × Ctor)} : ∀ {ps : List (Name × Ty)} {st st' : VSt}, VInv X cs st → enterPs L st ps = some st' →
    (∀ p ∈ ps, Mono0 p.2) → VInv X cs st' ∧ gam st' = (gam st).sets (ps.map (·.1)) (ps.map (·.2)) ∧ ∀ p ∈ ps, ∀ a ∈ tfv p.2, a ∈ st.inScopeTy
  | [], st, st', hi, h, _ => by
    simp only [enterPs, Option.some.injEq] at h; subst h; exact ⟨hi, rfl, by simp⟩
  | (n, t) :: ps, st, st', hi, h, hm => by
    simp only [enterPs, Option.bind_eq_some_iff] at h
    obtain ⟨st1, h1, st2, h2, h3⟩ := h
    have hp := hi.toPre
    have hp1 := pre_enter hp h1
    have c := (checkTy_chk (L := L) hp1 h2).1
    have e := entered_one h1 c (t := t)
    have g := gam_one (t := t) hp h1 c
    have hf : ∀ a ∈ tfv t, a ∈ st.inScopeTy := by
      have := checkTy_tfv hp1 h2
      rw [(enter_spec h1).2.2] at this
      exact this
    have hi' := hi.enter e g (.mono0 (hm (n, t) (by simp)) hf)
    obtain ⟨a1, a2, a3⟩ := enterPs_inv hi' h3 fun p hp => hm p (List.mem_cons_of_mem _ hp)
    refine ⟨a1, ?_, ?_⟩
    · rw [a2, g]; rfl
    · intro p hp
      rcases List.mem_cons.1 hp with rfl | hp
      · exact hf
      · exact fun a ha => e.inScopeTy ▸ a3 p hp a ha

theorem enterBinds_inv {cs : List (Name × Ctor)} {vars : List TyVar} {args : List Ty} : ∀ {ns : List Name} {fs : List Ty} {st st' : VSt}, VInv X cs st → ns.length = fs.length →
    enterBinds L vars args st ns fs = some st' → (∀ F ∈ fs, GoodTy X st (replaceAll vars args F)) →
    VInv X cs st' ∧ gam st' = (gam st).sets ns (fs.map (replaceAll vars args))
  | [], [], st, st', hi, _, h, _ => by simp only [enterBinds, Option.some.injEq] at h; subst h; exact ⟨hi, rfl⟩
  | [], _ :: _, _, _, _, hl, _, _ => by simp at hl
  | _ :: _, [], _, _, _, hl, _, _ => by simp at hl
  | n :: ns, f :: fs, st, st', hi, hl, h, hg => by
    simp only [enterBinds, Option.bind_eq_some_iff] at h
    obtain ⟨st1, h1, h3⟩ := h
    have e := entered_one h1 (Chk.refl st1) (t := replaceAll vars args f)
    have g := gam_one (t := replaceAll vars args f) hi.toPre h1 (Chk.refl st1)
    have hi' := hi.enter e g (hg f (by simp))
    obtain ⟨a1, a2⟩ := enterBinds_inv hi' (by simpa using hl) h3 fun F hF => (hg F (List.mem_cons_of_mem _ hF)).chk e.toGrows e.inScopeTy
    exact ⟨a1, by rw [a2, g]; rfl⟩

/-- Field types at type arguments in scope are well formed. -/
theorem field_good {cs : List (Name × Ctor)} {st : VSt} {c : Name} {d : Ctor} {args : List Ty} (hi : VInv X cs st) (hd : vget c cs = some d) (hl : d.vars.length = args.length)
    (ha : ∀ t ∈ args, Mono0 t ∧ ∀ a ∈ tfv t, a ∈ st.inScopeTy) : ∀ F ∈ d.fields, Mono0 (replaceAll d.vars args F) ∧ GoodTy X st (replaceAll d.vars args F) := by
  intro F hF
  have hm := mono0_replaceAll (as := d.vars) (fun u hu => (ha u hu).1) ((hi.ctor c d hd).1.mono F hF)
  refine ⟨hm, .mono0 hm fun a h => ?_⟩
  rcases tfv_replaceAll hl h with ⟨h1, h2⟩ | ⟨u, hu, h1⟩
  · exact absurd ((hi.ctor c d hd).1.scope F hF a h1) h2
  · exact (ha u hu).2 a h1

theorem field_sub {cs : List (Name × Ctor)} {C : Name → Option Ctor} {st : VSt} {c : Name} {d : Ctor} {args : List Ty} (hi : VInv X cs st) (hd : vget c cs = some d) (hl : d.vars.length = args.length)
    (ha : ∀ t ∈ args, Mono0 t ∧ ∀ a ∈ tfv t, a ∈ st.inScopeTy) {F : Ty} (hF : F ∈ d.fields) {k : Nat} {ρ : TEnv} {v : Val} :
    TV C k ρ (replaceAll d.vars args F) v ↔ TV C k (bindTys d.vars (args.map (TS C ρ))) F v :=
  TV_field ((hi.ctor c d hd).1.mono F hF) (fun u hu => (ha u hu).1)
    (fun u hu b hb hv => ((hi.ctor c d hd).2 b hv).2 ((ha u hu).2 b hb)) hl ((hi.ctor c d hd).1.scope F hF)

theorem joinTy_spec {acc : Option Ty} {t t' : Ty} (h : joinTy acc t = some t') : t = t' ∧ ∀ u, acc = some u → u = t' := by
  cases acc with
  | none => simp only [joinTy, Option.some.injEq] at h; exact ⟨h, by simp⟩
  | some u =>
    simp only [joinTy] at h
    split at h
    · rename_i he
      simp only [Option.some.injEq] at h
      have := tyEq_eq he
      subst h
      exact ⟨this.symm, by simp⟩
    · simp at h

/-- The context with which the constructors are looked up. -/
abbrev ctx (cs : List (Name × Ctor)) : Name → Option Ctor := fun c => vget c cs

mutual
/-- Expressions the verifier accepts have the type it computes. -/
theorem checkExpr_ok {cs : List (Name × Ctor)} : ∀ {e : Expr} {st : VSt} {r : Ty × VSt}, VInv X cs st → checkExpr L st e = some r →
    Simple st.inScopeTy e → Total (ctx cs) e → GoodTy X r.2 r.1 ∧ Ok (ctx cs) (gam st) e r.1
  | .bool _, st, r, _, h, _, _ => by
    simp only [checkExpr, Option.some.injEq] at h; subst h; exact ⟨.mono0 trivial (by simp [tfv]), ok_bool _⟩
  | .int _, st, r, _, h, _, _ => by
    simp only [checkExpr, Option.some.injEq] at h; subst h; exact ⟨.mono0 trivial (by simp [tfv]), ok_int _⟩
  | .str _, st, r, _, h, _, _ => by
    simp only [checkExpr, Option.some.injEq] at h; subst h; exact ⟨.mono0 trivial (by simp [tfv]), ok_str _⟩
  | .name n, st, r, hi, h, _, _ => by
    simp only [checkExpr] at h
    split at h
    · rename_i hn
      simp only [Option.bind_eq_some_iff, Option.some.injEq] at h
      obtain ⟨t, h1, rfl⟩ := h
      have : gam st n = some t := by simp only [gam, if_pos hn, h1]
      exact ⟨hi.ty n t this, ok_name this⟩
    · simp at h
  | .trap m t, st, r, hi, h, hs, _ => by
    simp only [checkExpr, Option.bind_eq_some_iff, Option.some.injEq] at h
    obtain ⟨st1, h1, rfl⟩ := h
    have c := (checkTy_chk (L := L) hi.toPre h1).1
    exact ⟨.mono0 hs fun a ha => c.inScopeTy ▸ checkTy_tfv hi.toPre h1 a ha, ok_trap m t _⟩
  | .call f xs, st, r, hi, h, hs, ht => by
    simp only [checkExpr, Option.bind_eq_some_iff] at h
    obtain ⟨⟨t1, st1⟩, h1, h2⟩ := h
    have a1 := (checkExpr_chk hi.toPre h1).1
    obtain ⟨g1, o1⟩ := checkExpr_ok hi h1 hs.1 (ht.child (c := ([], f)) (by simp [children]))
    split at h2
    · split at h2
      · rename_i ps out heq hl
        simp only [Option.bind_eq_some_iff, Option.some.injEq] at h2
        obtain ⟨st2, h3, rfl⟩ := h2
        obtain rfl : t1 = .fn ps out := heq
        have c2 := (checkArgs_chk (a1.pre hi.toPre) hl h3).1
        have o2 := checkArgs_ok (hi.chk a1) hl h3 (by rw [a1.inScopeTy]; exact hs.2) (fun x hx => ht.child (c := ([], x)) (by simp only [children]; exact List.mem_cons_of_mem _ (List.mem_map.2 ⟨x, hx, rfl⟩)))
          (mono0L_iff.1 g1.rank.1)
        rw [a1.gam hi.toPre] at o2
        refine ⟨?_, ok_call o1 o2⟩
        have g2 := g1.chk c2.toGrows c2.inScopeTy
        exact ⟨fun a ha => g2.fv a (by simp [tfv, ha]), fun a ha => g2.bv a (by simp [tbv, ha]), g2.rank.2⟩
      · simp at h2
    · simp at h2
  | .intr i xs, st, r, hi, h, hs, ht => by
    simp only [checkExpr] at h
    split at h
    · rename_i hl
      simp only [Option.bind_eq_some_iff, Option.some.injEq] at h
      obtain ⟨st2, h3, rfl⟩ := h
      have o2 := checkArgs_ok hi hl h3 hs (fun x hx => ht.child (c := ([], x)) (by simp only [children]; exact List.mem_map.2 ⟨x, hx, rfl⟩))
        (by cases i <;> simp [intrParams, Mono0])
      exact ⟨.mono0 (by cases i <;> trivial) (by cases i <;> simp [intrResult, tfv]), ok_intr o2⟩
    · simp at h
  | .ite c a b, st, r, hi, h, hs, ht => by
    simp only [checkExpr, Option.bind_eq_some_iff] at h
    obtain ⟨⟨t1, st1⟩, h1, h2⟩ := h
    have a1 := (checkExpr_chk hi.toPre h1).1
    obtain ⟨g1, o1⟩ := checkExpr_ok hi h1 hs.1 (ht.child (c := ([], c)) (by simp [children]))
    split at h2
    · rename_i hf
      simp only [Option.bind_eq_some_iff] at h2
      obtain ⟨⟨t2, st2⟩, h3, ⟨t3, st3⟩, h4, h5⟩ := h2
      have a2 := (checkExpr_chk (a1.pre hi.toPre) h3).1
      have hab := a1.trans a2
      obtain ⟨g2, o2⟩ := checkExpr_ok (hi.chk a1) h3 (by rw [a1.inScopeTy]; exact hs.2.1) (ht.child (c := ([], a)) (by simp [children]))
      obtain ⟨g3, o3⟩ := checkExpr_ok (hi.chk hab) h4 (by rw [hab.inScopeTy]; exact hs.2.2) (ht.child (c := ([], b)) (by simp [children]))
      rw [a1.gam hi.toPre] at o2
      rw [hab.gam hi.toPre] at o3
      split at h5
      · rename_i he
        simp only [Option.some.injEq] at h5; subst h5
        have he : t2 = t3 := tyEq_eq he
        subst he
        have hf : t1 = .bool := fits_eq (.inr trivial) hf
        subst hf
        exact ⟨g3, ok_ite o1 o2 o3⟩
      · simp at h5
    · simp at h2
  | .op a o b, st, r, hi, h, hs, ht => by
    simp only [checkExpr, Option.bind_eq_some_iff] at h
    obtain ⟨⟨t1, st1⟩, h1, h2⟩ := h
    have a1 := (checkExpr_chk hi.toPre h1).1
    obtain ⟨g1, o1⟩ := checkExpr_ok hi h1 hs.1 (ht.child (c := ([], a)) (by simp [children]))
    split at h2
    · rename_i hf
      simp only [Option.bind_eq_some_iff] at h2
      obtain ⟨⟨t2, st2⟩, h3, h5⟩ := h2
      obtain ⟨g2, o2⟩ := checkExpr_ok (hi.chk a1) h3 (by rw [a1.inScopeTy]; exact hs.2) (ht.child (c := ([], b)) (by simp [children]))
      rw [a1.gam hi.toPre] at o2
      split at h5
      · rename_i hf2
        simp only [Option.some.injEq] at h5; subst h5
        have hf : t1 = .int := fits_eq (.inr trivial) hf
        subst hf
        have hf2 : t2 = .int := fits_eq (.inr trivial) hf2
        subst hf2
        exact ⟨.mono0 (by cases o <;> trivial) (by cases o <;> simp [opResult, tfv]), ok_op o1 o2⟩
      · simp at h5
    · simp at h2
  | .lam ps b, st, r, hi, h, hs, ht => by
    simp only [checkExpr, Option.bind_eq_some_iff, Option.some.injEq] at h
    obtain ⟨st1, h1, ⟨t2, st2⟩, h2, st3, h3, rfl⟩ := h
    have e := enterPs_spec hi.toPre h1
    obtain ⟨i1, i2, i3⟩ := enterPs_inv hi h1 hs.1
    have b1 := (checkExpr_chk (e.pre hi.toPre) h2).1
    obtain ⟨g2, o2⟩ := checkExpr_ok i1 h2 (by rw [e.inScopeTy]; exact hs.2) (ht.child (c := (ps.map (·.1), b)) (by simp [children]))
    rw [i2] at o2
    have l := e.leave hi.toPre b1 h3
    have hx := exits_spec h3
    refine ⟨⟨fun a ha => ?_, fun a ha => ?_, ?_⟩, ok_lam o2⟩
    · simp only [tfv, List.mem_append] at ha
      rw [l.inScopeTy]
      rcases ha with ha | ha
      · obtain ⟨t, ht, ha⟩ := mem_tfvL.1 ha
        obtain ⟨p, hp, rfl⟩ := List.mem_map.1 ht
        exact i3 p hp a ha
      · have := g2.fv a ha
        rwa [b1.inScopeTy, e.inScopeTy] at this
    · simp only [tbv, List.mem_append] at ha
      rcases ha with ha | ha
      · rw [mono0L_tbv (mono0L_iff.2 fun t ht => by obtain ⟨p, hp, rfl⟩ := List.mem_map.1 ht; exact hs.1 p hp)] at ha
        simp at ha
      · subst hx; exact g2.bv a ha
    · exact ⟨mono0L_iff.2 fun t ht => by obtain ⟨p, hp, rfl⟩ := List.mem_map.1 ht; exact hs.1 p hp, g2.rank⟩
  | .mtch e bs, st, r, hi, h, hs, ht => by
    simp only [checkExpr, Option.bind_eq_some_iff] at h
    obtain ⟨⟨t1, st1⟩, h1, h2⟩ := h
    have a1 := (checkExpr_chk hi.toPre h1).1
    obtain ⟨g1, o1⟩ := checkExpr_ok hi h1 hs.1 (ht.child (c := ([], e)) (by simp [children]))
    split at h2
    · rename_i n args heq
      obtain rfl : t1 = .named n args := heq
      simp only [Option.bind_eq_some_iff, Option.some.injEq] at h2
      obtain ⟨⟨t2, st2⟩, h3, t, ht', rfl⟩ := h2
      have hargs : ∀ t ∈ args, Mono0 t ∧ ∀ a ∈ tfv t, a ∈ st1.inScopeTy := fun t ht =>
        ⟨mono0L_iff.1 g1.rank t ht, fun a ha => g1.fv a (by simp only [tfv]; exact mem_tfvL.2 ⟨t, ht, ha⟩)⟩
      have hne : bs ≠ [] := by
        rintro rfl
        simp only [checkBranches, Option.some.injEq] at h3
        rw [← h3] at ht'; simp at ht'
      obtain ⟨k1, k2, k3⟩ := checkBranches_ok (hi.chk a1) h3 (by rw [a1.inScopeTy]; exact hs.2)
        (fun b hb => ht.child (c := (b.binds, b.body)) (by simp only [children]; exact List.mem_cons_of_mem _ (List.mem_map.2 ⟨b, hb, rfl⟩))) hargs (by simp)
      have hbs := k2 t ht'
      rw [a1.gam hi.toPre] at hbs
      refine ⟨k1 t ht', ok_mtch o1 (fun c d hd hl F hF k ρ v => (field_sub (hi.chk a1) hd hl hargs hF).2) ?_ hbs⟩
      intro c d hd hn
      obtain ⟨b, hb⟩ := List.exists_mem_of_ne_nil bs hne
      obtain ⟨d', hd', hn', -⟩ := hbs b hb
      exact ht _ .refl b hb d' hd' c d hd (hn.trans hn'.symm)
    · simp at h2
  | .con c tys xs, st, r, hi, h, hs, ht => by
    simp only [checkExpr, Option.bind_eq_some_iff] at h
    obtain ⟨d, h1, h2⟩ := h
    rw [hi.ctors] at h1
    split at h2
    · rename_i hl
      simp only [Option.bind_eq_some_iff, Option.some.injEq] at h2
      obtain ⟨st2, h3, rfl⟩ := h2
      have c2 := (checkFields_chk hi.toPre hl.2 h3).1
      have o2 := checkFields_ok hi hl.2 h3 hs.2 (fun x hx => ht.child (c := ([], x)) (by simp only [children]; exact List.mem_map.2 ⟨x, hx, rfl⟩))
        (fun F hF => (field_good hi h1 hl.1 hs.1 F hF).1)
      refine ⟨.mono0 (mono0L_iff.2 fun t ht => (hs.1 t ht).1) fun a ha => ?_, ok_con h1 hl.1 (hi.ctor c d h1).1.small hl.2 (fun F hF k ρ v _ => (field_sub hi h1 hl.1 hs.1 hF).1) o2⟩
      simp only [tfv] at ha
      obtain ⟨t, ht, ha⟩ := mem_tfvL.1 ha
      exact c2.inScopeTy ▸ (hs.1 t ht).2 a ha
    · simp at h2
  | .let_ n a b, st, r, hi, h, hs, ht => by
    simp only [checkExpr, Option.bind_eq_some_iff, Option.some.injEq] at h
    obtain ⟨⟨t1, st1⟩, h1, st2, h2, ⟨t3, st3⟩, h3, st4, h4, rfl⟩ := h
    have a1 := (checkExpr_chk hi.toPre h1).1
    obtain ⟨g1, o1⟩ := checkExpr_ok hi h1 hs.1 (ht.child (c := ([], a)) (by simp [children]))
    have hi1 := hi.chk a1
    have e := entered_let h2
    have g := gam_let hi1.toPre h2
    have hi2 := hi1.enter e g g1
    obtain ⟨g3, o3⟩ := checkExpr_ok hi2 h3 (by rw [e.inScopeTy, a1.inScopeTy]; exact hs.2) (ht.child (c := ([n], b)) (by simp [children]))
    rw [g, a1.gam hi.toPre] at o3
    have hx := exit_spec h4
    subst hx
    exact ⟨⟨g3.fv, g3.bv, g3.rank⟩, ok_let o1 o3⟩
  | .letrec n t a b, st, r, hi, h, hs, ht => by
    simp only [checkExpr, Option.bind_eq_some_iff] at h
    obtain ⟨st0, h0, st1, h1, ⟨t2, st2⟩, h2, h3⟩ := h
    split at h3
    · rename_i hf
      simp only [Option.bind_eq_some_iff, Option.some.injEq] at h3
      obtain ⟨⟨t3, st3⟩, h3, st4, h4, rfl⟩ := h3
      have c0 := (checkTy_chk (L := L) hi.toPre h0).1
      have hi0 := hi.chk c0
      have e := entered_one h1 (Chk.refl st1) (t := t)
      have g := gam_one (t := t) hi0.toPre h1 (Chk.refl st1)
      have hi1 := hi0.enter e g (.mono0 hs.1 fun x hx => c0.inScopeTy ▸ checkTy_tfv hi.toPre h0 x hx)
      have a1 := (checkExpr_chk hi1.toPre h2).1
      have hty : (st1.setTy n t).inScopeTy = st.inScopeTy := e.inScopeTy.trans c0.inScopeTy
      have hf : t2 = t := fits_eq (.inr hs.1) hf
      subst hf
      obtain ⟨g3, o3⟩ := checkExpr_ok (hi1.chk a1) h3 (by rw [a1.inScopeTy, hty]; exact hs.2.2) (ht.child (c := ([n], b)) (by simp [children]))
      rw [a1.gam hi1.toPre, g, c0.gam hi.toPre] at o3
      have hx := exit_spec h4
      subst hx
      refine ⟨⟨g3.fv, g3.bv, g3.rank⟩, ?_⟩
      have hrec : (recLam a).isSome = true := ht _ .refl
      have hta := ht.child (c := ([n], a)) (by simp [children])
      match a, h2, hs, hrec, hta with
      | .lam ps body, h2, hs, hrec, hta =>
        simp only [checkExpr, Option.bind_eq_some_iff, Option.some.injEq, Prod.mk.injEq] at h2
        obtain ⟨st5, h5, ⟨t6, st6⟩, h6, st7, h7, h8, -⟩ := h2
        have e5 := enterPs_spec hi1.toPre h5
        obtain ⟨i1, i2, i3⟩ := enterPs_inv hi1 h5 hs.2.1.1
        obtain ⟨g6, o6⟩ := checkExpr_ok i1 h6 (by rw [e5.inScopeTy, hty]; exact hs.2.1.2) (hta.child (c := (ps.map (·.1), body)) (by simp [children]))
        rw [i2, g, c0.gam hi.toPre] at o6
        subst h8
        exact ok_letrec (fun hm => e5.fresh n hm (e.mem (by simp))) o6 o3
      | .pi v e', h2, hs, hrec, hta =>
        simp only [checkExpr, Option.bind_eq_some_iff, Option.some.injEq, Prod.mk.injEq] at h2
        obtain ⟨st5, h5, ⟨t6, st6⟩, h6, st7, h7, h8, -⟩ := h2
        subst h8
        exact hs.1.elim
      | .bool _, _, _, hrec, _ => simp [recLam, stripPis] at hrec
      | .int _, _, _, hrec, _ => simp [recLam, stripPis] at hrec
      | .str _, _, _, hrec, _ => simp [recLam, stripPis] at hrec
      | .name _, _, _, hrec, _ => simp [recLam, stripPis] at hrec
      | .call _ _, _, _, hrec, _ => simp [recLam, stripPis] at hrec
      | .ite _ _ _, _, _, hrec, _ => simp [recLam, stripPis] at hrec
      | .op _ _ _, _, _, hrec, _ => simp [recLam, stripPis] at hrec
      | .intr _ _, _, _, hrec, _ => simp [recLam, stripPis] at hrec
      | .mtch _ _, _, _, hrec, _ => simp [recLam, stripPis] at hrec
      | .con _ _ _, _, _, hrec, _ => simp [recLam, stripPis] at hrec
      | .let_ _ _ _, _, _, hrec, _ => simp [recLam, stripPis] at hrec
      | .letrec _ _ _ _, _, _, hrec, _ => simp [recLam, stripPis] at hrec
      | .piApp _ _, _, _, hrec, _ => simp [recLam, stripPis] at hrec
      | .trap _ _, _, _, hrec, _ => simp [recLam, stripPis] at hrec
    · simp at h3
  | .pi v e, st, r, hi, h, hs, ht => by
    simp only [checkExpr, Option.bind_eq_some_iff, Option.some.injEq] at h
    obtain ⟨st1, h1, ⟨t2, st2⟩, h2, st3, h3, rfl⟩ := h
    have hchk := (checkExpr_chk (e := .pi v e) (L := L) hi.toPre (by
      simp only [checkExpr, Option.bind_eq_some_iff, Option.some.injEq]; exact ⟨st1, h1, ⟨t2, st2⟩, h2, st3, h3, rfl⟩)).1
    obtain ⟨hv, rfl⟩ := enterTy_spec h1
    have hi1 : VInv X cs { st with definedTy := v :: st.definedTy, inScopeTy := v :: st.inScopeTy } := by
      refine ⟨⟨hi.sub, fun a ha => ?_⟩, hi.ctors, fun a ha => List.mem_cons_of_mem _ (hi.avoid a ha), fun x t hx => ?_, fun c d hd => ⟨(hi.ctor c d hd).1, fun a ha => ?_⟩⟩
      · rcases List.mem_cons.1 ha with rfl | ha
        · simp
        · exact List.mem_cons_of_mem _ (hi.subTy a ha)
      · have h := hi.ty x t hx
        refine ⟨fun a ha => List.mem_cons_of_mem _ (h.fv a ha), fun a ha => ⟨List.mem_cons_of_mem _ (h.bv a ha).1, fun hm => ?_, (h.bv a ha).2.2⟩, h.rank⟩
        rcases List.mem_cons.1 hm with rfl | hm
        · exact hv (h.bv a ha).1
        · exact (h.bv a ha).2.1 hm
      · have h := (hi.ctor c d hd).2 a ha
        refine ⟨List.mem_cons_of_mem _ h.1, fun hm => ?_⟩
        rcases List.mem_cons.1 hm with rfl | hm
        · exact hv h.1
        · exact h.2 hm
    have b1 := (checkExpr_chk hi1.toPre h2).1
    obtain ⟨g2, o2⟩ := checkExpr_ok hi1 h2 hs (ht.child (c := ([], e)) (by simp [children]))
    have hx := exitTy_spec h3
    subst hx
    refine ⟨⟨fun a ha => ?_, fun a ha => ?_, fun hb => (g2.bv v hb).2.1 ?_, g2.rank⟩, ok_pi (fun x u hx hm => ?_) o2⟩
    · simp only [tfv, List.mem_filter, bne_iff_ne, ne_eq] at ha
      rw [hchk.inScopeTy]
      have := g2.fv a ha.1
      rw [b1.inScopeTy] at this
      exact (List.mem_cons.1 this).resolve_left ha.2
    · rw [hchk.inScopeTy]
      simp only [tbv, List.mem_cons] at ha
      rcases ha with rfl | ha
      · exact ⟨b1.tys a (by simp), fun hm => hv (hi.subTy a hm), fun hm => hv (hi.avoid a hm)⟩
      · have := g2.bv a ha
        rw [b1.inScopeTy] at this
        exact ⟨this.1, fun hm => this.2.1 (List.mem_cons_of_mem _ hm), this.2.2⟩
    · show v ∈ st2.inScopeTy
      rw [b1.inScopeTy]; simp
    · exact hv (hi.subTy v ((hi.ty x u hx).fv v hm))
  | .piApp e u, st, r, hi, h, hs, ht => by
    simp only [checkExpr, Option.bind_eq_some_iff] at h
    obtain ⟨⟨t1, st1⟩, h1, h2⟩ := h
    have a1 := (checkExpr_chk hi.toPre h1).1
    obtain ⟨g1, o1⟩ := checkExpr_ok hi h1 hs.2 (ht.child (c := ([], e)) (by simp [children]))
    split at h2
    · rename_i v t heq
      obtain rfl : t1 = .abs v t := heq
      simp only [Option.some.injEq] at h2; subst h2
      refine ⟨⟨fun a ha => ?_, fun a ha => ?_, rank_replace hs.1.1 g1.rank.2⟩, ok_piApp g1.rank.1 (fun b hb hm => ?_) o1⟩
      · rcases tfv_replace ha with h | h
        · exact g1.fv a (by simp only [tfv, List.mem_filter, bne_iff_ne, ne_eq]; exact h)
        · exact a1.inScopeTy ▸ hs.1.2 a h
      · rw [tbv_replace hs.1.1] at ha
        exact g1.bv a (by simp [tbv, ha])
      · exact (g1.bv b (by simp [tbv, hm])).2.1 (a1.inScopeTy ▸ hs.1.2 b hb)
    · simp at h2
theorem checkArgs_ok {cs : List (Name × Ctor)} : ∀ {xs : List Expr} {ts : List Ty} {st st' : VSt}, VInv X cs st → ts.length = xs.length →
    checkArgs L st ts xs = some st' → SimpleL st.inScopeTy xs → (∀ x ∈ xs, Total (ctx cs) x) → (∀ t ∈ ts, Mono0 t) →
    All2 (fun e t => Ok (ctx cs) (gam st) e t) xs ts
  | [], _, st, st', _, hl, h, _, _, _ => by
    obtain rfl := List.length_eq_zero_iff.1 hl
    trivial
  | _ :: _, [], _, _, _, hl, _, _, _, _ => by simp at hl
  | x :: xs, t :: ts, st, st', hi, hl, h, hs, ht, hm => by
    simp only [checkArgs, Option.bind_eq_some_iff] at h
    obtain ⟨⟨t1, st1⟩, h1, h2⟩ := h
    have a1 := (checkExpr_chk hi.toPre h1).1
    obtain ⟨g1, o1⟩ := checkExpr_ok hi h1 hs.1 (ht x (by simp))
    split at h2
    · rename_i hf
      have b := checkArgs_ok (hi.chk a1) (by simpa using hl) h2 (by rw [a1.inScopeTy]; exact hs.2) (fun y hy => ht y (List.mem_cons_of_mem _ hy)) fun y hy => hm y (List.mem_cons_of_mem _ hy)
      rw [a1.gam hi.toPre] at b
      have hf : t1 = t := fits_eq (.inr (hm t (by simp))) hf
      exact ⟨hf ▸ o1, b⟩
    · simp at h2
theorem checkFields_ok {cs : List (Name × Ctor)} {vars : List TyVar} {tys : List Ty} : ∀ {xs : List Expr} {ts : List Ty} {st st' : VSt}, VInv X cs st → ts.length = xs.length →
    checkFields L vars tys st ts xs = some st' → SimpleL st.inScopeTy xs → (∀ x ∈ xs, Total (ctx cs) x) → (∀ t ∈ ts, Mono0 (replaceAll vars tys t)) →
    All2 (fun e t => Ok (ctx cs) (gam st) e t) xs (ts.map (replaceAll vars tys))
  | [], _, st, st', _, hl, h, _, _, _ => by
    obtain rfl := List.length_eq_zero_iff.1 hl
    trivial
  | _ :: _, [], _, _, _, hl, _, _, _, _ => by simp at hl
  | x :: xs, t :: ts, st, st', hi, hl, h, hs, ht, hm => by
    simp only [checkFields, Option.bind_eq_some_iff] at h
    obtain ⟨⟨t1, st1⟩, h1, h2⟩ := h
    have a1 := (checkExpr_chk hi.toPre h1).1
    obtain ⟨g1, o1⟩ := checkExpr_ok hi h1 hs.1 (ht x (by simp))
    split at h2
    · rename_i hf
      have b := checkFields_ok (hi.chk a1) (by simpa using hl) h2 (by rw [a1.inScopeTy]; exact hs.2) (fun y hy => ht y (List.mem_cons_of_mem _ hy)) fun y hy => hm y (List.mem_cons_of_mem _ hy)
      rw [a1.gam hi.toPre] at b
      have hf : _ = t1 := fits_eq (.inl (hm t (by simp))) hf
      exact ⟨hf ▸ o1, b⟩
    · simp at h2
theorem checkBranches_ok {cs : List (Name × Ctor)} {n : Name} {args : List Ty} : ∀ {bs : List Branch} {acc : Option Ty} {st : VSt} {r : Option Ty × VSt}, VInv X cs st →
    checkBranches L n args st acc bs = some r → SimpleB st.inScopeTy bs → (∀ b ∈ bs, Total (ctx cs) b.body) →
    (∀ t ∈ args, Mono0 t ∧ ∀ a ∈ tfv t, a ∈ st.inScopeTy) → (∀ t, acc = some t → GoodTy X st t) →
    (∀ t, r.1 = some t → GoodTy X r.2 t) ∧ (∀ t, r.1 = some t → ∀ b ∈ bs, OkBr (ctx cs) (gam st) n args t b) ∧ (∀ t, acc = some t → r.1 = some t)
  | [], acc, st, r, _, h, _, _, _, hacc => by
    simp only [checkBranches, Option.some.injEq] at h; subst h; exact ⟨hacc, by simp, fun t h => h⟩
  | .mk c ns e :: bs, acc, st, r, hi, h, hs, ht, ha, hacc => by
    simp only [checkBranches, Option.bind_eq_some_iff] at h
    obtain ⟨d, h1, h2⟩ := h
    rw [hi.ctors] at h1
    split at h2
    · rename_i hl
      simp only [Option.bind_eq_some_iff] at h2
      obtain ⟨st1, h3, ⟨t2, st2⟩, h4, t, hj, st3, h5, h6⟩ := h2
      have en := enterBinds_spec hl.2.2.symm h3 hi.toPre
      obtain ⟨i1, i2⟩ := enterBinds_inv hi hl.2.2.symm h3 fun F hF => (field_good hi h1 hl.2.1 ha F hF).2
      have a1 := (checkExpr_chk i1.toPre h4).1
      obtain ⟨g2, o2⟩ := checkExpr_ok i1 h4 (by rw [en.inScopeTy]; exact hs.1) (ht (.mk c ns e) (by simp))
      rw [i2] at o2
      have l := en.leave hi.toPre a1 h5
      obtain ⟨rfl, hu⟩ := joinTy_spec hj
      have g3 : GoodTy X st3 t2 := by
        have hx := exits_spec h5
        subst hx
        exact ⟨g2.fv, g2.bv, g2.rank⟩
      obtain ⟨k1, k2, k3⟩ := checkBranches_ok (hi.chk l) h6 (by rw [l.inScopeTy]; exact hs.2) (fun b hb => ht b (List.mem_cons_of_mem _ hb))
        (by rw [l.inScopeTy]; exact ha) (fun t h => by obtain rfl := Option.some.inj h; exact g3)
      rw [l.gam hi.toPre] at k2
      have hr := k3 t2 rfl
      refine ⟨k1, fun t h b hb => ?_, fun t h => ?_⟩
      · have : t2 = t := by rw [hr] at h; exact Option.some.inj h
        subst this
        rcases List.mem_cons.1 hb with rfl | hb
        · exact ⟨d, h1, hl.1.symm, hl.2.1, hl.2.2, o2⟩
        · exact k2 t2 h b hb
      · rw [hr, hu t h]
    · simp at h2
end

end Tic.Core
