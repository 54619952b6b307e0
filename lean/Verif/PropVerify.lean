import Verif.VerifyTypes
import Verif.OptSpec
import Verif.PropInline
import Verif.PropBytecode
/-
C36: what the verifier of core programs guarantees.
-/
namespace Tic.Core

/-! ### Specification -/

/-- The names a program's type definitions declare. -/
def declNames (ds : List TyDef) : List Name := ds.flatMap fun D => D.name :: D.cases.map (·.name)

/-- The constructors of a program. -/
def declared (ds : List TyDef) : List (Name × Ctor) :=
  ds.flatMap fun D => D.cases.map fun c => (c.name, ⟨D.name, D.vars, c.fields⟩)

/-- Quantifiers only in front. -/
def Prenex : Ty → Prop
  | .abs _ t => Prenex t
  | t => Mono0 t

/-- What the verifier takes for granted: fields and annotations without quantifiers, type
arguments that are in scope, complete matches, recursive definitions that are functions, and
not too many fields. -/
structure Vouched (p : Program) : Prop where
  fields : ∀ D ∈ p.types, ∀ c ∈ D.cases, c.fields.length ≤ maxFields ∧ ∀ F ∈ c.fields, Mono0 F
  simple : ∀ d ∈ p.defs, Prenex d.ty ∧ Simple [] d.value
  total : ∀ d ∈ p.defs, Total (fun c => vget c (declared p.types)) d.value

/-- The values of a type: for a named type, a constructor of that type applied to values of
its field types; for a quantified type, values of every instance; for a function type, functions. -/
inductive OfType (cs : List (Name × Ctor)) : Ty → Val → Prop
  | bool (b : Bool) : OfType cs .bool (.bool b)
  | int (i : UInt64) : OfType cs .int (.int i)
  | string (s : List UInt8) : OfType cs .string (.str s)
  | fn {ps : List Ty} {out : Ty} {v : Val} : v.isFn = true → OfType cs (.fn ps out) v
  | named {c : Name} {d : Ctor} {args : List Ty} {fs : List Val} : (c, d) ∈ cs → d.vars.length = args.length →
      d.fields.length = fs.length → (∀ (i : Nat) F f, d.fields[i]? = some F → fs[i]? = some f → OfType cs (replaceAll d.vars args F) f) →
      OfType cs (.named d.tyName args) (.comp c fs)
  | abs {a : TyVar} {t : Ty} {v : Val} : (∀ u, Mono0 u → tfv u = [] → OfType cs (replace a u t) v) → OfType cs (.abs a t) v

/-! ### Type definitions -/

variable {L : Nat}

theorem enterTys_spec : ∀ {vs : List TyVar} {st st' : VSt}, Pre st → st.enterTys vs = some st' →
    Pre st' ∧ st'.inScopeTy = vs.reverse ++ st.inScopeTy ∧ (∀ a ∈ vs, a ∈ st'.definedTy ∧ a ∉ st.definedTy) ∧ (∀ a ∈ st.definedTy, a ∈ st'.definedTy) ∧
      st'.defined = st.defined ∧ st'.inScope = st.inScope ∧ st'.types = st.types ∧ st'.ctors = st.ctors
  | [], st, st', hp, h => by
    simp only [VSt.enterTys, Option.some.injEq] at h; subst h
    exact ⟨hp, rfl, by simp, fun _ h => h, rfl, rfl, rfl, rfl⟩
  | v :: vs, st, st', hp, h => by
    simp only [VSt.enterTys, Option.bind_eq_some_iff] at h
    obtain ⟨st1, h1, h2⟩ := h
    obtain ⟨hv, rfl⟩ := enterTy_spec h1
    have hp1 : Pre { st with definedTy := v :: st.definedTy, inScopeTy := v :: st.inScopeTy } :=
      ⟨hp.sub, fun a ha => by
        rcases List.mem_cons.1 ha with rfl | ha
        · simp
        · exact List.mem_cons_of_mem _ (hp.subTy a ha)⟩
    obtain ⟨a1, a2, a3, a4, a5, a6, a7, a8⟩ := enterTys_spec hp1 h2
    refine ⟨a1, by rw [a2]; simp, fun a ha => ?_, fun a ha => a4 a (List.mem_cons_of_mem _ ha), a5, a6, a7, a8⟩
    rcases List.mem_cons.1 ha with rfl | ha
    · exact ⟨a4 a (by simp), hv⟩
    · exact ⟨(a3 a ha).1, fun hd => (a3 a ha).2 (List.mem_cons_of_mem _ hd)⟩

/-- From `st` to `st'` the names `ns` and the constructors `cs` have been declared. -/
structure Decl (L : Nat) (st st' : VSt) (ns : List Name) (cs : List (Name × Ctor)) : Prop where
  pre : Pre st'
  cnt : ∀ y, st'.defined.count y = ns.count y + st.defined.count y
  nodup : st.defined.Nodup → st'.defined.Nodup
  lt : ∀ y ∈ ns, y < L
  types : st'.types = st.types
  inScopeTy : st'.inScopeTy = st.inScopeTy
  tys : ∀ a ∈ st.definedTy, a ∈ st'.definedTy
  ctors : st'.ctors = cs.reverse ++ st.ctors

theorem Decl.trans {st st' st'' : VSt} {ns ms : List Name} {cs ds : List (Name × Ctor)} (h : Decl L st st' ns cs) (h' : Decl L st' st'' ms ds) :
    Decl L st st'' (ns ++ ms) (cs ++ ds) :=
  ⟨h'.pre, fun y => by rw [h'.cnt, h.cnt, List.count_append]; omega, fun hn => h'.nodup (h.nodup hn),
    fun y hy => (List.mem_append.1 hy).elim (h.lt y) (h'.lt y), h'.types.trans h.types, h'.inScopeTy.trans h.inScopeTy,
    fun a ha => h'.tys a (h.tys a ha), by rw [h'.ctors, h.ctors]; simp⟩

theorem Decl.refl {st : VSt} (hp : Pre st) : Decl L st st [] [] := ⟨hp, by simp, id, by simp, rfl, rfl, fun _ h => h, rfl⟩

theorem checkTyCase_spec {n : Name} {vars : List TyVar} {c : TyCase} {st st' : VSt} (hp : Pre st) (h : checkTyCase L n vars st c = some st') :
    Decl L st st' [c.name] [(c.name, ⟨n, vars, c.fields⟩)] ∧ ∀ F ∈ c.fields, ∀ a ∈ tfv F, a ∈ st.inScopeTy := by
  simp only [checkTyCase, Option.bind_eq_some_iff, Option.some.injEq] at h
  obtain ⟨st1, h1, st2, h2, rfl⟩ := h
  have e := enter_ext h1
  have hp1 := pre_enter hp h1
  obtain ⟨c1, c2, c3⟩ := checkTys_chk (L := L) hp1 h2
  have c4 := checkTys_tfv hp1 h2
  have e2 := e.trans c1.toGrows
  have hp2 := c1.pre hp1
  obtain ⟨-, -, rfl⟩ := enter_spec h1
  refine ⟨⟨⟨hp2.sub, hp2.subTy⟩, e2.cnt, e2.nodup, e2.lt, c2, c1.inScopeTy, e2.tys, ?_⟩, fun F hF a ha => c4 a (mem_tfvL.2 ⟨F, hF, ha⟩)⟩
  simp only [List.reverse_cons, List.reverse_nil, List.nil_append, List.cons_append]
  rw [c1.ctors]

theorem checkTyCases_spec {n : Name} {vars : List TyVar} : ∀ {cs : List TyCase} {st st' : VSt}, Pre st → checkTyCases L n vars st cs = some st' →
    Decl L st st' (cs.map (·.name)) (cs.map fun c => (c.name, ⟨n, vars, c.fields⟩)) ∧ ∀ c ∈ cs, ∀ F ∈ c.fields, ∀ a ∈ tfv F, a ∈ st.inScopeTy
  | [], st, st', hp, h => by
    simp only [checkTyCases, Option.some.injEq] at h; subst h
    exact ⟨.refl hp, by simp⟩
  | c :: cs, st, st', hp, h => by
    simp only [checkTyCases, Option.bind_eq_some_iff] at h
    obtain ⟨st1, h1, h2⟩ := h
    obtain ⟨a1, a2⟩ := checkTyCase_spec hp h1
    obtain ⟨b1, b2⟩ := checkTyCases_spec a1.pre h2
    refine ⟨a1.trans b1, fun c' hc' => ?_⟩
    rcases List.mem_cons.1 hc' with rfl | hc'
    · exact a2
    · exact fun F hF a ha => a1.inScopeTy ▸ b2 c' hc' F hF a ha

theorem checkTyDef_spec {D : TyDef} {st st' : VSt} (hp : Pre st) (hs : st.inScopeTy = []) (h : checkTyDef L st D = some st') :
    Decl L st st' (D.name :: D.cases.map (·.name)) (D.cases.map fun c => (c.name, ⟨D.name, D.vars, c.fields⟩)) ∧
      (∀ c ∈ D.cases, ∀ F ∈ c.fields, ∀ a ∈ tfv F, a ∈ D.vars) ∧ ∀ a ∈ D.vars, a ∈ st'.definedTy := by
  simp only [checkTyDef, Option.bind_eq_some_iff] at h
  obtain ⟨st1, h1, st2, h2, st3, h3, h4⟩ := h
  have e := enter_ext h1
  have hp1 := pre_enter hp h1
  have hst1 := (enter_spec h1).2.2
  obtain ⟨a1, a2, a3, a4, a5, a6, a7, a8⟩ := enterTys_spec (st := { st1 with kinds := (D.name, D.vars.length) :: st1.kinds }) ⟨hp1.sub, hp1.subTy⟩ h2
  obtain ⟨b1, b2⟩ := checkTyCases_spec a1 h3
  have h4 := exitTys_spec h4
  subst h4
  have hty : st2.inScopeTy = D.vars.reverse := by
    rw [a2]
    show _ ++ st1.inScopeTy = _
    rw [hst1]
    show _ ++ st.inScopeTy = _
    rw [hs, List.append_nil]
  refine ⟨⟨⟨b1.pre.sub, ?_⟩, fun y => ?_, fun hn => ?_, ?_, ?_, ?_, ?_, ?_⟩, fun c hc F hF a ha => ?_, fun a ha => ?_⟩
  · intro a ha
    exact b1.pre.subTy a (List.mem_filter.1 ha).1
  · show st3.defined.count y = _
    rw [b1.cnt, a5]
    have := e.cnt y
    simp only [List.count_cons, List.count_nil] at this ⊢
    show _ + st1.defined.count y = _
    omega
  · show st3.defined.Nodup
    refine b1.nodup ?_
    rw [a5]; exact e.nodup hn
  · intro y hy
    rcases List.mem_cons.1 hy with rfl | hy
    · exact (enter_spec h1).1
    · exact b1.lt y hy
  · show st3.types = _
    rw [b1.types, a7]
    show st1.types = _
    rw [hst1]
  · show st3.inScopeTy.filter _ = _
    rw [b1.inScopeTy, hty, hs]
    simp
  · exact fun a ha => b1.tys a (a4 a (by show a ∈ st1.definedTy; rw [hst1]; exact ha))
  · show st3.ctors = _
    rw [b1.ctors, a8]
    show _ ++ st1.ctors = _
    rw [hst1]
  · have := b2 c hc F hF a ha
    rw [hty] at this
    simpa using this
  · exact b1.tys a (a3 a ha).1

theorem checkTyDefs_spec : ∀ {ds : List TyDef} {st st' : VSt}, Pre st → st.inScopeTy = [] → checkTyDefs L st ds = some st' →
    Decl L st st' (declNames ds) (declared ds) ∧ (∀ D ∈ ds, ∀ c ∈ D.cases, ∀ F ∈ c.fields, ∀ a ∈ tfv F, a ∈ D.vars) ∧
      ∀ D ∈ ds, ∀ a ∈ D.vars, a ∈ st'.definedTy
  | [], st, st', hp, _, h => by
    simp only [checkTyDefs, Option.some.injEq] at h; subst h
    exact ⟨.refl hp, by simp, by simp⟩
  | D :: ds, st, st', hp, hs, h => by
    simp only [checkTyDefs, Option.bind_eq_some_iff] at h
    obtain ⟨st1, h1, h2⟩ := h
    obtain ⟨a1, a2, a3⟩ := checkTyDef_spec hp hs h1
    obtain ⟨b1, b2, b3⟩ := checkTyDefs_spec a1.pre (a1.inScopeTy.trans hs) h2
    refine ⟨a1.trans b1, fun D' hD' => ?_, fun D' hD' => ?_⟩
    · rcases List.mem_cons.1 hD' with rfl | hD'
      · exact a2
      · exact b2 D' hD'
    · rcases List.mem_cons.1 hD' with rfl | hD'
      · exact fun a ha => b1.tys a (a3 a ha)
      · exact b3 D' hD'

/-! ### Names -/

/-- Names of definitions and of everything bound inside them. -/
def defNames (ds : List ValueDef) : List Name := ds.flatMap fun d => d.name :: binders d.value

theorem checkDef_spec {d : ValueDef} {ds : List ValueDef} {st st' : VSt} (hp : Pre st) (h : checkDefs L st (d :: ds) = some st') :
    ∃ st1 r st2, checkTy st d.ty = some st1 ∧ checkExpr L st1 d.value = some r ∧ fits r.1 d.ty = true ∧ r.2.enter L d.name = some st2 ∧
      checkDefs L (st2.setTy d.name r.1) ds = some st' ∧ Chk L st r.2 (binders d.value) ∧ Pre r.2 ∧
      Entered L r.2 (st2.setTy d.name r.1) [d.name] [r.1] ∧ Pre (st2.setTy d.name r.1) := by
  simp only [checkDefs, Option.bind_eq_some_iff] at h
  obtain ⟨st1, h1, r, h2, h3⟩ := h
  split at h3
  · rename_i hf
    simp only [Option.bind_eq_some_iff] at h3
    obtain ⟨st2, h3, h4⟩ := h3
    have c1 := (checkTy_chk (L := L) hp h1).1
    have c2 := c1.trans (checkExpr_chk (c1.pre hp) h2).1
    have e := entered_one h3 (Chk.refl st2) (t := r.1)
    exact ⟨st1, r, st2, h1, h2, hf, h3, h4, c2, c2.pre hp, e, e.pre (c2.pre hp)⟩
  · simp at h3

theorem checkDefs_names : ∀ {ds : List ValueDef} {st st' : VSt}, Pre st → checkDefs L st ds = some st' →
    (∀ y, st'.defined.count y = (defNames ds).count y + st.defined.count y) ∧ (st.defined.Nodup → st'.defined.Nodup) ∧ (∀ y ∈ defNames ds, y < L) ∧
    ∀ pre d post, ds = pre ++ d :: post → ∀ x, Free x d.value → x ∈ pre.map (·.name) ∨ Bnd st x
  | [], st, st', _, h => by
    simp only [checkDefs, Option.some.injEq] at h; subst h
    exact ⟨by simp [defNames], id, by simp [defNames], by simp⟩
  | d :: ds, st, st', hp, h => by
    obtain ⟨st1, r, st2, h1, h2, hf, h3, h4, c, hp2, e, hp3⟩ := checkDef_spec hp h
    obtain ⟨a1, a2, a3, a4⟩ := checkDefs_names hp3 h4
    have g := c.toGrows.trans e.toGrows
    refine ⟨fun y => ?_, fun hn => a2 (g.nodup hn), fun y hy => ?_, ?_⟩
    · rw [a1, g.cnt]
      simp only [defNames, List.flatMap_cons, List.count_append, List.count_cons, List.count_nil]; omega
    · simp only [defNames, List.flatMap_cons, List.mem_append, List.mem_cons] at hy
      rcases hy with (rfl | hy) | hy
      · exact e.lt _ (by simp)
      · exact c.lt y hy
      · exact a3 y hy
    · intro pre d' post he x hx
      have c1 := (checkTy_chk (L := L) hp h1).1
      cases pre with
      | nil =>
        simp only [List.nil_append, List.cons.injEq] at he
        obtain ⟨rfl, rfl⟩ := he
        exact .inr (c1.bnd hp ((checkExpr_chk (c1.pre hp) h2).2 x hx))
      | cons d0 pre =>
        simp only [List.cons_append, List.cons.injEq] at he
        obtain ⟨rfl, rfl⟩ := he
        rcases a4 pre d' post rfl x hx with h | h
        · exact .inl (List.mem_cons_of_mem _ h)
        · by_cases hxd : x = d.name
          · exact .inl (by simp [hxd])
          · exact .inr (c.bnd hp (e.bnd hp2 (by simpa using hxd) h))

/-- An accepted program gives every type, constructor, definition and local binder its own
name, below the limit of the name generator, and a definition mentions only earlier ones. -/
theorem verify_names {p : Program} {st : VSt} (h : verify L p = some st) :
    (declNames p.types ++ defNames p.defs).Nodup ∧ (∀ y ∈ declNames p.types ++ defNames p.defs, y < L) ∧
    ∀ pre d post, p.defs = pre ++ d :: post → ∀ x, Free x d.value → x ∈ pre.map (·.name) := by
  simp only [verify, Option.bind_eq_some_iff] at h
  obtain ⟨st1, h1, h2⟩ := h
  have hp : Pre {} := ⟨(fun _ h => nomatch h), (fun _ h => nomatch h)⟩
  obtain ⟨a1, -, -⟩ := checkTyDefs_spec hp rfl h1
  obtain ⟨b1, b2, b3, b4⟩ := checkDefs_names a1.pre h2
  refine ⟨?_, fun y hy => (List.mem_append.1 hy).elim (a1.lt y) (b3 y), fun pre d post he x hx => ?_⟩
  · have hn := b2 (a1.nodup List.nodup_nil)
    rw [List.nodup_iff_count] at hn ⊢
    intro y
    have := hn y
    rw [b1, a1.cnt] at this
    simp only [List.count_append]
    have h0 : List.count y ({} : VSt).defined = 0 := rfl
    omega
  · refine (b4 pre d post he x hx).resolve_right fun hb => ?_
    have := hb.2
    rw [a1.types] at this
    simp [vget] at this

/-- ... so it satisfies what the optimizer assumes about names. -/
theorem verify_wellNamed {p : Program} {st : VSt} (h : verify L p = some st) (hs : ∀ d ∈ p.defs, WellShaped d.value) :
    WellNamed p ∧ NamesBelow L p := by
  obtain ⟨h1, h2, h3⟩ := verify_names h
  refine ⟨⟨(List.nodup_append.1 h1).2.1, h3, hs⟩, fun d hd y hy => h2 y (List.mem_append_right _ ?_)⟩
  simp only [defNames, List.mem_flatMap]
  exact ⟨d, hd, hy⟩

/-! ### Constructors -/

theorem vget_mem {α : Type} {n : Name} {v : α} : ∀ {l : List (Name × α)}, vget n l = some v → (n, v) ∈ l
  | [], h => by simp [vget] at h
  | (m, w) :: l, h => by
    rw [vget_cons] at h
    split at h
    · rename_i hm
      obtain rfl := Option.some.inj h
      subst hm; simp
    · exact List.mem_cons_of_mem _ (vget_mem h)

theorem vget_of_mem {α : Type} {n : Name} {v : α} : ∀ {l : List (Name × α)}, (l.map (·.1)).Nodup → (n, v) ∈ l → vget n l = some v
  | [], _, h => by simp at h
  | (m, w) :: l, hn, h => by
    simp only [List.map_cons, List.nodup_cons] at hn
    rw [vget_cons]
    rcases List.mem_cons.1 h with h | h
    · simp only [Prod.mk.injEq] at h; simp [h.1, h.2]
    · rw [if_neg, vget_of_mem hn.2 h]
      rintro rfl
      exact hn.1 (List.mem_map.2 ⟨(m, v), h, rfl⟩)

theorem vget_reverse {α : Type} {n : Name} {l : List (Name × α)} (hn : (l.map (·.1)).Nodup) : vget n l.reverse = vget n l := by
  have hr : (l.reverse.map (·.1)).Nodup := by rw [List.map_reverse]; exact (List.reverse_perm _).nodup_iff.2 hn
  cases h : vget n l with
  | some v => exact vget_of_mem hr (by simpa using vget_mem h)
  | none =>
    cases h' : vget n l.reverse with
    | none => rfl
    | some v =>
      rw [vget_of_mem hn (by simpa using vget_mem h')] at h
      simp at h

theorem declared_names (ds : List TyDef) : ((declared ds).map (·.1)).Sublist (declNames ds) := by
  induction ds with
  | nil => exact List.Sublist.refl _
  | cons D ds ih =>
    simp only [declared, declNames, List.flatMap_cons, List.map_append]
    refine List.Sublist.append ?_ ih
    rw [List.map_map]
    exact List.sublist_cons_self ..

theorem mem_declared {ds : List TyDef} {c : Name} {d : Ctor} (h : (c, d) ∈ declared ds) :
    ∃ D ∈ ds, ∃ k ∈ D.cases, k.name = c ∧ d = ⟨D.name, D.vars, k.fields⟩ := by
  simp only [declared, List.mem_flatMap, List.mem_map, Prod.mk.injEq] at h
  obtain ⟨D, hD, k, hk, h1, h2⟩ := h
  exact ⟨D, hD, k, hk, h1, h2.symm⟩

/-! ### Renamed quantifiers -/

theorem all2_sem {C : Name → Option Ctor} {ρ ρ' : TEnv} : ∀ {ts ts' : List Ty}, ts.map (TS C ρ) = ts'.map (TS C ρ') → ∀ (j : Nat) {vs : List Val},
    (All2 (fun p w => TV C j ρ p w) ts vs ↔ All2 (fun p w => TV C j ρ' p w) ts' vs)
  | [], [], _, _, _ => by rename_i vs; cases vs <;> exact Iff.rfl
  | [], _ :: _, h, _, _ => by simp at h
  | _ :: _, [], h, _, _ => by simp at h
  | t :: ts, t' :: ts', h, j, [] => Iff.rfl
  | t :: ts, t' :: ts', h, j, v :: vs => by
    simp only [List.map_cons, List.cons.injEq] at h
    simp only [All2]
    rw [all2_sem h.2 j]
    have : TV C j ρ t v = TV C j ρ' t' v := congrFun (congrFun h.1 j) v
    rw [this]

mutual
/-- Two types that agree up to the pairs of variables have the same values if paired variables do. -/
theorem fitsP_mono {C : Name → Option Ctor} : ∀ {t t' : Ty} {ps ps' : List (TyVar × TyVar)} {ρ ρ' : TEnv}, Mono0 t' → fitsP ps t t' = some ps' →
    (∀ x ∈ tfv t, ∀ y ∈ tfv t', (x = y ∨ (x, y) ∈ ps) → ρ x = ρ' y) → ps' = ps ∧ TS C ρ t = TS C ρ' t'
  | .bool, b, ps, ps', ρ, ρ', hm, h, hρ => by
    cases b <;> simp [fitsP] at h; refine ⟨h.symm, ?_⟩; funext k v; simp only [TS, TV]
  | .int, b, ps, ps', ρ, ρ', hm, h, hρ => by
    cases b <;> simp [fitsP] at h; refine ⟨h.symm, ?_⟩; funext k v; simp only [TS, TV]
  | .string, b, ps, ps', ρ, ρ', hm, h, hρ => by
    cases b <;> simp [fitsP] at h; refine ⟨h.symm, ?_⟩; funext k v; simp only [TS, TV]
  | .var x, b, ps, ps', ρ, ρ', hm, h, hρ => by
    cases b <;> simp only [fitsP, reduceCtorEq] at h
    split at h
    · rename_i hx
      simp only [Option.some.injEq] at h
      refine ⟨h.symm, ?_⟩
      funext k v; simp only [TS, TV]
      rw [hρ x (by simp [tfv]) _ (by simp [tfv]) hx]
    · simp at h
  | .named n xs, b, ps, ps', ρ, ρ', hm, h, hρ => by
    cases b <;> simp only [fitsP, reduceCtorEq] at h
    split at h
    · rename_i hl
      obtain ⟨rfl, hl⟩ := hl
      obtain ⟨h1, h2⟩ := fitsL_mono (C := C) hl hm h (by simpa only [tfv] using hρ)
      refine ⟨h1, ?_⟩
      funext k v
      simp only [TS, TV_named, h2, hl]
    · simp at h
  | .fn xs x, b, ps, ps', ρ, ρ', hm, h, hρ => by
    cases b <;> simp only [fitsP, reduceCtorEq] at h
    split at h
    · rename_i hl
      simp only [Option.bind_eq_some_iff] at h
      obtain ⟨ps1, h1, h2⟩ := h
      obtain ⟨rfl, h4⟩ := fitsL_mono hl hm.1 h1 fun x hx y hy => hρ x (by simp [tfv, hx]) y (by simp [tfv, hy])
      obtain ⟨rfl, h6⟩ := fitsP_mono (C := C) hm.2 h2 fun x hx y hy => hρ x (by simp [tfv, hx]) y (by simp [tfv, hy])
      refine ⟨rfl, ?_⟩
      funext k v
      simp only [TS, TV_fn]
      have key : ∀ j vs, All2 (fun p w => TV C j ρ p w) xs vs ↔ All2 (fun p w => TV C j ρ' p w) _ vs := fun j vs => all2_sem h4 j
      simp only [key, h6]
    · simp at h
  | .abs x a, b, ps, ps', ρ, ρ', hm, h, hρ => by
    cases b <;> simp only [fitsP, reduceCtorEq] at h
    simp [Mono0] at hm
theorem fitsL_mono {C : Name → Option Ctor} : ∀ {ts ts' : List Ty} {ps ps' : List (TyVar × TyVar)} {ρ ρ' : TEnv}, ts.length = ts'.length → Mono0L ts' → fitsL ps ts ts' = some ps' →
    (∀ x ∈ tfvL ts, ∀ y ∈ tfvL ts', (x = y ∨ (x, y) ∈ ps) → ρ x = ρ' y) → ps' = ps ∧ ts.map (TS C ρ) = ts'.map (TS C ρ')
  | [], b, ps, ps', ρ, ρ', hl, hm, h, hρ => by
    obtain rfl := List.length_eq_zero_iff.1 hl.symm
    simp only [fitsL, Option.some.injEq] at h; exact ⟨h.symm, rfl⟩
  | _ :: _, [], _, _, _, _, hl, _, _, _ => by simp at hl
  | a :: as, b :: bs, ps, ps', ρ, ρ', hl, hm, h, hρ => by
    simp only [fitsL, Option.bind_eq_some_iff] at h
    obtain ⟨ps1, h1, h2⟩ := h
    obtain ⟨rfl, h4⟩ := fitsP_mono hm.1 h1 fun x hx y hy => hρ x (by simp [tfvL, hx]) y (by simp [tfvL, hy])
    obtain ⟨rfl, h6⟩ := fitsL_mono (by simpa using hl) hm.2 h2 fun x hx y hy => hρ x (by simp [tfvL, hx]) y (by simp [tfvL, hy])
    exact ⟨rfl, by rw [List.map_cons, List.map_cons, h4, h6]⟩
end

/-- No variable is bound twice on the way down. -/
def Distinct : Ty → Prop
  | .abs a t => a ∉ tbv t ∧ Distinct t
  | _ => True

theorem fitsP_prenex {C : Name → Option Ctor} : ∀ {t t' : Ty} {ps ps' : List (TyVar × TyVar)} {ρ ρ' : TEnv}, Prenex t' → fitsP ps t t' = some ps' →
    (∀ x ∈ tfv t, ∀ y ∈ tfv t', (x = y ∨ (x, y) ∈ ps) → ρ x = ρ' y) →
    (∀ x ∈ tfv t, x ∈ ps.map (·.1)) → (∀ y ∈ tfv t', y ∈ ps.map (·.2)) →
    (∀ x ∈ tbv t, x ∉ ps.map (·.1) ∧ x ∉ ps.map (·.2)) → (∀ y ∈ tbv t', y ∉ ps.map (·.1) ∧ y ∉ ps.map (·.2)) →
    (∀ x ∈ tbv t, x ∉ tbv t') → Rank t → Distinct t' → TS C ρ t = TS C ρ' t'
  | .abs a t, .abs b t', ps, ps', ρ, ρ', hm, h, hρ, h1, h2, h3, h4, h5, h6, h7 => by
    simp only [fitsP] at h
    simp only [tfv, List.mem_filter, bne_iff_ne, ne_eq] at h1 h2 hρ
    simp only [tbv, List.mem_cons, not_or] at h3 h4 h5
    have ih : ∀ S : Sem, TS C (ρ.set a S) t = TS C (ρ'.set b S) t' := by
      intro S
      refine fitsP_prenex (hm : Prenex t') h ?_ ?_ ?_ ?_ ?_ ?_ h6.2 h7.2
      · intro x hx y hy hxy
        simp only [TEnv.set]
        simp only [List.mem_cons, Prod.mk.injEq] at hxy
        by_cases hxa : x = a
        · by_cases hyb : y = b
          · rw [if_pos hxa, if_pos hyb]
          · exfalso
            rcases hxy with h | h | h
            · subst h
              exact (h3 x (.inl hxa)).2 (h2 x ⟨hy, hyb⟩)
            · exact hyb h.2
            · exact (h3 x (.inl hxa)).1 (List.mem_map.2 ⟨(x, y), h, rfl⟩)
        · by_cases hyb : y = b
          · exfalso
            rcases hxy with h | h | h
            · subst h
              exact (h4 x (.inl hyb)).1 (h1 x ⟨hx, hxa⟩)
            · exact hxa h.1
            · exact (h4 y (.inl hyb)).2 (List.mem_map.2 ⟨(x, y), h, rfl⟩)
          · rw [if_neg hxa, if_neg hyb]
            exact hρ x ⟨hx, hxa⟩ y ⟨hy, hyb⟩ (hxy.imp id fun h => h.resolve_left fun h => hxa h.1)
      · intro x hx
        by_cases hxa : x = a
        · simp [hxa]
        · exact List.mem_cons_of_mem _ (h1 x ⟨hx, hxa⟩)
      · intro x hx
        by_cases hxa : x = b
        · simp [hxa]
        · exact List.mem_cons_of_mem _ (h2 x ⟨hx, hxa⟩)
      · intro x hx
        have := h3 x (.inr hx)
        refine ⟨fun hmem => ?_, fun hmem => ?_⟩
        · rcases List.mem_cons.1 hmem with h | h
          · have h : x = a := h
            exact h6.1 (h ▸ hx)
          · exact this.1 h
        · rcases List.mem_cons.1 hmem with h | h
          · exact (h5 x (.inr hx)).1 h
          · exact this.2 h
      · intro y hy
        have := h4 y (.inr hy)
        refine ⟨fun hmem => ?_, fun hmem => ?_⟩
        · rcases List.mem_cons.1 hmem with h | h
          · have h : y = a := h
            exact (h5 y (.inl h)).2 hy
          · exact this.1 h
        · rcases List.mem_cons.1 hmem with h | h
          · have h : y = b := h
            exact h7.1 (h ▸ hy)
          · exact this.2 h
      · exact fun x hx => (h5 x (.inr hx)).2
    funext k v
    simp only [TS, TV_abs]
    refine propext (forall_congr' fun S => forall_congr' fun _ => ?_)
    exact iff_of_eq (congrFun (congrFun (ih S) k) v)
  | t, .bool, ps, ps', ρ, ρ', hm, h, hρ, _, _, _, _, _, _, _ => (fitsP_mono hm h hρ).2
  | t, .int, ps, ps', ρ, ρ', hm, h, hρ, _, _, _, _, _, _, _ => (fitsP_mono hm h hρ).2
  | t, .string, ps, ps', ρ, ρ', hm, h, hρ, _, _, _, _, _, _, _ => (fitsP_mono hm h hρ).2
  | t, .var _, ps, ps', ρ, ρ', hm, h, hρ, _, _, _, _, _, _, _ => (fitsP_mono hm h hρ).2
  | t, .named _ _, ps, ps', ρ, ρ', hm, h, hρ, _, _, _, _, _, _, _ => (fitsP_mono hm h hρ).2
  | t, .fn _ _, ps, ps', ρ, ρ', hm, h, hρ, _, _, _, _, _, _, _ => (fitsP_mono hm h hρ).2
  | .bool, .abs _ _, ps, ps', ρ, ρ', hm, h, hρ, _, _, _, _, _, _, _ => by simp [fitsP] at h
  | .int, .abs _ _, ps, ps', ρ, ρ', hm, h, hρ, _, _, _, _, _, _, _ => by simp [fitsP] at h
  | .string, .abs _ _, ps, ps', ρ, ρ', hm, h, hρ, _, _, _, _, _, _, _ => by simp [fitsP] at h
  | .var _, .abs _ _, ps, ps', ρ, ρ', hm, h, hρ, _, _, _, _, _, _, _ => by simp [fitsP] at h
  | .named _ _, .abs _ _, ps, ps', ρ, ρ', hm, h, hρ, _, _, _, _, _, _, _ => by simp [fitsP] at h
  | .fn _ _, .abs _ _, ps, ps', ρ, ρ', hm, h, hρ, _, _, _, _, _, _, _ => by simp [fitsP] at h

/-- The variables a checked type binds are new, and distinct if they are all in front. -/
theorem checkTy_prenex : ∀ {t : Ty} {st st' : VSt}, Pre st → Prenex t → checkTy st t = some st' →
    (∀ a ∈ tbv t, a ∉ st.definedTy ∧ a ∈ st'.definedTy) ∧ Distinct t
  | .abs b t, st, st', hp, hm, h => by
    simp only [checkTy, Option.bind_eq_some_iff] at h
    obtain ⟨st1, h1, st2, h2, h3⟩ := h
    obtain ⟨hv, rfl⟩ := enterTy_spec h1
    have hp1 : Pre { st with definedTy := b :: st.definedTy, inScopeTy := b :: st.inScopeTy } :=
      ⟨hp.sub, fun a ha => by
        rcases List.mem_cons.1 ha with rfl | ha
        · simp
        · exact List.mem_cons_of_mem _ (hp.subTy a ha)⟩
    obtain ⟨a1, a2⟩ := checkTy_prenex (t := t) hp1 hm h2
    have c := (checkTy_chk (L := 0) hp1 h2).1
    have h3 := exitTy_spec h3
    subst h3
    refine ⟨fun a ha => ?_, fun hb => (a1 b hb).1 (by simp), a2⟩
    simp only [tbv, List.mem_cons] at ha
    rcases ha with rfl | ha
    · exact ⟨hv, c.tys a (by simp)⟩
    · exact ⟨fun h => (a1 a ha).1 (List.mem_cons_of_mem _ h), (a1 a ha).2⟩
  | .bool, st, st', hp, hm, h => ⟨by simp [tbv], trivial⟩
  | .int, st, st', hp, hm, h => ⟨by simp [tbv], trivial⟩
  | .string, st, st', hp, hm, h => ⟨by simp [tbv], trivial⟩
  | .var _, st, st', hp, hm, h => ⟨by simp [tbv], trivial⟩
  | .named _ _, st, st', hp, hm, h => ⟨by simp [mono0_tbv hm], trivial⟩
  | .fn _ _, st, st', hp, hm, h => ⟨by simp [mono0_tbv hm], trivial⟩

/-! ### Values of closed types -/

theorem prenex_of_mono0 {t : Ty} (h : Mono0 t) : Prenex t ∧ Distinct t := by
  cases t <;> first | exact ⟨h, trivial⟩ | exact h.elim

theorem prenex_replace {a : TyVar} {u : Ty} (hu : Mono0 u) : ∀ {t : Ty}, Prenex t → Distinct t → Prenex (replace a u t) ∧ Distinct (replace a u t)
  | .abs b t, h1, h2 => by
    obtain ⟨a1, a2⟩ := prenex_replace (t := t) hu h1 h2.2
    exact ⟨a1, by rw [tbv_replace hu]; exact h2.1, a2⟩
  | .bool, h, _ => prenex_of_mono0 (mono0_replace hu h)
  | .int, h, _ => prenex_of_mono0 (mono0_replace hu h)
  | .string, h, _ => prenex_of_mono0 (mono0_replace hu h)
  | .var _, h, _ => prenex_of_mono0 (mono0_replace hu h)
  | .named _ _, h, _ => prenex_of_mono0 (mono0_replace hu h)
  | .fn _ _, h, _ => prenex_of_mono0 (mono0_replace hu h)

/-- The empty interpretation. -/
def noTys : TEnv := fun _ _ _ => False

theorem noTys_down : noTys.Down := fun _ _ _ _ _ h => h

theorem all2_get {α β : Type} {P : α → β → Prop} : ∀ {as : List α} {bs : List β}, All2 P as bs → ∀ (i : Nat) a b, as[i]? = some a → bs[i]? = some b → P a b
  | [], _, _, _, _, _, h, _ => by simp at h
  | _ :: _, [], h, _, _, _, _, _ => h.elim
  | a :: as, b :: bs, h, 0, x, y, hx, hy => by
    simp only [List.getElem?_cons_zero, Option.some.injEq] at hx hy
    subst hx; subst hy; exact h.1
  | a :: as, b :: bs, h, i + 1, x, y, hx, hy => by
    simp only [List.getElem?_cons_succ] at hx hy
    exact all2_get h.2 i x y hx hy

/-- Being in the interpretation of a type for every number of steps. -/
theorem ofType_of {cs cs' : List (Name × Ctor)} (hcs : ∀ c d, vget c cs = some d → CtorOk d ∧ (c, d) ∈ cs') (t : Ty) (v : Val) (hp : Prenex t) (hd : Distinct t) (hc : tfv t = [])
    (h : ∀ k ρ, ρ.Down → TV (ctx cs) k ρ t v) : OfType cs' t v := by
  match t with
  | .bool => have := h 0 _ noTys_down; simp only [TV] at this; obtain ⟨b, rfl⟩ := this; exact .bool b
  | .int => have := h 0 _ noTys_down; simp only [TV] at this; obtain ⟨b, rfl⟩ := this; exact .int b
  | .string => have := h 0 _ noTys_down; simp only [TV] at this; obtain ⟨b, rfl⟩ := this; exact .string b
  | .var a => simp [tfv] at hc
  | .fn ps out => exact .fn (TV_isFn (h 0 _ noTys_down))
  | .named n args =>
    have h0 := h 0 _ noTys_down
    rw [TV_named] at h0
    obtain ⟨c, fs, d, hv, h2, hn, h4, h5, -⟩ := h0
    have hargs := mono0L_iff.1 (hp : Mono0L args)
    have hclosed : ∀ u ∈ args, ∀ b, b ∉ tfv u := by
      intro u hu b hb
      simp only [tfv] at hc
      have : b ∈ tfvL args := mem_tfvL.2 ⟨u, hu, hb⟩
      rw [hc] at this; simp at this
    suffices hh : ∀ (i : Nat) F f, d.fields[i]? = some F → fs[i]? = some f → OfType cs' (replaceAll d.vars args F) f by
      rw [hv, ← hn]
      exact .named (hcs c d h2).2 h4 h5 hh
    intro i F f hF hf
    have hFm := List.mem_of_getElem? hF
    have hfm := List.mem_of_getElem? hf
    have ck := (hcs c d h2).1
    have hm := mono0_replaceAll (as := d.vars) hargs (ck.mono F hFm)
    have hsz : sizeOf f < sizeOf v := by
      rw [hv]
      have := List.sizeOf_lt_of_mem hfm
      simp only [Val.comp.sizeOf_spec]
      omega
    refine ofType_of hcs (replaceAll d.vars args F) f (prenex_of_mono0 hm).1 (prenex_of_mono0 hm).2 ?_ fun k ρ hρ => ?_
    · refine List.eq_nil_iff_forall_not_mem.2 fun b hb => ?_
      rcases tfv_replaceAll h4 hb with ⟨h6, h7⟩ | ⟨u, hu, h6⟩
      · exact h7 (ck.scope F hFm b h6)
      · exact hclosed u hu b h6
    · have hk := h (k + 1) ρ hρ
      rw [TV_named] at hk
      obtain ⟨c', fs', d', he, h2', -, -, -, h6⟩ := hk
      rw [hv] at he
      simp only [Val.comp.injEq] at he
      obtain ⟨rfl, rfl⟩ := he
      have hdd : d = d' := by
        have := h2.symm.trans h2'
        exact Option.some.inj this
      subst hdd
      exact (TV_field (ck.mono F hFm) hargs (fun u hu b hb => absurd hb (hclosed u hu b)) h4 (ck.scope F hFm)).2 (all2_get (h6 k (Nat.lt_succ_self _)) i F f hF hf)
  | .abs a t =>
    refine .abs fun u hu hu0 => ?_
    obtain ⟨p1, p2⟩ := prenex_replace (a := a) hu (t := t) hp hd.2
    refine ofType_of hcs (replace a u t) v p1 p2 ?_ fun k ρ hρ => ?_
    · refine List.eq_nil_iff_forall_not_mem.2 fun b hb => ?_
      rcases tfv_replace hb with h1 | h1
      · have : b ∈ tfv (.abs a t) := by simp only [tfv, List.mem_filter, bne_iff_ne, ne_eq]; exact h1
        rw [hc] at this; simp at this
      · rw [hu0] at h1; simp at h1
    · have := h k ρ hρ
      rw [TV_abs] at this
      exact (TV_replace k t hd.1 (by simp [hu0])).2 (this _ (TV_down u ρ hρ))
termination_by (sizeOf v, (tbv t).length)
decreasing_by
  · exact Prod.Lex.left _ _ (by assumption)
  · refine Prod.Lex.right _ ?_
    rw [tbv_replace hu]; simp [tbv]

/-! ### Soundness -/

/-- The environment has values of the right types, for every number of steps. -/
def EnvAll (cs : List (Name × Ctor)) (env : Env) (Γ : Gam) : Prop := ∀ k ρ, ρ.Down → EnvOk (ctx cs) k ρ env Γ

theorem Ok.run {cs : List (Name × Ctor)} {Γ : Gam} {e : Expr} {t : Ty} (h : Ok (ctx cs) Γ e t) {env : Env} (he : EnvAll cs env Γ) (n : Nat) :
    eval n env e ≠ .panic ∧ ∀ v, eval n env e = .ok v → ∀ k ρ, ρ.Down → TV (ctx cs) k ρ t v := by
  rw [← evalT_eval]
  refine ⟨(h _ _ env noTys_down (he _ _ noTys_down) n (Nat.le_refl _)).1, fun v hv k ρ hρ => ?_⟩
  have := (h ((evalT n env e).1 + k) ρ env hρ (he _ ρ hρ) n (Nat.le_add_right ..)).2 v hv
  rw [Nat.add_sub_cancel_left] at this
  exact this

/-- `t` and `t'` have the same values. -/
def SameTy (cs : List (Name × Ctor)) (t t' : Ty) : Prop := ∀ ρ, TS (ctx cs) ρ t = TS (ctx cs) ρ t'

theorem fits_same {cs : List (Name × Ctor)} {t t' : Ty} (h : fits t t' = true) (hp : Prenex t') (hd : Distinct t') (hr : Rank t) (h1 : tfv t = []) (h2 : tfv t' = [])
    (hb : ∀ x ∈ tbv t, x ∉ tbv t') : SameTy cs t t' := by
  intro ρ
  unfold fits at h
  obtain ⟨ps, hps⟩ := Option.isSome_iff_exists.1 h
  exact fitsP_prenex hp hps (by simp [h1]) (by simp [h1]) (by simp [h2]) (by simp) (by simp) hb hr hd

theorem VInv.start {X : List TyVar} {cs : List (Name × Ctor)} {st : VSt} (h : VInv [] cs st) (hX : ∀ a ∈ X, a ∈ st.definedTy)
    (hd : ∀ x t, gam st x = some t → ∀ a ∈ tbv t, a ∉ X) : VInv X cs st :=
  ⟨h.toPre, h.ctors, hX, fun x t hx => ⟨(h.ty x t hx).fv, fun a ha => ⟨((h.ty x t hx).bv a ha).1, ((h.ty x t hx).bv a ha).2.1, hd x t hx a ha⟩, (h.ty x t hx).rank⟩, h.ctor⟩

theorem eq_nil_of {l : List TyVar} {Δ : List TyVar} (hΔ : Δ = []) (h : ∀ a ∈ l, a ∈ Δ) : l = [] :=
  List.eq_nil_iff_forall_not_mem.2 fun a ha => by have := h a ha; rw [hΔ] at this; simp at this

theorem EnvAll.set {cs : List (Name × Ctor)} {env : Env} {Γ : Gam} (h : EnvAll cs env Γ) {x : Name} {t : Ty} {v : Val}
    (hv : ∀ k ρ, ρ.Down → TV (ctx cs) k ρ t v) : EnvAll cs ((x, v) :: env) (Γ.set x t) := fun k ρ hρ => (h k ρ hρ).set (hv k ρ hρ)

/-- Checking one definition. -/
theorem checkDef_ok {cs : List (Name × Ctor)} {d : ValueDef} {ds : List ValueDef} {st st' : VSt} (hi : VInv [] cs st) (hs : st.inScopeTy = [])
    (h : checkDefs L st (d :: ds) = some st') (hd : Prenex d.ty ∧ Simple [] d.value) (ht : Total (ctx cs) d.value) :
    ∃ t st2, Ok (ctx cs) (gam st) d.value t ∧ SameTy cs t d.ty ∧ checkDefs L st2 ds = some st' ∧ VInv [] cs st2 ∧ st2.inScopeTy = [] ∧
      gam st2 = (gam st).set d.name t ∧ gam st d.name = none ∧ tfv d.ty = [] ∧ Distinct d.ty := by
  have hp := hi.toPre
  obtain ⟨st1, r, st2, h1, h2, hf, h3, h4, c, hp2, e, hp3⟩ := checkDef_spec hp h
  have c1 := (checkTy_chk (L := L) hp h1).1
  obtain ⟨b1, b2⟩ := checkTy_prenex hp hd.1 h1
  have hi1 := hi.chk c1
  have hiX : VInv (tbv d.ty) cs st1 := hi1.start (fun a ha => (b1 a ha).2) fun x t hx a ha hm => by
    rw [c1.gam hp] at hx
    exact (b1 a hm).1 ((hi.ty x t hx).bv a ha).1
  have hs1 : st1.inScopeTy = [] := c1.inScopeTy.trans hs
  have hsm : Simple st1.inScopeTy d.value := by rw [hs1]; exact hd.2
  obtain ⟨g, o⟩ := checkExpr_ok hiX h2 hsm ht
  obtain ⟨g', -⟩ := checkExpr_ok hi1 h2 hsm ht
  rw [c1.gam hp] at o
  have hs2 : r.2.inScopeTy = [] := c.inScopeTy.trans hs
  have ht1 : tfv r.1 = [] := eq_nil_of hs2 g.fv
  have ht2 : tfv d.ty = [] := eq_nil_of hs (checkTy_tfv hp h1)
  have hgam := gam_one (t := r.1) hp2 h3 (Chk.refl st2)
  rw [c.gam hp] at hgam
  have hi2 := (hi.chk c).enter e (gam_one (t := r.1) hp2 h3 (Chk.refl st2)) g'
  refine ⟨r.1, st2.setTy d.name r.1, o, fits_same hf hd.1 b2 g.rank ht1 ht2 (fun x hx => (g.bv x hx).2.2), h4, hi2, e.inScopeTy.trans hs2, hgam, ?_, ht2, b2⟩
  simp only [gam]
  rw [if_neg]
  intro hm
  exact e.fresh d.name (by simp) (c.sub (hp.sub _ hm))

theorem checkDefs_static {cs : List (Name × Ctor)} : ∀ {ds : List ValueDef} {st st' : VSt}, VInv [] cs st → st.inScopeTy = [] → checkDefs L st ds = some st' →
    (∀ d ∈ ds, Prenex d.ty ∧ Simple [] d.value) → (∀ d ∈ ds, Total (ctx cs) d.value) →
    VInv [] cs st' ∧ st'.inScopeTy = [] ∧ (∀ x t, gam st x = some t → gam st' x = some t) ∧
    (∀ d ∈ ds, tfv d.ty = [] ∧ Distinct d.ty ∧ ∃ t, gam st' d.name = some t ∧ SameTy cs t d.ty)
  | [], st, st', hi, hs, h, _, _ => by
    simp only [checkDefs, Option.some.injEq] at h; subst h
    exact ⟨hi, hs, fun _ _ h => h, by simp⟩
  | d :: ds, st, st', hi, hs, h, hd, ht => by
    obtain ⟨t, st2, o, hsame, h4, hi2, hs2, hgam, hnone, hcl, hdist⟩ := checkDef_ok hi hs h (hd d (by simp)) (ht d (by simp))
    obtain ⟨a1, a2, a3, a4⟩ := checkDefs_static hi2 hs2 h4 (fun d hd' => hd d (List.mem_cons_of_mem _ hd')) (fun d hd' => ht d (List.mem_cons_of_mem _ hd'))
    refine ⟨a1, a2, fun x u hx => a3 x u ?_, fun d' hd' => ?_⟩
    · rw [hgam]
      simp only [Gam.set]
      rw [if_neg (by rintro rfl; rw [hnone] at hx; simp at hx)]
      exact hx
    · rcases List.mem_cons.1 hd' with rfl | hd'
      · exact ⟨hcl, hdist, t, a3 _ _ (by rw [hgam]; simp [Gam.set]), hsame⟩
      · exact a4 d' hd'

theorem checkDefs_sound {cs : List (Name × Ctor)} : ∀ {ds : List ValueDef} {st st' : VSt}, VInv [] cs st → st.inScopeTy = [] → checkDefs L st ds = some st' →
    (∀ d ∈ ds, Prenex d.ty ∧ Simple [] d.value) → (∀ d ∈ ds, Total (ctx cs) d.value) → ∀ n env, EnvAll cs env (gam st) →
    evalDefs n ds env ≠ .panic ∧ ∀ env', evalDefs n ds env = .ok env' → EnvAll cs env' (gam st')
  | [], st, st', hi, hs, h, _, _, n, env, he => by
    simp only [checkDefs, Option.some.injEq] at h; subst h
    refine ⟨by simp [evalDefs], fun env' h => ?_⟩
    simp only [evalDefs, Res.ok.injEq] at h; subst h; exact he
  | d :: ds, st, st', hi, hs, h, hd, ht, n, env, he => by
    obtain ⟨t, st2, o, hsame, h4, hi2, hs2, hgam, hnone, hcl, hdist⟩ := checkDef_ok hi hs h (hd d (by simp)) (ht d (by simp))
    obtain ⟨r1, r2⟩ := o.run he n
    simp only [evalDefs]
    cases hr : eval n env d.value with
    | panic => exact absurd hr r1
    | trap m => simp [Res.bind]
    | timeout => simp [Res.bind]
    | ok v =>
      simp only [Res.bind]
      exact checkDefs_sound hi2 hs2 h4 (fun d hd' => hd d (List.mem_cons_of_mem _ hd')) (fun d hd' => ht d (List.mem_cons_of_mem _ hd')) n _
        (by rw [hgam]; exact he.set (r2 v hr))

/-- After the type definitions the invariant holds. -/
theorem verify_start {p : Program} {st : VSt} (h : checkTyDefs L {} p.types = some st)
    (hf : ∀ D ∈ p.types, ∀ c ∈ D.cases, c.fields.length ≤ maxFields ∧ ∀ F ∈ c.fields, Mono0 F) :
    VInv [] st.ctors st ∧ st.inScopeTy = [] ∧ gam st = (fun _ => none) ∧ (∀ c, vget c st.ctors = vget c (declared p.types)) := by
  have hp : Pre {} := ⟨(fun _ h => nomatch h), (fun _ h => nomatch h)⟩
  obtain ⟨a1, a2, a3⟩ := checkTyDefs_spec hp rfl h
  have hg : gam st = (fun _ => none) := by
    funext x
    simp only [gam, a1.types, vget]
    split <;> rfl
  have hn : (declNames p.types).Nodup := by
    have := a1.nodup List.nodup_nil
    rw [List.nodup_iff_count] at this ⊢
    intro y
    have := this y
    rw [a1.cnt] at this
    omega
  have hct : ∀ c, vget c st.ctors = vget c (declared p.types) := by
    intro c
    rw [a1.ctors]
    show vget c (_ ++ []) = _
    rw [List.append_nil, vget_reverse (List.Nodup.sublist (declared_names _) hn)]
  refine ⟨⟨a1.pre, rfl, by simp, fun x t hx => by rw [hg] at hx; simp at hx, fun c d hd => ?_⟩, a1.inScopeTy, hg, hct⟩
  rw [hct] at hd
  obtain ⟨D, hD, k, hk, h1, rfl⟩ := mem_declared (vget_mem hd)
  obtain ⟨f1, f2⟩ := hf D hD k hk
  exact ⟨⟨f1, f2, a2 D hD k hk⟩, fun a ha => ⟨a3 D hD a ha, by rw [a1.inScopeTy]; exact fun h => nomatch h⟩⟩

/-- **Soundness.**  A program the verifier accepts never panics when it is run, whatever the
bound on the depth; and every definition evaluates to a value of its declared type. -/
theorem verify_sound {p : Program} {st : VSt} (h : verify L p = some st) (hp : Vouched p) (n : Nat) :
    evalDefs n p.defs [] ≠ .panic ∧ ∀ env, evalDefs n p.defs [] = .ok env →
      ∀ d ∈ p.defs, ∃ v, lookup d.name env = .ok v ∧ OfType (declared p.types) d.ty v := by
  simp only [verify, Option.bind_eq_some_iff] at h
  obtain ⟨st1, h1, h2⟩ := h
  obtain ⟨i1, i2, i3, i4⟩ := verify_start h1 hp.fields
  have hC : ctx st1.ctors = fun c => vget c (declared p.types) := funext i4
  have ht : ∀ d ∈ p.defs, Total (ctx st1.ctors) d.value := by rw [hC]; exact hp.total
  have henv : EnvAll st1.ctors [] (gam st1) := by
    intro k ρ _ x t hx
    rw [i3] at hx; simp at hx
  obtain ⟨s1, s2⟩ := checkDefs_sound i1 i2 h2 hp.simple ht n [] henv
  obtain ⟨t1, t2, t3, t4⟩ := checkDefs_static i1 i2 h2 hp.simple ht
  refine ⟨s1, fun env he d hd => ?_⟩
  obtain ⟨c1, c2, t, hg, hsame⟩ := t4 d hd
  have ha := s2 env he
  obtain ⟨v, hv, -⟩ := ha 0 _ noTys_down d.name t hg
  refine ⟨v, hv, ofType_of (cs := st1.ctors) (fun c dd hcd => ⟨(i1.ctor c dd hcd).1, vget_mem (i4 c ▸ hcd)⟩) d.ty v (hp.simple d hd).1 c2 c1 fun k ρ hρ => ?_⟩
  obtain ⟨v', hv', htv⟩ := ha k ρ hρ d.name t hg
  rw [hv] at hv'
  obtain rfl := Res.ok.inj hv'
  have : TS (ctx st1.ctors) ρ t k v := htv
  rwa [hsame ρ] at this

/-- The expressions given to `assert_valid_with_values` do not panic either, and have the type
they are claimed to have. -/
theorem verify_values_sound {p : Program} {st st' : VSt} (h : verify L p = some st) (hp : Vouched p) {vs : List (Expr × Ty)}
    (hv : checkValues L st vs = some st') (hm : ∀ x ∈ vs, Mono0 x.2 ∧ Simple [] x.1 ∧ Total (fun c => vget c (declared p.types)) x.1)
    (n : Nat) : evalProgram n p (vs.map (·.1)) ≠ .panic ∧
      ∀ rs, evalProgram n p (vs.map (·.1)) = .ok rs → ∀ (i : Nat) x r, vs[i]? = some x → rs[i]? = some r → OfType (declared p.types) x.2 r := by
  simp only [verify, Option.bind_eq_some_iff] at h
  obtain ⟨st1, h1, h2⟩ := h
  obtain ⟨i1, i2, i3, i4⟩ := verify_start h1 hp.fields
  have hC : ctx st1.ctors = fun c => vget c (declared p.types) := funext i4
  have ht : ∀ d ∈ p.defs, Total (ctx st1.ctors) d.value := by rw [hC]; exact hp.total
  have henv : EnvAll st1.ctors [] (gam st1) := by
    intro k ρ _ x t hx
    rw [i3] at hx; simp at hx
  obtain ⟨s1, s2⟩ := checkDefs_sound i1 i2 h2 hp.simple ht n [] henv
  obtain ⟨t1, t2, -, -⟩ := checkDefs_static i1 i2 h2 hp.simple ht
  rw [← hC] at hm
  have key : ∀ (vs : List (Expr × Ty)) (st st' : VSt), VInv [] st1.ctors st → st.inScopeTy = [] → checkValues L st vs = some st' →
      (∀ x ∈ vs, Mono0 x.2 ∧ Simple [] x.1 ∧ Total (ctx st1.ctors) x.1) → ∀ env, EnvAll st1.ctors env (gam st) →
      evalList (eval n env) (vs.map (·.1)) ≠ .panic ∧ ∀ rs, evalList (eval n env) (vs.map (·.1)) = .ok rs →
        ∀ (i : Nat) x r, vs[i]? = some x → rs[i]? = some r → OfType (declared p.types) x.2 r := by
    intro vs
    induction vs with
    | nil =>
      intro st st' _ _ _ _ env _
      exact ⟨by simp [evalList], by simp⟩
    | cons x vs ih =>
      intro st st' hi hs hv hm env he
      obtain ⟨e, t⟩ := x
      simp only [checkValues, Option.bind_eq_some_iff] at hv
      obtain ⟨r, h3, h4⟩ := hv
      split at h4
      · rename_i hf
        obtain ⟨m1, m2, m3⟩ := hm (e, t) (by simp)
        have c := (checkExpr_chk hi.toPre h3).1
        obtain ⟨g, o⟩ := checkExpr_ok hi h3 (by rw [hs]; exact m2) m3
        have hf : r.1 = t := fits_eq (.inr m1) hf
        obtain ⟨r1, r2⟩ := o.run he n
        obtain ⟨k1, k2⟩ := ih r.2 st' (hi.chk c) (c.inScopeTy.trans hs) h4 (fun x hx => hm x (List.mem_cons_of_mem _ hx)) env (by rw [c.gam hi.toPre]; exact he)
        simp only [List.map_cons, evalList]
        cases hr : eval n env e with
        | panic => exact absurd hr r1
        | trap m => simp [Res.bind]
        | timeout => simp [Res.bind]
        | ok v =>
          simp only [Res.bind]
          cases hrs : evalList (eval n env) (vs.map (·.1)) with
          | panic => exact absurd hrs k1
          | trap m => simp
          | timeout => simp
          | ok ws =>
            refine ⟨by simp, fun rs hrs' i x r' hx hr' => ?_⟩
            simp only [Res.ok.injEq] at hrs'
            subst hrs'
            cases i with
            | zero =>
              simp only [List.getElem?_cons_zero, Option.some.injEq] at hx hr'
              subst hx; subst hr'
              refine ofType_of (cs := st1.ctors) (fun c dd hcd => ⟨(i1.ctor c dd hcd).1, vget_mem (i4 c ▸ hcd)⟩) t v (prenex_of_mono0 m1).1 (prenex_of_mono0 m1).2 ?_ ?_
              · rw [← hf]; exact eq_nil_of (c.inScopeTy.trans hs) g.fv
              · rw [← hf]; exact r2 v hr
            | succ i =>
              simp only [List.getElem?_cons_succ] at hx hr'
              exact k2 ws hrs i x r' hx hr'
      · simp at h4
  simp only [evalProgram]
  cases hr : evalDefs n p.defs [] with
  | panic => exact absurd hr s1
  | trap m => simp [Res.bind]
  | timeout => simp [Res.bind]
  | ok env =>
    simp only [Res.bind]
    exact key vs st st' t1 t2 hv hm env (s2 env hr)

/-! ### Concrete cases -/

/-- `NodeTotal`, computed. -/
def nodeTotalB (cs : List (Name × Ctor)) : Expr → Bool
  | .mtch _ bs => bs.all fun b =>
    match vget b.ctor cs with
    | none => true
    | some d => cs.all fun k => k.2.tyName != d.tyName || bs.any fun b' => b'.ctor == k.1
  | .letrec _ _ v _ => (recLam v).isSome
  | _ => true

theorem nodeTotalB_ok {cs : List (Name × Ctor)} {e : Expr} (h : nodeTotalB cs e = true) : NodeTotal (fun c => vget c cs) e := by
  cases e <;> simp only [NodeTotal]
  case mtch e bs =>
    intro b hb d hd c d' hd' ht
    have := List.all_eq_true.1 h b hb
    simp only [hd] at this
    have := List.all_eq_true.1 this (c, d') (vget_mem hd')
    simpa [ht] using this
  case letrec => exact h

theorem totalB_ok {cs : List (Name × Ctor)} {e : Expr} (h : allSub (nodeTotalB cs) e = true) : Total (fun c => vget c cs) e :=
  fun e' he => nodeTotalB_ok (allSub_ok e h e' he)

/-- Lists and their length, `length : ∀a. List a → Int`, and its use at `Bool`. -/
def exVerify : Program :=
  { types := [⟨0, [0], [⟨1, []⟩, ⟨2, [.var 0, .named 0 [.var 0]]⟩]⟩]
    defs := [
      { name := 3, ty := .abs 1 (.fn [.named 0 [.var 1]] .int), value := .pi 2 (.letrec 4 (.fn [.named 0 [.var 2]] .int)
          (.lam [(5, .named 0 [.var 2])] (.mtch (.name 5) [.mk 1 [] (.int 0), .mk 2 [6, 7] (.op (.int 1) .add (.call (.name 4) [.name 7]))]))
          (.name 4)), exportName := none },
      { name := 8, ty := .named 0 [.int], value := .con 2 [.int] [.call (.piApp (.name 3) .bool) [.con 2 [.bool] [.bool true, .con 1 [.bool] []]], .con 1 [.int] []], exportName := none }] }

example : (verify 9 exVerify).isSome = true := by decide +kernel
example : (verify 8 exVerify).isSome = false := by decide +kernel
example : Vouched exVerify where
  fields := by simp [exVerify, maxFields, Mono0, Mono0L]
  simple := by simp [exVerify, Prenex, Simple, SimpleL, SimpleB, Mono0, Mono0L, tfv, tfvL]
  total := by
    intro d hd
    have : exVerify.defs.all (fun d => allSub (nodeTotalB (declared exVerify.types)) d.value) = true := by decide +kernel
    exact totalB_ok (List.all_eq_true.1 this d hd)
example : ∃ env, evalDefs 20 exVerify.defs [] = .ok env ∧ lookup 8 env = .ok (.comp 2 [.int 1, .comp 1 []]) := ⟨_, rfl, rfl⟩

/-! ### What the verifier misses -/

/-- The verifier does not require a match to be complete: it accepts a program that panics. -/
theorem verify_accepts_incomplete_match : ∃ (L : Nat) (p : Program), (verify L p).isSome = true ∧
    (∀ d ∈ p.defs, Prenex d.ty ∧ Simple [] d.value) ∧ evalDefs 5 p.defs [] = .panic :=
  ⟨4, { types := [⟨0, [], [⟨1, []⟩, ⟨2, []⟩]⟩],
        defs := [{ name := 3, ty := .int, value := .mtch (.con 1 [] []) [.mk 2 [] (.int 0)], exportName := none }] },
    by decide +kernel, by simp [Prenex, Simple, SimpleL, SimpleB, Mono0], by rfl⟩

/-- Nor that a recursive definition is a function. -/
theorem verify_accepts_letrec_value : ∃ (L : Nat) (p : Program), (verify L p).isSome = true ∧
    (∀ d ∈ p.defs, Prenex d.ty ∧ Simple [] d.value) ∧ evalDefs 5 p.defs [] = .panic :=
  ⟨2, { types := [], defs := [{ name := 0, ty := .int, value := .letrec 1 .int (.int 5) (.name 1), exportName := none }] },
    by decide +kernel, by simp [Prenex, Simple, Mono0], by rfl⟩

/-- It does not check the type arguments of constructors and instantiations, and substitutes them without
avoiding capture.  Naming a type variable that is not in scope, a program whose matches are complete
and which has no recursion tells an `Int` off as a `Bool`. -/
def exCapture : Program :=
  let b := Ty.var 3
  { types := [⟨0, [0, 1], [⟨1, [.var 0, .var 1]⟩]⟩]
    defs := [
      -- F = Πa. Πc. λg : (∀b. Pair (a → b) (c → b → Bool)). Pair (λx. (fst g[Bool]) x) (λy. (snd g[Int]) y 5)
      { name := 2, ty := .abs 4 (.abs 5 (.fn [.abs 6 (.named 0 [.fn [.var 4] (.var 6), .fn [.var 5] (.fn [.var 6] .bool)])]
          (.named 0 [.fn [.var 4] .bool, .fn [.var 5] .bool]))),
        value := .pi 7 (.pi 8 (.lam [(3, .abs 3 (.named 0 [.fn [.var 7] (.var 3), .fn [.var 8] (.fn [.var 3] .bool)]))]
          (.con 1 [.fn [.var 7] .bool, .fn [.var 8] .bool] [
            .lam [(4, .var 7)] (.mtch (.piApp (.name 3) .bool) [.mk 1 [5, 6] (.call (.name 5) [.name 4])]),
            .lam [(7, .var 8)] (.mtch (.piApp (.name 3) .int) [.mk 1 [8, 9] (.call (.call (.name 9) [.name 7]) [.int 5])])]))),
        exportName := none },
      -- G = Πd. Pair (λx:d. x) (λh:d→Bool. λy:d. h y)
      { name := 10, ty := .abs 9 (.named 0 [.fn [.var 9] (.var 9), .fn [.fn [.var 9] .bool] (.fn [.var 9] .bool)]),
        value := .pi 10 (.con 1 [.fn [.var 10] (.var 10), .fn [.fn [.var 10] .bool] (.fn [.var 10] .bool)] [
          .lam [(11, .var 10)] (.name 11),
          .lam [(12, .fn [.var 10] .bool)] (.lam [(13, .var 10)] (.call (.name 12) [.name 13]))]),
        exportName := none },
      -- match F[b][b → Bool] G { Pair u w → if w u then 1 else 0 }
      { name := 14, ty := .int,
        value := .mtch (.call (.piApp (.piApp (.name 2) b) (.fn [b] .bool)) [.name 10])
          [.mk 1 [15, 16] (.ite (.call (.name 16) [.name 15]) (.int 1) (.int 0))],
        exportName := none }] }

theorem verify_accepts_capture : (verify 17 exCapture).isSome = true ∧
    (∀ d ∈ exCapture.defs, Total (fun c => vget c (declared exCapture.types)) d.value) ∧ evalDefs 20 exCapture.defs [] = .panic := by
  refine ⟨by decide +kernel, fun d hd => ?_, by rfl⟩
  have : exCapture.defs.all (fun d => allSub (nodeTotalB (declared exCapture.types)) d.value) = true := by decide +kernel
  exact totalB_ok (List.all_eq_true.1 this d hd)
end Tic.Core
