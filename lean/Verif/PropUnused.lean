import Verif.PropApi

/-!
# C46: the unused-definition lint
-/

namespace Tic.Api

open Tic.Resolve

variable {s : Src}

/-- The definitions the lint reports. -/
def Src.reported (s : Src) : List (Def Target) := (unused s.full).map (Def.map (erase s.me))

theorem lints_reported (s : Src) : s.lints = s.reported.map fun d => s.span d.node := by
  unfold Src.lints Src.reported
  rw [s.outs_take, ← s.full_length, List.take_length, List.map_map]
  rfl

def isTyVar {S : Type} (d : Def S) : Bool := match d.kind with
  | .type _ true _ => true
  | _ => false

def isCtor {S : Type} (d : Def S) : Bool := match d.kind with
  | .ctor .. => true
  | _ => false

/-- The type a constructor belongs to. -/
def ctorOf {S : Type} (d : Def S) : Option S := match d.kind with
  | .ctor t _ _ _ => some t
  | _ => none

/-- a type that is not a variable -/
def isDataType {S : Type} (d : Def S) : Bool := match d.kind with
  | .type _ v _ => !v
  | _ => false

/-! ## Types and constructors of an item -/

structure OneType (t : Target) (o : SOut) : Prop where
  ctor : ∀ d ∈ o.defs, isCtor d = true → ctorOf d = some t
  type : ∀ d ∈ o.defs, isDataType d = true → d.sym = t
  mod : ∀ d ∈ o.defs, d.kind ≠ .module

theorem OneType.append {t : Target} {a b : SOut} (ha : OneType t a) (hb : OneType t b) : OneType t (a ++ b) :=
  ⟨fun d hd => (List.mem_append.1 (by simpa only [SOut.append_def] using hd)).elim (ha.ctor d) (hb.ctor d),
   fun d hd => (List.mem_append.1 (by simpa only [SOut.append_def] using hd)).elim (ha.type d) (hb.type d),
   fun d hd => (List.mem_append.1 (by simpa only [SOut.append_def] using hd)).elim (ha.mod d) (hb.mod d)⟩

theorem OneType.none {t : Target} {o : SOut} (h : o.defs = []) : OneType t o := by
  refine ⟨fun d hd => ?_, fun d hd => ?_, fun d hd => ?_⟩ <;> (rw [h] at hd; cases hd)

theorem one_value {t : Target} (n : Name) (ty : RTy Target) (vs : List Target) (v : Vis) :
    OneType t (oDef n (.value ty vs) v) := by
  refine ⟨fun d hd h => ?_, fun d hd h => ?_, fun d hd => ?_⟩ <;> rw [List.mem_singleton.1 hd] at *
  · exact nomatch h
  · exact nomatch h
  · exact nofun

theorem one_var {t : Target} (n : Name) (v : Vis) : OneType t (oDef n (.type 0 true none) v) := by
  refine ⟨fun d hd h => ?_, fun d hd h => ?_, fun d hd => ?_⟩ <;> rw [List.mem_singleton.1 hd] at *
  · exact nomatch h
  · exact nomatch h
  · exact nofun

/-- specifications that only use names record no definitions -/
theorem useName_defs (ns : NS) (u : ErrKind) (env : Env) (n : Name) : (useName ns u env n).2.defs = [] := by
  unfold useName; split <;> rfl

theorem useNs_defs (ns : NS) (env : Env) (m n : Name) : (useNs ns env m n).2.defs = [] := by
  unfold useNs
  split
  · rfl
  · split <;> rfl

mutual
theorem specTy_defs (env : Env) : ∀ t, (specTy env t).2.defs = []
  | .int => rfl
  | .bool => rfl
  | .string => rfl
  | .fn a b => by simp only [specTy, SOut.append_def, specTy_defs env a, specTy_defs env b, List.append_nil]
  | .named ns name args => by
    simp only [specTy, SOut.append_def, specTys_defs env args, List.append_nil]
    match ns, name with
    | some ns, some n => exact useNs_defs ..
    | none, some n => exact useName_defs ..
    | some _, none => rfl
    | none, none => rfl
  | .paren t => by simp only [specTy]; exact specTy_defs env t
  | .missing => rfl
theorem specTys_defs (env : Env) : ∀ t, (specTys env t).2.defs = []
  | .nil => rfl
  | .cons t ts => by simp only [specTys, SOut.append_def, specTy_defs env t, specTys_defs env ts, List.append_nil]
end

theorem one_useTyVar {t : Target} (env : Env) (n : Name) (b : Bool) : OneType t (useTyVar env n b).2.2.2 := by
  unfold useTyVar
  split
  · exact .none rfl
  · split
    · exact one_var ..
    · exact .none rfl

mutual
theorem one_specTyV {t : Target} : ∀ ty env, OneType t (specTyV env ty).out
  | .int, env => .none rfl
  | .bool, env => .none rfl
  | .string, env => .none rfl
  | .fn a b, env => by simp only [specTyV]; exact (one_specTyV a _).append (one_specTyV b _)
  | .named ns name args, env => by
    simp only [specTyV]
    refine .append ?_ (one_specTysV args _)
    match ns, name with
    | some ns, some n => exact .none (useNs_defs ..)
    | none, some n => exact one_useTyVar ..
    | some _, none => exact .none rfl
    | none, none => exact .none rfl
  | .paren ty, env => by simp only [specTyV]; exact one_specTyV ty env
  | .missing, env => .none rfl
theorem one_specTysV {t : Target} : ∀ ts env, OneType t (specTysV env ts).out
  | .nil, env => .none rfl
  | .cons a ts, env => by simp only [specTysV]; exact (one_specTyV a _).append (one_specTysV ts _)
end

theorem one_specAnn {t : Target} (ty : Option Ty) (env : Env) : OneType t (specAnn env ty).out := by
  cases ty with
  | none => exact .none rfl
  | some ty => exact one_specTyV ty env

theorem one_oVars {t : Target} : ∀ (ns : List Name), OneType t (oVars ns)
  | [] => .none rfl
  | n :: ns => (one_value ..).append (one_oVars ns)

theorem one_oParams {t : Target} : ∀ (ns : List Name), OneType t (oParams ns)
  | [] => .none rfl
  | n :: ns => (one_var ..).append (one_oParams ns)

theorem one_specCtor {t : Target} (env : Env) (ns c : Option Name) : OneType t (specCtor env ns c) := by
  match ns, c with
  | some ns, some n => exact .none (useNs_defs ..)
  | none, some n => exact .none (useName_defs ..)
  | some _, none => exact .none rfl
  | none, none => exact .none rfl

mutual
theorem one_specExpr {t : Target} : ∀ e env, OneType t (specExpr env e)
  | .name none, env => by simp only [specExpr]; exact .none rfl
  | .name (some n), env => by simp only [specExpr]; exact .none (useName_defs ..)
  | .nsName none n, env => by simp only [specExpr]; exact .none rfl
  | .nsName (some ns) none, env => by simp only [specExpr]; exact .none rfl
  | .nsName (some ns) (some n), env => by simp only [specExpr]; exact .none (useNs_defs ..)
  | .apply f a, env => by simp only [specExpr]; exact (one_specExpr f _).append (one_specExpr a _)
  | .binary f a, env => by simp only [specExpr]; exact (one_specExpr f _).append (one_specExpr a _)
  | .letE none ty v r, env => by
    simp only [specExpr]
    exact (one_specAnn ty env).append ((one_specExpr v _).append (one_specExpr r _))
  | .letE (some n) ty v r, env => by
    simp only [specExpr]
    exact (one_specAnn ty env).append ((one_specExpr v _).append ((one_value ..).append (one_specExpr r _)))
  | .matchE d cs, env => by simp only [specExpr]; exact (one_specExpr d _).append (one_specCases cs _)
  | .ifE c a e, env => by
    simp only [specExpr]; exact (one_specExpr c _).append ((one_specExpr a _).append (one_specExpr e _))
  | .literal, env => by simp only [specExpr]; exact .none rfl
  | .lambda none b, env => by simp only [specExpr]; exact one_specExpr b _
  | .lambda (some n) b, env => by simp only [specExpr]; exact (one_value ..).append (one_specExpr b _)
  | .paren e, env => by simp only [specExpr]; exact one_specExpr e _
  | .hole, env => by simp only [specExpr]; exact .none rfl
  | .missing, env => by simp only [specExpr]; exact .none rfl
theorem one_specCases {t : Target} : ∀ cs env, OneType t (specCases env cs)
  | .nil, env => by simp only [specCases]; exact .none rfl
  | .cons ns c vars body rest, env => by
    simp only [specCases]
    exact (one_specCtor ..).append ((one_oVars vars).append ((one_specExpr body _).append (one_specCases rest _)))
end

theorem specFields_defs (env : Env) : ∀ fs, (specFields env fs).2.defs = []
  | [] => rfl
  | .recur :: fs => specFields_defs env fs
  | .type t :: fs => by
    simp only [specFields, SOut.append_def, specTy_defs, specFields_defs env fs, List.append_nil]

theorem one_specTypeCases (env : Env) (ty : Target) (ps : List Target) (v : Vis) :
    ∀ cs names, OneType ty (specTypeCases env ty ps v cs names).2
  | [], _ => .none rfl
  | ⟨none, fs⟩ :: cs, names => by
    simp only [specTypeCases]
    exact (OneType.none (specFields_defs ..)).append (one_specTypeCases env ty ps v cs names)
  | ⟨some n, fs⟩ :: cs, names => by
    simp only [specTypeCases]
    split
    · exact (OneType.none (specFields_defs ..)).append
        ((OneType.none rfl).append (one_specTypeCases env ty ps v cs names))
    · refine (OneType.none (specFields_defs ..)).append (.append ?_ (one_specTypeCases env ty ps v cs _))
      refine ⟨fun d hd h => ?_, fun d hd h => ?_, fun d hd => ?_⟩ <;> rw [List.mem_singleton.1 hd] at *
      · rfl
      · exact nomatch h
      · exact nofun

theorem one_specItem {me : Nat} (env : Env) (i : Item) (hi : isImport i = false) :
    ∃ t, OneType t (specItem me env i) := by
  match i, hi with
  | .typeI node ex exc name ps cs, _ =>
    refine ⟨.here (typeTag node name), ?_⟩
    simp only [specItem, specTypeItem]
    refine (one_oParams ps).append ((one_specTypeCases ..).append ?_)
    cases name with
    | none => exact .none rfl
    | some n =>
      refine ⟨fun d hd h => ?_, fun d hd h => ?_, fun d hd => ?_⟩ <;> rw [List.mem_singleton.1 hd] at *
      · exact nomatch h
      · rfl
      · exact nofun
  | .valueI ex name ty v, _ =>
    refine ⟨.here 0, ?_⟩
    simp only [specItem, specValueItem]
    refine (one_specAnn ..).append (.append ?_ (one_specExpr ..))
    cases name with
    | none => exact .none rfl
    | some n => exact one_value ..

/-! ## Use -/

theorem mem_usedIn {S : Type} {o : Out S} {x : S} : x ∈ usedIn o ↔
    (∃ m, (x, m) ∈ o.refs) ∨ ∃ d ∈ o.defs, d.sym = x ∧ (isTyVar d = true ∨ d.vis = .export) := by
  unfold usedIn
  rw [List.mem_append, List.mem_map, List.mem_filterMap]
  constructor
  · rintro (⟨r, hr, rfl⟩ | ⟨d, hd, h⟩)
    · exact .inl ⟨r.2, hr⟩
    · refine .inr ⟨d, hd, ?_⟩
      split at h
      · rename_i hk
        cases h
        exact ⟨rfl, .inl (by simp [isTyVar, hk])⟩
      · split at h
        · rename_i hv
          cases h
          exact ⟨rfl, .inr hv⟩
        · exact nomatch h
  · rintro (⟨m, hm⟩ | ⟨d, hd, rfl, h⟩)
    · exact .inl ⟨_, hm, rfl⟩
    · refine .inr ⟨d, hd, ?_⟩
      split
      · rfl
      · rename_i hk
        rcases h with h | h
        · unfold isTyVar at h
          split at h
          · rename_i hk'; exact absurd hk' (by simpa using hk _ _)
          · exact nomatch h
        · rw [if_pos h]

/-- Something counts as used by itself if a name of the unit refers to it, or if a definition of it is a type
variable or exported. -/
def UsedItself {S : Type} (o : Out S) (x : S) : Prop :=
  (∃ m, (x, m) ∈ o.refs) ∨ ∃ d ∈ o.defs, d.sym = x ∧ (isTyVar d = true ∨ d.vis = .export)

theorem mem_used {S : Type} {os : List (Out S)} {x : S} : x ∈ os.flatMap usedIn ↔ UsedItself (flat os) x := by
  simp only [List.mem_flatMap, mem_usedIn, UsedItself, flat]
  constructor
  · rintro ⟨o, ho, ⟨m, hm⟩ | ⟨d, hd, h⟩⟩
    · exact .inl ⟨m, o, ho, hm⟩
    · exact .inr ⟨d, ⟨o, ho, hd⟩, h⟩
  · rintro (⟨m, o, ho, hm⟩ | ⟨d, ⟨o, ho, hd⟩, h⟩)
    · exact ⟨o, ho, .inl ⟨m, hm⟩⟩
    · exact ⟨o, ho, .inr ⟨d, hd, h⟩⟩

theorem mem_depsIn {S : Type} {o : Out S} {c t : S} : (c, t) ∈ depsIn o ↔
    ∃ d ∈ o.defs, d.sym = c ∧ isCtor d = true ∧ typeDef o = some t := by
  unfold depsIn
  rw [List.mem_filterMap]
  constructor
  · rintro ⟨d, hd, h⟩
    split at h
    · rename_i hk ht
      cases h
      exact ⟨d, hd, rfl, by simp [isCtor, hk], ht⟩
    · exact nomatch h
  · rintro ⟨d, hd, rfl, hc, ht⟩
    refine ⟨d, hd, ?_⟩
    unfold isCtor at hc
    split at hc
    · rename_i hk
      simp [ht, hk]
    · exact nomatch hc

theorem typeDef_some {S : Type} {o : Out S} {t : S} (h : typeDef o = some t) :
    ∃ d ∈ o.defs, isDataType d = true ∧ d.sym = t := by
  obtain ⟨d, hd, e⟩ := Option.map_eq_some_iff.1 h
  exact ⟨d, List.mem_of_find?_eq_some hd, List.find?_some hd, e⟩

theorem typeDef_of {S : Type} {o : Out S} {d : Def S} (hd : d ∈ o.defs) (h : isDataType d = true) :
    ∃ t, typeDef o = some t := by
  cases ht : typeDef o with
  | some t => exact ⟨t, rfl⟩
  | none =>
    have := List.find?_eq_none.1 (Option.map_eq_none_iff.1 ht) d hd
    exact absurd h this

theorem mem_unused {S : Type} [DecidableEq S] {os : List (Out S)} {d : Def S} : d ∈ unused os ↔
    d ∈ (flat os).defs ∧ d.kind ≠ .module ∧ underscored d.text = false ∧ ¬ UsedItself (flat os) d.sym ∧
      ∀ c, UsedItself (flat os) c → getDep c (os.flatMap depsIn) ≠ some d.sym := by
  unfold unused
  simp only [List.mem_flatMap, List.mem_filter, Bool.and_eq_true, decide_eq_true_eq, List.mem_append,
    List.mem_filterMap, flat, Bool.not_eq_true', not_or]
  constructor
  · rintro ⟨o, ho, hd, ⟨hm, hu1, hu2⟩, ht⟩
    refine ⟨⟨o, ho, hd⟩, ?_, ht, ?_, ?_⟩
    · intro e; rw [e] at hm; exact nomatch hm
    · exact fun hu => hu1 (List.mem_flatMap.1 (mem_used.2 hu))
    · exact fun c hc e => hu2 ⟨c, List.mem_flatMap.1 (mem_used.2 hc), e⟩
  · rintro ⟨⟨o, ho, hd⟩, hm, ht, hu1, hu2⟩
    refine ⟨o, ho, hd, ⟨?_, ?_, ?_⟩, ht⟩
    · split
      · rename_i e; exact absurd e hm
      · rfl
    · exact fun hu => hu1 (mem_used.1 (List.mem_flatMap.2 hu))
    · rintro ⟨c, hc, e⟩
      exact hu2 c (mem_used.1 (List.mem_flatMap.2 hc)) e

theorem getDep_mem {S : Type} [DecidableEq S] {deps : List (S × S)} {c t : S} (h : getDep c deps = some t) :
    (c, t) ∈ deps := by
  obtain ⟨p, hp, rfl⟩ := Option.map_eq_some_iff.1 h
  have := List.find?_some hp
  have hm := List.mem_reverse.1 (List.mem_of_find?_eq_some hp)
  have e : p.1 = c := by simpa using this
  rw [← e]; exact hm

theorem getDep_of {S : Type} [DecidableEq S] {deps : List (S × S)} {c t : S} (h : (c, t) ∈ deps)
    (hu : ∀ t', (c, t') ∈ deps → t' = t) : getDep c deps = some t := by
  cases hg : getDep c deps with
  | some t' => rw [hu t' (getDep_mem hg)]
  | none =>
    have := List.find?_eq_none.1 (Option.map_eq_none_iff.1 hg) (c, t) (List.mem_reverse.2 h)
    simp at this

theorem isTyVar_map (d : Def Sym) : isTyVar (d.map (erase s.me)) = isTyVar d := by
  obtain ⟨sy, kd, v, nd, tx, hn, u⟩ := d
  cases kd with
  | type n v c => cases v <;> rfl
  | _ => rfl

theorem isDataType_map (d : Def Sym) : isDataType (d.map (erase s.me)) = isDataType d := by
  obtain ⟨sy, kd, v, nd, tx, hn, u⟩ := d
  cases kd <;> rfl

theorem isCtor_map (d : Def Sym) : isCtor (d.map (erase s.me)) = isCtor d := by
  obtain ⟨sy, kd, v, nd, tx, hn, u⟩ := d
  cases kd <;> rfl

theorem module_map (d : Def Sym) : (d.map (erase s.me)).kind = .module ↔ d.kind = .module := by
  obtain ⟨sy, kd, v, nd, tx, hn, u⟩ := d
  cases kd <;> simp [Def.map, Kind.map]

theorem used_conv (h : Laid s) {x : Sym} (hx : x.unit = s.me → ∃ d ∈ (flat s.full).defs, d.sym = x) :
    UsedItself (flat s.full) x ↔ UsedItself (flat s.rules) (erase s.me x) := by
  unfold UsedItself
  rw [flat_map_refs, flat_map_defs]
  constructor
  · rintro (⟨m, hm⟩ | ⟨d, hd, rfl, h2⟩)
    · exact .inl ⟨m, List.mem_map.2 ⟨_, hm, rfl⟩⟩
    · exact .inr ⟨_, List.mem_map.2 ⟨d, hd, rfl⟩, rfl, by rw [isTyVar_map]; exact h2⟩
  · rintro (⟨m, hm⟩ | ⟨D, hD, e, h2⟩)
    · obtain ⟨⟨y, m'⟩, hy, e⟩ := List.mem_map.1 hm
      have : y = x := erase_inj h (fun hu => ref_known' h hy hu) hx (by simp_all)
      exact .inl ⟨m', this ▸ hy⟩
    · obtain ⟨d, hd, rfl⟩ := List.mem_map.1 hD
      rw [isTyVar_map] at h2
      exact .inr ⟨d, hd, erase_inj h (fun _ => ⟨d, hd, rfl⟩) hx e, h2⟩

theorem own_unique (h : Laid s) {j k : Nat} {o o' : Out Sym} {a b : Def Sym} (hj : s.full[j]? = some o)
    (hk : s.full[k]? = some o') (ha : a ∈ o.defs) (hb : b ∈ o'.defs) (e : a.sym = b.sym) (hu : b.sym.unit = s.me) :
    j = k ∧ a = b := by
  obtain ⟨n, ok⟩ := defsOK h
  have hn := ok.nodup
  refine ⟨?_, filterMap_nodup_inj hn (x := b.sym.idx) (flat_mem_defs.2 ⟨j, o, hj, ha⟩)
    (flat_mem_defs.2 ⟨k, o', hk, hb⟩) (by simp [e, hu]) (by simp [hu])⟩
  rw [ownIdx_flat] at hn
  exact flatMap_index hn hj hk (x := b.sym.idx) (List.mem_filterMap.2 ⟨a, ha, by simp [e, hu]⟩)
    (List.mem_filterMap.2 ⟨b, hb, by simp [hu]⟩)

theorem mem_deps {c t : Sym} (hd : (c, t) ∈ s.full.flatMap depsIn) : ∃ (j : Nat) (o : Out Sym),
    s.full[j]? = some o ∧ (∃ d ∈ o.defs, d.sym = c ∧ isCtor d = true) ∧ typeDef o = some t := by
  obtain ⟨o, ho, h⟩ := List.mem_flatMap.1 hd
  obtain ⟨d, h1, h2, h3, h4⟩ := mem_depsIn.1 h
  obtain ⟨j, hj⟩ := List.mem_iff_getElem?.1 ho
  exact ⟨j, o, hj, ⟨d, h1, h2, h3⟩, h4⟩

theorem underscored_iff (x : String) : underscored x = false ↔ ∀ rest, x.toList ≠ '_' :: rest := by
  unfold underscored
  cases h : x.toList with
  | nil => simp
  | cons c r =>
    by_cases hc : c = '_'
    · subst hc; simp
    · simp [hc]

/-- **Which of a unit's own definitions are reported as never used**: exactly those whose name does not begin with
an underscore, that no name of the unit refers to, that are neither exported nor type variables, and, for a type,
none of whose constructors is exported or referred to. -/
theorem own_reported_iff (h : Laid s) {k : Nat} {O : SOut} {D : Def Target} {i : Item}
    (hk : s.rules[k]? = some O) (hi : s.items[k]? = some i) (him : isImport i = false) (hD : D ∈ O.defs) :
    D ∈ s.reported ↔ (∀ rest, D.text.toList ≠ '_' :: rest) ∧
      ¬ ((∃ m, (D.sym, m) ∈ (flat s.rules).refs) ∨ isTyVar D = true ∨ D.vis = .export) ∧
      (isDataType D = true → ∀ C ∈ O.defs, ctorOf C = some D.sym →
        ¬ ((∃ m, (C.sym, m) ∈ (flat s.rules).refs) ∨ C.vis = .export)) := by
  obtain ⟨o, ho, rfl⟩ := full_get hk
  obtain ⟨i', env, hi', e⟩ := Src.rules_get hk
  rw [hi] at hi'
  cases hi'
  have hOwn := (own_specItem (me := s.me) env i him).all
  obtain ⟨τ, hτ⟩ := one_specItem (me := s.me) env i him
  rw [← e] at hOwn hτ
  have hunit : ∀ d ∈ o.defs, d.sym.unit = s.me := by
    intro d hd
    have := (hOwn (d.map (erase s.me)) (List.mem_map.2 ⟨d, hd, rfl⟩)).1
    have : erase s.me d.sym = .here d.node := this
    unfold erase at this
    split at this
    · assumption
    · exact nomatch this
  have hmemF : ∀ d ∈ o.defs, d ∈ (flat s.full).defs := fun d hd => flat_mem_defs.2 ⟨k, o, ho, hd⟩
  -- for the unit's own definitions, being used is seen on the definition itself
  have hself : ∀ d ∈ o.defs, UsedItself (flat s.rules) (erase s.me d.sym) ↔
      (∃ m, (erase s.me d.sym, m) ∈ (flat s.rules).refs) ∨ isTyVar d = true ∨ d.vis = .export := by
    intro d hd
    rw [← used_conv h fun _ => ⟨d, hmemF d hd, rfl⟩]
    unfold UsedItself
    refine or_congr ⟨?_, ?_⟩ ⟨?_, ?_⟩
    · rintro ⟨m, hm⟩
      exact ⟨m, by rw [flat_map_refs]; exact List.mem_map.2 ⟨_, hm, rfl⟩⟩
    · rintro ⟨m, hm⟩
      rw [flat_map_refs] at hm
      obtain ⟨⟨y, m'⟩, hy, e⟩ := List.mem_map.1 hm
      have : y = d.sym := erase_inj h (fun hu => ref_known' h hy hu) (fun _ => ⟨d, hmemF d hd, rfl⟩) (by simp_all)
      exact ⟨m', this ▸ hy⟩
    · rintro ⟨d', hd', e, h2⟩
      obtain ⟨j, o', hj, hd'⟩ := flat_mem_defs.1 hd'
      rw [(own_unique h hj ho hd' hd e (hunit d hd)).2] at h2
      exact h2
    · intro h2
      exact ⟨d, hmemF d hd, rfl, h2⟩
  obtain ⟨d, hd, rfl⟩ := List.mem_map.1 hD
  have hrep : d.map (erase s.me) ∈ s.reported ↔ d ∈ unused s.full := by
    constructor
    · intro hr
      obtain ⟨d', hd', e'⟩ := List.mem_map.1 hr
      obtain ⟨j, o', hj, hdj⟩ := flat_mem_defs.1 (mem_unused.1 hd').1
      have e2 : d'.sym = d.sym := erase_inj h (fun _ => ⟨d', flat_mem_defs.2 ⟨j, o', hj, hdj⟩, rfl⟩)
        (fun _ => ⟨d, hmemF d hd, rfl⟩) (congrArg Def.sym e')
      rw [← (own_unique h hj ho hdj hd e2 (hunit d hd)).2]
      exact hd'
    · exact fun hr => List.mem_map.2 ⟨d, hr, rfl⟩
  rw [hrep, mem_unused, isDataType_map, isTyVar_map, ← underscored_iff]
  have hD1 : (d.map (erase s.me)).sym = erase s.me d.sym := rfl
  have hD2 : (d.map (erase s.me)).vis = d.vis := rfl
  have hD3 : (d.map (erase s.me)).text = d.text := rfl
  rw [hD1, hD2, hD3, ← hself d hd, used_conv h fun _ => ⟨d, hmemF d hd, rfl⟩]
  constructor
  · rintro ⟨-, -, ht, hu, hdep⟩
    refine ⟨ht, hu, ?_⟩
    intro hty C hC hct hCu
    obtain ⟨c, hc, rfl⟩ := List.mem_map.1 hC
    have hcc : isCtor c = true := by
      rw [← isCtor_map (s := s)]
      unfold ctorOf at hct
      unfold isCtor
      split at hct
      · rfl
      · exact nomatch hct
    have hc1 : UsedItself (flat s.full) c.sym := by
      rw [used_conv h fun _ => ⟨c, hmemF c hc, rfl⟩, hself c hc]
      rcases hCu with hCu | hCu
      · exact .inl hCu
      · exact .inr (.inr hCu)
    obtain ⟨t, ht'⟩ := typeDef_of hd hty
    obtain ⟨d2, hd2, hty2, rfl⟩ := typeDef_some ht'
    have ed : d2.sym = d.sym := by
      have a1 := hτ.type _ (List.mem_map.2 ⟨d2, hd2, rfl⟩) (by rw [isDataType_map]; exact hty2)
      have a2 := hτ.type _ (List.mem_map.2 ⟨d, hd, rfl⟩) (by rw [isDataType_map]; exact hty)
      exact erase_inj h (fun _ => ⟨d2, hmemF d2 hd2, rfl⟩) (fun _ => ⟨d, hmemF d hd, rfl⟩) (a1.trans a2.symm)
    refine hdep c.sym hc1 (getDep_of ?_ ?_)
    · refine List.mem_flatMap.2 ⟨o, List.mem_of_getElem? ho, mem_depsIn.2 ⟨c, hc, rfl, hcc, ?_⟩⟩
      rw [ht', ed]
    · intro t' ht2
      obtain ⟨j, o2, hj, ⟨c2, hc2, e2, -⟩, ht3⟩ := mem_deps ht2
      have := (own_unique h hj ho hc2 hc e2 (hunit c hc)).1
      subst this
      rw [ho] at hj
      cases hj
      rw [ht'] at ht3
      rw [← Option.some.inj ht3, ed]
  · rintro ⟨ht, hu, hct⟩
    refine ⟨hmemF d hd, ?_, ht, hu, ?_⟩
    · rw [ne_eq, ← module_map (s := s)]; exact hτ.mod _ hD
    · intro c hc hg
      obtain ⟨j, o2, hj, ⟨c2, hc2, rfl, hcc⟩, ht3⟩ := mem_deps (getDep_mem hg)
      obtain ⟨d2, hd2, hty2, e2⟩ := typeDef_some ht3
      obtain ⟨rfl, rfl⟩ := own_unique h hj ho hd2 hd e2 (hunit d hd)
      rw [ho] at hj
      cases hj
      have hC : c2.map (erase s.me) ∈ (o.map (erase s.me)).defs := List.mem_map.2 ⟨c2, hc2, rfl⟩
      have a1 := hτ.ctor _ hC (by rw [isCtor_map]; exact hcc)
      have a2 := hτ.type _ hD (by rw [isDataType_map]; exact hty2)
      refine hct hty2 _ hC (by rw [a1, ← a2]; rfl) ?_
      rw [used_conv h fun _ => ⟨c2, hmemF c2 hc2, rfl⟩, hself c2 hc2] at hc
      rcases hc with hc | hc | hc
      · exact .inl hc
      · unfold isTyVar at hc
        unfold isCtor at hcc
        split at hc
        · rename_i hk1; rw [hk1] at hcc; exact nomatch hcc
        · exact nomatch hc
      · exact .inr hc

/-- **No false alarm**: nothing that a name of the unit refers to is reported, exposed names included. -/
theorem reported_not_used (h : Laid s) {D : Def Target} (hD : D ∈ s.reported) :
    D ∈ (flat s.rules).defs ∧ D.kind ≠ .module ∧ D.vis ≠ .export ∧ ∀ m, (D.sym, m) ∉ (flat s.rules).refs := by
  obtain ⟨d, hd, rfl⟩ := List.mem_map.1 hD
  obtain ⟨h1, h2, -, h3, -⟩ := mem_unused.1 hd
  rw [used_conv h fun _ => ⟨d, h1, rfl⟩] at h3
  refine ⟨?_, ?_, ?_, ?_⟩
  · rw [flat_map_defs]; exact List.mem_map.2 ⟨d, h1, rfl⟩
  · rw [ne_eq, module_map]; exact h2
  · intro hv
    exact h3 (.inr ⟨d.map (erase s.me), by rw [flat_map_defs]; exact List.mem_map.2 ⟨d, h1, rfl⟩, rfl, .inr hv⟩)
  · intro m hm
    exact h3 (.inl ⟨m, hm⟩)

/-! ## A concrete unit, and what goes wrong -/

/-- Of the example unit, `g` (node 10) and the two pattern variables `b` (nodes 13 and 17) are reported, and nothing
else: `a` and the inner names are used, and `f` and `t` with its constructors are exported. -/
theorem exSrc_lints : exSrc.lints = [(40, 42), (52, 54), (68, 70)] := by decide +kernel

/-- the exported type of the example -/
def exType : Def Target := ⟨.here 2, .type 0 false (some [.here 3, .here 4]), .export, 2, "t", true, []⟩

/-- the theorem applied to it: it is not reported -/
example : exType ∉ exSrc.reported := by
  intro hc
  obtain ⟨-, h, -⟩ := (own_reported_iff exLaid (D := exType) (k := 1) (i := exUnit[1]) rfl rfl rfl
    (List.mem_of_find?_eq_some (p := fun d => d.node == 2) rfl)).1 hc
  exact h (.inr (.inr rfl))

/-- and to `g`, which nobody uses: it is -/
example : ∃ D, D ∈ exSrc.reported ∧ D.text = "g" := by
  refine ⟨_, (own_reported_iff exLaid (k := 3) (i := exUnit[3]) rfl rfl rfl
    (List.mem_of_find?_eq_some (p := fun d => d.node == 10) rfl)).2 ⟨(underscored_iff _).1 (by decide +kernel), ?_, nofun⟩, rfl⟩
  rintro (⟨m, hm⟩ | h | h)
  · have : ∀ r ∈ (flat exSrc.rules).refs, r.1 ≠ .here 10 := by decide +kernel
    exact this _ hm rfl
  · exact nomatch h
  · exact nomatch h

/-- two types `Opt` and `List`, and a constructor `Nil` of `List` -/
def exTypes : List (Export Sym) :=
  [⟨.type, "Opt", ⟨7, 0, 0⟩, .type 0 false (some [])⟩, ⟨.type, "List", ⟨7, 1, 0⟩, .type 0 false (some [⟨7, 2, 0⟩])⟩,
   ⟨.value, "Nil", ⟨7, 2, 0⟩, .ctor ⟨7, 1, 0⟩ [] [] (.named ⟨7, 1, 0⟩ .nil)⟩,
   ⟨.pattern, "Nil", ⟨7, 2, 0⟩, .ctor ⟨7, 1, 0⟩ [] [] (.named ⟨7, 1, 0⟩ .nil)⟩]

/-- `import (Opt, List, Nil) from "l"; export x = Nil;` -/
def exExposed : Src where
  me := 0
  items := [.importI 0 (.ok exTypes) none [⟨"Opt", 1⟩, ⟨"List", 2⟩, ⟨"Nil", 3⟩],
    .valueI true (some ⟨"x", 4⟩) none (.name (some ⟨"Nil", 5⟩))]
  ispan := fun k => (10 * k, 10 * k + 10)
  span := fun m => (2 * m, 2 * m + 1)

/-- For exposed constructors the lint looks at the first type the same import exposes, not at the constructor's own
(`unused.rs:13-16`): using `Nil` counts as using `Opt`, and `List`, its type, is reported. -/
theorem exposed_ctor_credits_wrong_type : exExposed.reported.map (·.text) = ["List"] := by decide +kernel

end Tic.Api
