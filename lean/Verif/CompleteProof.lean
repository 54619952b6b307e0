import Verif.Complete
import Verif.CompleteSpec
import Verif.PropResolve

/-!
# Facts about sites, typing a name at a site, and the callbacks
-/

namespace Tic.Resolve

abbrev nodesOf (l : List (Nat × Use)) : List Nat := l.map (·.1)

/-- nothing is recorded as a reference at the node -/
structure NoRef (p : Nat) (o : SOut) : Prop where
  no : ∀ t, (t, p) ∉ o.refs

theorem NoRef.nil (p : Nat) : NoRef p ({} : SOut) := ⟨fun _ h => nomatch h⟩

theorem NoRef.append {p : Nat} {a b : SOut} (ha : NoRef p a) (hb : NoRef p b) : NoRef p (a ++ b) :=
  ⟨fun t h => by
    rw [SOut.append_def] at h
    rcases List.mem_append.1 h with h | h
    · exact ha.no t h
    · exact hb.no t h⟩

theorem NoRef.oErr (p : Nat) (k : ErrKind) (n : Nat) : NoRef p (oErr k n) := ⟨fun _ h => nomatch h⟩

theorem NoRef.oDef (p : Nat) (n : Name) (k : Kind Target) (v : Vis) : NoRef p (oDef n k v) :=
  ⟨fun _ h => nomatch h⟩

theorem NoRef.oRef {p : Nat} {t : Target} {n : Nat} (h : n ≠ p) : NoRef p (oRef t n) :=
  ⟨fun t' h' => by
    simp only [Tic.Resolve.oRef, List.mem_singleton, Prod.mk.injEq] at h'
    exact h h'.2.symm⟩

theorem NoRef.useName {p : Nat} {ns : NS} {u : ErrKind} {env : Env} {n : Name} (h : n.node ≠ p) :
    NoRef p (useName ns u env n).2 := by
  unfold Tic.Resolve.useName
  split
  · exact .oRef h
  · exact .oErr ..

theorem NoRef.useNs {p : Nat} {ns : NS} {env : Env} {m n : Name} (h : n.node ≠ p) :
    NoRef p (useNs ns env m n).2 := by
  unfold Tic.Resolve.useNs
  split
  · exact .oErr ..
  · split
    · exact .oRef h
    · exact .oErr ..
    · exact .oErr ..

theorem NoRef.useTyVar {p : Nat} {b : Bool} {env : Env} {n : Name} (h : n.node ≠ p) :
    NoRef p (useTyVar env n b).2.2.2 := by
  unfold Tic.Resolve.useTyVar
  split
  · exact .oRef h
  · split
    · exact .oDef ..
    · exact .oErr ..

theorem NoRef.oVars (p : Nat) : ∀ ns, NoRef p (oVars ns)
  | [] => .nil p
  | n :: ns => (NoRef.oDef ..).append (NoRef.oVars p ns)

theorem NoRef.oParams (p : Nat) : ∀ ns, NoRef p (oParams ns)
  | [] => .nil p
  | n :: ns => (NoRef.oDef ..).append (NoRef.oParams p ns)

theorem Name.ren_ne {p : Nat} {x : String} {n : Name} (h : n.node ≠ p) : n.ren p x = n := by
  simp [Name.ren, h]

theorem Name.ren_eq {x : String} {n : Name} : n.ren n.node x = ⟨x, n.node⟩ := by
  simp [Name.ren]

@[simp] theorem Name.ren_node {p : Nat} {x : String} {n : Name} : (n.ren p x).node = n.node := by
  unfold Name.ren; split <;> rfl

@[simp] theorem renTys_isNil (p : Nat) (x : String) (ts : Tys) : (renTys p x ts).isNil = ts.isNil := by
  cases ts <;> simp [renTys, Tys.isNil]

/-! ## An item that does not have the node as a site -/

theorem not_mem_append' {p : Nat} {a b : List (Nat × Use)} :
    p ∉ nodesOf (a ++ b) ↔ p ∉ nodesOf a ∧ p ∉ nodesOf b := by
  simp only [nodesOf, List.map_append, List.mem_append, not_or]

theorem site_two {p : Nat} {ns : NS} {m n : Name} :
    p ∉ nodesOf (siteName ns (some m) (some n)) ↔ m.node ≠ p ∧ n.node ≠ p := by
  simp only [nodesOf, siteName, List.map_cons, List.map_nil, List.mem_cons, List.not_mem_nil, or_false,
    not_or, ne_eq, eq_comm]

theorem site_one {p : Nat} {ns : NS} {n : Name} :
    p ∉ nodesOf (siteName ns none (some n)) ↔ n.node ≠ p := by
  simp only [nodesOf, siteName, List.map_cons, List.map_nil, List.mem_cons, List.not_mem_nil, or_false,
    ne_eq, eq_comm]

mutual
theorem free_specTy {p : Nat} (x : String) (env : Env) : ∀ t, p ∉ nodesOf (sitesTy t) →
    specTy env (renTy p x t) = specTy env t ∧ NoRef p (specTy env t).2
  | .int, _ | .bool, _ | .string, _ | .missing, _ => ⟨by simp [renTy], by simp only [specTy]; exact .nil p⟩
  | .paren t, h => by
    simp only [renTy, specTy]; exact free_specTy x env t (by simpa only [sitesTy] using h)
  | .fn a b, h => by
    rw [sitesTy, not_mem_append'] at h
    obtain ⟨a1, a2⟩ := free_specTy x env a h.1
    obtain ⟨b1, b2⟩ := free_specTy x env b h.2
    simp only [renTy, specTy, a1, b1]
    exact ⟨trivial, a2.append b2⟩
  | .named ns n args, h => by
    rw [sitesTy, not_mem_append'] at h
    obtain ⟨b1, b2⟩ := free_specTys x env args h.2
    simp only [renTy, specTy, b1]
    match ns, n with
    | some m, some n =>
      obtain ⟨h1, h2⟩ := site_two.1 h.1
      simp only [Option.map_some, Name.ren_ne h1, Name.ren_ne h2]
      exact ⟨trivial, (NoRef.useNs h2).append b2⟩
    | none, some n =>
      have h2 := site_one.1 h.1
      simp only [Option.map_some, Option.map_none, Name.ren_ne h2]
      exact ⟨trivial, (NoRef.useName h2).append b2⟩
    | some m, none => exact ⟨by simp, (NoRef.nil p).append b2⟩
    | none, none => exact ⟨by simp, (NoRef.nil p).append b2⟩
theorem free_specTys {p : Nat} (x : String) (env : Env) : ∀ t, p ∉ nodesOf (sitesTys t) →
    specTys env (renTys p x t) = specTys env t ∧ NoRef p (specTys env t).2
  | .nil, _ => ⟨by simp [renTys], by simp only [specTys]; exact .nil p⟩
  | .cons a b, h => by
    rw [sitesTys, not_mem_append'] at h
    obtain ⟨a1, a2⟩ := free_specTy x env a h.1
    obtain ⟨b1, b2⟩ := free_specTys x env b h.2
    simp only [renTys, specTys, a1, b1]
    exact ⟨trivial, a2.append b2⟩
end

mutual
theorem free_specTyV {p : Nat} (x : String) : ∀ t (env : Env), p ∉ nodesOf (sitesTy t) →
    specTyV env (renTy p x t) = specTyV env t ∧ NoRef p (specTyV env t).out
  | .int, _, _ | .bool, _, _ | .string, _, _ | .missing, _, _ =>
    ⟨by simp [renTy], by simp only [specTyV]; exact .nil p⟩
  | .paren t, env, h => by
    simp only [renTy, specTyV]; exact free_specTyV x t env (by simpa only [sitesTy] using h)
  | .fn a b, env, h => by
    rw [sitesTy, not_mem_append'] at h
    obtain ⟨a1, a2⟩ := free_specTyV x a env h.1
    obtain ⟨b1, b2⟩ := free_specTyV x b (specTyV env a).env h.2
    simp only [renTy, specTyV, a1, b1]
    exact ⟨trivial, a2.append b2⟩
  | .named ns n args, env, h => by
    rw [sitesTy, not_mem_append'] at h
    have b1 := fun env => (free_specTysV x args env h.2).1
    have b2 := fun env => (free_specTysV x args env h.2).2
    simp only [renTy, specTyV, b1, renTys_isNil]
    match ns, n with
    | some m, some n =>
      obtain ⟨h1, h2⟩ := site_two.1 h.1
      simp only [Option.map_some, Name.ren_ne h1, Name.ren_ne h2]
      exact ⟨trivial, (NoRef.useNs h2).append (b2 _)⟩
    | none, some n =>
      have h2 := site_one.1 h.1
      simp only [Option.map_some, Option.map_none, Name.ren_ne h2]
      exact ⟨trivial, (NoRef.useTyVar h2).append (b2 _)⟩
    | some m, none => exact ⟨by simp, (NoRef.nil p).append (b2 _)⟩
    | none, none => exact ⟨by simp, (NoRef.nil p).append (b2 _)⟩
theorem free_specTysV {p : Nat} (x : String) : ∀ t (env : Env), p ∉ nodesOf (sitesTys t) →
    specTysV env (renTys p x t) = specTysV env t ∧ NoRef p (specTysV env t).out
  | .nil, _, _ => ⟨by simp [renTys], by simp only [specTysV]; exact .nil p⟩
  | .cons a b, env, h => by
    rw [sitesTys, not_mem_append'] at h
    obtain ⟨a1, a2⟩ := free_specTyV x a env h.1
    obtain ⟨b1, b2⟩ := free_specTysV x b (specTyV env a).env h.2
    simp only [renTys, specTysV, a1, b1]
    exact ⟨trivial, a2.append b2⟩
end

theorem free_specAnn {p : Nat} (x : String) (t : Option Ty) (env : Env) (h : p ∉ nodesOf (sitesAnn t)) :
    specAnn env (renAnn p x t) = specAnn env t ∧ NoRef p (specAnn env t).out := by
  cases t with
  | none => exact ⟨rfl, .nil p⟩
  | some t => exact free_specTyV x t env h

theorem free_specCtor {p : Nat} (x : String) (env : Env) (ns c : Option Name)
    (h : p ∉ nodesOf (siteName .pattern ns c)) :
    specCtor env (renName p x ns) (renName p x c) = specCtor env ns c ∧ NoRef p (specCtor env ns c) := by
  match ns, c with
  | some m, some n =>
    obtain ⟨h1, h2⟩ := site_two.1 h
    simp only [renName, Option.map_some, Name.ren_ne h1, Name.ren_ne h2]
    exact ⟨trivial, .useNs h2⟩
  | none, some n =>
    have h2 := site_one.1 h
    simp only [renName, Option.map_some, Option.map_none, Name.ren_ne h2]
    exact ⟨trivial, .useName h2⟩
  | some m, none => exact ⟨by simp [specCtor], .nil p⟩
  | none, none => exact ⟨by simp [specCtor], .nil p⟩

mutual
theorem free_specExpr {p : Nat} (x : String) : ∀ e (env : Env), p ∉ nodesOf (sitesExpr e) →
    specExpr env (renExpr p x e) = specExpr env e ∧ NoRef p (specExpr env e)
  | .literal, _, _ | .hole, _, _ | .missing, _, _ | .name none, _, _ =>
    ⟨by simp [renExpr], by simp only [specExpr]; exact .nil p⟩
  | .nsName none n, _, _ => ⟨by cases n <;> simp [renExpr, specExpr], by simp only [specExpr]; exact .nil p⟩
  | .nsName (some m) none, _, _ => ⟨by simp [renExpr, specExpr], by simp only [specExpr]; exact .nil p⟩
  | .name (some n), env, h => by
    have h2 := site_one.1 h
    simp only [renExpr, specExpr, renName, Option.map_some, Name.ren_ne h2]
    exact ⟨trivial, .useName h2⟩
  | .nsName (some m) (some n), env, h => by
    obtain ⟨h1, h2⟩ := site_two.1 h
    simp only [renExpr, specExpr, renName, Option.map_some, Name.ren_ne h1, Name.ren_ne h2]
    exact ⟨trivial, .useNs h2⟩
  | .paren e, env, h => by
    simp only [renExpr, specExpr]; exact free_specExpr x e env (by simpa only [sitesExpr] using h)
  | .apply a b, env, h => by
    rw [sitesExpr, not_mem_append'] at h
    obtain ⟨a1, a2⟩ := free_specExpr x a env h.1
    obtain ⟨b1, b2⟩ := free_specExpr x b env h.2
    simp only [renExpr, specExpr, a1, b1]
    exact ⟨trivial, a2.append b2⟩
  | .binary a b, env, h => by
    rw [sitesExpr, not_mem_append'] at h
    obtain ⟨a1, a2⟩ := free_specExpr x a env h.1
    obtain ⟨b1, b2⟩ := free_specExpr x b env h.2
    simp only [renExpr, specExpr, a1, b1]
    exact ⟨trivial, a2.append b2⟩
  | .ifE a b c, env, h => by
    rw [sitesExpr, not_mem_append', not_mem_append'] at h
    obtain ⟨a1, a2⟩ := free_specExpr x a env h.1
    obtain ⟨b1, b2⟩ := free_specExpr x b env h.2.1
    obtain ⟨c1, c2⟩ := free_specExpr x c env h.2.2
    simp only [renExpr, specExpr, a1, b1, c1]
    exact ⟨trivial, a2.append (b2.append c2)⟩
  | .matchE d cs, env, h => by
    rw [sitesExpr, not_mem_append'] at h
    obtain ⟨a1, a2⟩ := free_specExpr x d env h.1
    obtain ⟨b1, b2⟩ := free_specCases x cs env h.2
    simp only [renExpr, specExpr, a1, b1]
    exact ⟨trivial, a2.append b2⟩
  | .lambda (some n) b, env, h => by
    obtain ⟨b1, b2⟩ := free_specExpr x b (env.value n) (by simpa only [sitesExpr] using h)
    simp only [renExpr, specExpr, b1]
    exact ⟨trivial, (NoRef.oDef ..).append b2⟩
  | .lambda none b, env, h => by
    obtain ⟨b1, b2⟩ := free_specExpr x b env (by simpa only [sitesExpr] using h)
    simp only [renExpr, specExpr, b1]
    exact ⟨trivial, b2⟩
  | .letE (some n) ty v r, env, h => by
    rw [sitesExpr, not_mem_append', not_mem_append'] at h
    obtain ⟨a1, a2⟩ := free_specAnn x ty env h.1
    obtain ⟨b1, b2⟩ := free_specExpr x v (specAnn env ty).env h.2.1
    obtain ⟨c1, c2⟩ := free_specExpr x r (env.value n) h.2.2
    simp only [renExpr, specExpr, a1, b1, c1]
    exact ⟨trivial, a2.append (b2.append ((NoRef.oDef ..).append c2))⟩
  | .letE none ty v r, env, h => by
    rw [sitesExpr, not_mem_append', not_mem_append'] at h
    obtain ⟨a1, a2⟩ := free_specAnn x ty env h.1
    obtain ⟨b1, b2⟩ := free_specExpr x v (specAnn env ty).env h.2.1
    obtain ⟨c1, c2⟩ := free_specExpr x r env h.2.2
    simp only [renExpr, specExpr, a1, b1, c1]
    exact ⟨trivial, a2.append (b2.append c2)⟩
theorem free_specCases {p : Nat} (x : String) : ∀ cs (env : Env), p ∉ nodesOf (sitesCases cs) →
    specCases env (renCases p x cs) = specCases env cs ∧ NoRef p (specCases env cs)
  | .nil, _, _ => ⟨by simp [renCases], by simp only [specCases]; exact .nil p⟩
  | .cons ns c vars b r, env, h => by
    rw [sitesCases, not_mem_append', not_mem_append'] at h
    obtain ⟨a1, a2⟩ := free_specCtor x env ns c h.1
    obtain ⟨b1, b2⟩ := free_specExpr x b (env.values vars) h.2.1
    obtain ⟨c1, c2⟩ := free_specCases x r env h.2.2
    simp only [renCases, specCases, a1, b1, c1]
    exact ⟨trivial, a2.append ((NoRef.oVars ..).append (b2.append c2))⟩
end


/-! ## Scopes inside an item have the modules of the unit -/

/-- `a` has the modules of `b` -/
structure SameMods (a b : Scope) : Prop where
  mods : ∀ y, a.lookupModule y = b.lookupModule y
  ne : b ≠ [] → a ≠ []

theorem SameMods.refl (a : Scope) : SameMods a a := ⟨fun _ => rfl, id⟩
theorem SameMods.trans {a b c : Scope} (h : SameMods a b) (h' : SameMods b c) : SameMods a c :=
  ⟨fun y => (h.mods y).trans (h'.mods y), fun hc => h.ne (h'.ne hc)⟩
theorem SameMods.child (a : Scope) : SameMods a.child a :=
  ⟨fun _ => rfl, fun _ => by simp [Scope.child]⟩
theorem SameMods.insertValue (a : Scope) (x : String) (s : Sym) : SameMods (a.insertValue x s) a :=
  ⟨fun y => (lookup_insert_other x y s [] a).2.2.1, fun _ => by cases a <;> simp [Scope.insertValue]⟩
theorem SameMods.insertType (a : Scope) (x : String) (s : Sym) : SameMods (a.insertType x s) a := by
  have h := fun y => lookup_insert_other x y s [] a
  exact ⟨fun y => by have := h y; grind, fun _ => by cases a <;> simp [Scope.insertType]⟩

theorem SameMods.head (me : Nat) (ns n : Option Name) (b : Bool) (v : VSt) :
    SameMods (headTyV me ns n b v).2.scope v.scope := by
  match ns, n with
  | some m, some n => exact .refl _
  | some m, none => exact .refl _
  | none, none => exact .refl _
  | none, some n =>
    simp only [headTyV]
    split
    · exact .refl _
    · split
      · exact .insertType ..
      · exact .refl _

mutual
theorem SameMods.tyV (me : Nat) : ∀ t v, SameMods (resolveTyV me t v).2.scope v.scope
  | .int, v | .bool, v | .string, v | .missing, v => by simp only [resolveTyV]; exact .refl _
  | .paren t, v => by simp only [resolveTyV]; exact SameMods.tyV me t v
  | .fn a b, v => by
    simp only [resolveTyV]
    exact (SameMods.tyV me b _).trans (SameMods.tyV me a v)
  | .named ns n args, v => by
    rw [resolveTyV_named]
    exact (SameMods.tysV me args _).trans (SameMods.head ..)
theorem SameMods.tysV (me : Nat) : ∀ t v, SameMods (resolveTysV me t v).2.scope v.scope
  | .nil, v => by simp only [resolveTysV]; exact .refl _
  | .cons a b, v => by
    simp only [resolveTysV]
    exact (SameMods.tysV me b _).trans (SameMods.tyV me a v)
end

theorem SameMods.ann (me : Nat) (t : Option Ty) (v : VSt) :
    SameMods (resolveAnn me t v).2.scope v.scope := by
  cases t with
  | none => exact .refl _
  | some t => exact SameMods.tyV me t v

theorem SameMods.bindOpt (me : Nat) (n : Option Name) (ty : RTy Sym) (vars : List Sym) (scope : Scope)
    (st : St) : SameMods (bindOpt me n ty vars scope st).1 scope := by
  cases n with
  | none => exact .refl _
  | some n => exact .insertValue ..

theorem SameMods.bindVars (me : Nat) : ∀ (ns : List Name) (scope : Scope) (st : St),
    SameMods (bindVars me ns scope st).1 scope
  | [], _, _ => .refl _
  | n :: ns, scope, st => (SameMods.bindVars me ns _ _).trans (.insertValue ..)

theorem SameMods.bindParams (me : Nat) : ∀ (ns : List Name) (scope : Scope) (st : St),
    SameMods (bindParams me ns scope st).1 scope
  | [], _, _ => .refl _
  | n :: ns, scope, st => (SameMods.bindParams me ns _ _).trans (.insertType ..)

/-! ## What a callback knows -/

/-- something is recorded as a reference at the node -/
def RefAt {S : Type} (p : Nat) (o : Out S) : Prop := ∃ s, (s, p) ∈ o.refs

theorem RefAt.append {p : Nat} {a b : SOut} : RefAt p (a ++ b) ↔ RefAt p a ∨ RefAt p b := by
  simp only [RefAt, SOut.append_def, List.mem_append, exists_or]

theorem NoRef.iff {p : Nat} {o : SOut} : NoRef p o ↔ ¬ RefAt p o :=
  ⟨fun h ⟨t, ht⟩ => h.no t ht, fun h => ⟨fun t ht => h ⟨t, ht⟩⟩⟩

/-- Whether the scope has a name. -/
def Scope.has (ns : NS) (x : String) (scope : Scope) : Prop :=
  match ns with
  | .value => (scope.lookupValue x).isSome
  | .type => (scope.lookupType x).isSome
  | .pattern => (scope.lookupCtor x).isSome
  | .module => (scope.lookupModule x).isSome

theorem Agree.has {me : Nat} {scope : Scope} {env : Env} (h : Agree me scope env) {ns : NS}
    (hns : ns ≠ .module) (x : String) : scope.has ns x ↔ (env.find ns x).isSome := by
  cases ns with
  | value => simp only [Scope.has, ← h.value, Option.isSome_map]
  | type => simp only [Scope.has, ← h.type, Option.isSome_map]
  | pattern => simp only [Scope.has, ← h.ctor, Option.isSome_map]
  | module => exact absurd rfl hns

/-- The callback `ev` fits the site: it has the modules of `base`, the right usage and namespace, and its
scope tells for which `x` there is a reference at the site in `o x`. -/
structure Fits (base : Scope) (ev : Ev) (use : Use) (o : String → SOut) : Prop where
  mods : SameMods ev.scope base
  kind : match use with
    | .plain ns => ns ≠ .module ∧ ev.usage = ns ∧ ev.space = .none ∧
        ∀ x, RefAt ev.node (o x) ↔ ev.scope.has ns x
    | .moduleName => ev.usage = .module ∧ ev.space = .none
    | .inModule m ns => ns ≠ .module ∧ ev.usage = (if ns = .type then .value else ns) ∧
        match base.lookupModule m with
        | some ex => ev.space = .module ex ∧ ∀ x, RefAt ev.node (o x) ↔ (getExport ns x ex).isSome
        | none => ev.space = .unresolved ∧ ∀ x, ¬ RefAt ev.node (o x)

theorem Fits.congr {base : Scope} {ev : Ev} {use : Use} {o o' : String → SOut}
    (h : Fits base ev use o) (he : ∀ x, RefAt ev.node (o' x) ↔ RefAt ev.node (o x)) :
    Fits base ev use o' := by
  refine ⟨h.mods, ?_⟩
  have hk := h.kind
  cases use with
  | plain ns => simpa only [he] using hk
  | moduleName => exact hk
  | inModule m ns =>
    simp only [he]
    exact hk

theorem Fits.base {base base' : Scope} {ev : Ev} {use : Use} {o : String → SOut}
    (h : Fits base ev use o) (hb : SameMods base base') : Fits base' ev use o := by
  refine ⟨h.mods.trans hb, ?_⟩
  have hk := h.kind
  cases use with
  | plain ns => exact hk
  | moduleName => exact hk
  | inModule m ns => simpa only [hb.mods] using hk

/-- The callbacks are the sites, in order, and fit them. -/
structure AllFit (base : Scope) (evs : List Ev) (sites : List (Nat × Use)) (o : Nat → String → SOut) :
    Prop where
  nodes : evs.map (·.node) = nodesOf sites
  fit : ∀ ev ∈ evs, ∃ use, (ev.node, use) ∈ sites ∧ Fits base ev use (o ev.node)

theorem AllFit.base {base base' : Scope} {evs : List Ev} {sites : List (Nat × Use)}
    {o : Nat → String → SOut} (h : AllFit base evs sites o) (hb : SameMods base base') :
    AllFit base' evs sites o :=
  ⟨h.nodes, fun ev hev => let ⟨u, h1, h2⟩ := h.fit ev hev; ⟨u, h1, h2.base hb⟩⟩

theorem AllFit.nil (base : Scope) (o : Nat → String → SOut) : AllFit base [] [] o :=
  ⟨rfl, fun _ h => nomatch h⟩

theorem AllFit.congr {base : Scope} {evs : List Ev} {sites : List (Nat × Use)}
    {o o' : Nat → String → SOut} (h : AllFit base evs sites o)
    (he : ∀ p ∈ nodesOf sites, ∀ x, RefAt p (o' p x) ↔ RefAt p (o p x)) : AllFit base evs sites o' :=
  ⟨h.nodes, fun ev hev => let ⟨u, h1, h2⟩ := h.fit ev hev
    ⟨u, h1, h2.congr (he _ (List.mem_map.2 ⟨_, h1, rfl⟩))⟩⟩

theorem AllFit.append {base : Scope} {e1 e2 : List Ev} {s1 s2 : List (Nat × Use)}
    {o : Nat → String → SOut} (h1 : AllFit base e1 s1 o) (h2 : AllFit base e2 s2 o) :
    AllFit base (e1 ++ e2) (s1 ++ s2) o := by
  refine ⟨by simp only [nodesOf, List.map_append, h1.nodes, h2.nodes], fun ev hev => ?_⟩
  rcases List.mem_append.1 hev with h | h
  · obtain ⟨u, a, b⟩ := h1.fit ev h; exact ⟨u, List.mem_append_left _ a, b⟩
  · obtain ⟨u, a, b⟩ := h2.fit ev h; exact ⟨u, List.mem_append_right _ a, b⟩

theorem RefAt.oRef {p : Nat} {t : Target} {n : Nat} : RefAt p (oRef t n) ↔ n = p := by
  simp [RefAt, Tic.Resolve.oRef, eq_comm]

theorem RefAt.oErr {p : Nat} {k : ErrKind} {n : Nat} : RefAt p (oErr k n) ↔ False := by
  simp [RefAt, Tic.Resolve.oErr]

theorem RefAt.oDef {p : Nat} {n : Name} {k : Kind Target} {v : Vis} : RefAt p (oDef n k v) ↔ False := by
  simp [RefAt, Tic.Resolve.oDef]

theorem refAt_useName {ns : NS} {u : ErrKind} {env : Env} {x : String} {p : Nat} :
    RefAt p (useName ns u env ⟨x, p⟩).2 ↔ (env.find ns x).isSome := by
  unfold useName
  cases h : env.find ns x <;> simp [RefAt.oRef, RefAt.oErr]

theorem refAt_useTyVar {env : Env} {x : String} {p : Nat} {b : Bool} :
    RefAt p (useTyVar env ⟨x, p⟩ b).2.2.2 ↔ (env.find .type x).isSome := by
  unfold useTyVar
  cases h : env.find .type x
  · dsimp only
    split <;> simp [RefAt.oDef, RefAt.oErr]
  · simp [RefAt.oRef]

theorem refAt_useNs {ns : NS} {env : Env} {m : Name} {x : String} {p : Nat} :
    RefAt p (useNs ns env m ⟨x, p⟩).2 ↔
      ∃ ex, env.findMod m.text = some ex ∧ (getExport ns x ex).isSome := by
  unfold useNs
  cases h : env.findMod m.text with
  | none => simp [RefAt.oErr]
  | some ex =>
    simp only [findExport, Option.some.injEq, exists_eq_left']
    cases hg : getExport ns x ex with
    | some e => simp [RefAt.oRef]
    | none =>
      dsimp only
      split
      · next hh => split at hh <;> simp at hh
      · simp [RefAt.oErr]
      · simp [RefAt.oErr]

/-- the two callbacks for `m.n` -/
theorem fit_namesNs {me : Nat} {scope : Scope} {env : Env} (h : Agree me scope env)
    {ns : NS} (hns : ns ≠ .module) (m n : Name) (hd : m.node ≠ n.node) {o : Nat → String → SOut}
    (ho : ∀ x, RefAt n.node (o n.node x) ↔ RefAt n.node (useNs ns env m ⟨x, n.node⟩).2) :
    AllFit scope (namesNs (if ns = .type then .value else ns) scope m n)
      (siteName ns (some m) (some n)) o := by
  have hm := h.mod m.text
  refine ⟨?_, ?_⟩
  · simp only [namesNs, siteName, nodesOf, List.map_cons, List.map_nil, List.cons.injEq, and_true,
      true_and]
    split <;> rfl
  · intro ev hev
    simp only [namesNs, List.mem_cons, List.not_mem_nil, or_false] at hev
    rcases hev with rfl | hev
    · exact ⟨.moduleName, by simp [siteName], .refl _, rfl, rfl⟩
    · refine ⟨.inModule m.text ns, ?_, ?_, ?_⟩
      · subst hev
        simp only [siteName, List.mem_cons]
        cases scope.lookupModule m.text <;> simp
      · subst hev
        cases scope.lookupModule m.text <;> exact .refl _
      · cases hl : scope.lookupModule m.text with
        | none =>
          rw [hl] at hev hm
          subst hev
          refine ⟨hns, rfl, ?_⟩
          simp only [hl]
          refine ⟨trivial, fun x hx => ?_⟩
          rw [ho, refAt_useNs, ← hm] at hx
          simp at hx
        | some ex =>
          rw [hl] at hev hm
          subst hev
          refine ⟨hns, rfl, ?_⟩
          simp only [hl]
          refine ⟨trivial, fun x => ?_⟩
          rw [ho, refAt_useNs, ← hm]
          simp [getExport_map]

theorem fit_plain {me : Nat} {scope : Scope} {env : Env} (h : Agree me scope env)
    {ns : NS} (hns : ns ≠ .module) (n : Name) {o : Nat → String → SOut}
    (ho : ∀ x, RefAt n.node (o n.node x) ↔ (env.find ns x).isSome) :
    AllFit scope [⟨n.node, ns, scope, .none⟩] (siteName ns none (some n)) o := by
  refine ⟨rfl, ?_⟩
  intro ev hev
  simp only [List.mem_singleton] at hev
  subst hev
  exact ⟨.plain ns, by simp [siteName], .refl _, hns, rfl, rfl, fun x => by rw [ho, h.has hns]⟩

theorem nodup_two {ns : NS} {m n : Name} (h : (nodesOf (siteName ns (some m) (some n))).Nodup) :
    m.node ≠ n.node := by
  simpa [nodesOf, siteName] using h

theorem nodup_append {a b : List (Nat × Use)} (h : (nodesOf (a ++ b)).Nodup) :
    (nodesOf a).Nodup ∧ (nodesOf b).Nodup ∧ (∀ p ∈ nodesOf a, p ∉ nodesOf b) ∧
      (∀ p ∈ nodesOf b, p ∉ nodesOf a) := by
  simp only [nodesOf, List.map_append, List.nodup_append] at h
  exact ⟨h.1, h.2.1, fun p hp hq => h.2.2 p hp p hq rfl, fun p hp hq => h.2.2 p hq p hp rfl⟩

mutual
theorem fit_ty {me : Nat} {scope : Scope} {env : Env} (h : Agree me scope env) :
    ∀ t, (nodesOf (sitesTy t)).Nodup →
      AllFit scope (namesTy scope t) (sitesTy t) (fun p x => (specTy env (renTy p x t)).2)
  | .int, _ | .bool, _ | .string, _ | .missing, _ => by simp only [namesTy, sitesTy]; exact .nil ..
  | .paren t, hn => by
    simp only [namesTy, sitesTy, renTy, specTy] at hn ⊢
    exact fit_ty h t hn
  | .fn a b, hn => by
    simp only [namesTy, sitesTy, renTy, specTy] at hn ⊢
    obtain ⟨n1, n2, d1, d2⟩ := nodup_append hn
    refine .append ((fit_ty h a n1).congr fun p hp x => ?_) ((fit_ty h b n2).congr fun p hp x => ?_)
    · obtain ⟨e1, e2⟩ := free_specTy x env b (d1 p hp)
      simp only [RefAt.append, e1, NoRef.iff.1 e2, or_false]
    · obtain ⟨e1, e2⟩ := free_specTy x env a (d2 p hp)
      simp only [RefAt.append, e1, NoRef.iff.1 e2, false_or]
  | .named ns n args, hn => by
    simp only [namesTy, sitesTy, renTy, specTy] at hn ⊢
    obtain ⟨n1, n2, d1, d2⟩ := nodup_append hn
    refine .append ?_ ((fit_tys h args n2).congr fun p hp x => ?_)
    · have ha := fun p hp x => NoRef.iff.1 (free_specTys x env args (d1 p hp)).2
      have hb := fun p hp x => (free_specTys x env args (d1 p hp)).1
      match ns, n with
      | some m, some n =>
        have hd := nodup_two n1
        refine fit_namesNs h (ns := .type) (by decide) m n hd fun x => ?_
        have hp : n.node ∈ nodesOf (siteName .type (some m) (some n)) := by simp [nodesOf, siteName]
        simp only [renName, Option.map_some, Name.ren_ne hd, Name.ren_eq, RefAt.append, hb _ hp, ha _ hp x,
          or_false]
      | none, some n =>
        refine fit_plain h (ns := .type) (by decide) n fun x => ?_
        have hp : n.node ∈ nodesOf (siteName .type none (some n)) := by simp [nodesOf, siteName]
        simp only [renName, Option.map_some, Option.map_none, Name.ren_eq, RefAt.append, hb _ hp, ha _ hp x,
          or_false, refAt_useName]
      | some m, none => exact .nil ..
      | none, none => exact .nil ..
    · have hq := d2 p hp
      match ns, n with
      | some m, some n =>
        obtain ⟨h1, h2⟩ := site_two.1 hq
        simp only [renName, Option.map_some, Name.ren_ne h1, Name.ren_ne h2, RefAt.append,
          NoRef.iff.1 (NoRef.useNs h2), false_or]
      | none, some n =>
        have h2 := site_one.1 hq
        simp only [renName, Option.map_some, Option.map_none, Name.ren_ne h2, RefAt.append,
          NoRef.iff.1 (NoRef.useName h2), false_or]
      | some m, none => simp [RefAt.append, NoRef.iff.1 (NoRef.nil p)]
      | none, none => simp [RefAt.append, NoRef.iff.1 (NoRef.nil p)]
theorem fit_tys {me : Nat} {scope : Scope} {env : Env} (h : Agree me scope env) :
    ∀ t, (nodesOf (sitesTys t)).Nodup →
      AllFit scope (namesTys scope t) (sitesTys t) (fun p x => (specTys env (renTys p x t)).2)
  | .nil, _ => by simp only [namesTys, sitesTys]; exact .nil ..
  | .cons a b, hn => by
    simp only [namesTys, sitesTys, renTys, specTys] at hn ⊢
    obtain ⟨n1, n2, d1, d2⟩ := nodup_append hn
    refine .append ((fit_ty h a n1).congr fun p hp x => ?_) ((fit_tys h b n2).congr fun p hp x => ?_)
    · obtain ⟨e1, e2⟩ := free_specTys x env b (d1 p hp)
      simp only [RefAt.append, e1, NoRef.iff.1 e2, or_false]
    · obtain ⟨e1, e2⟩ := free_specTy x env a (d2 p hp)
      simp only [RefAt.append, e1, NoRef.iff.1 e2, false_or]
end

/-- the environment after the name of a type -/
def headEnv (env : Env) (ns n : Option Name) (b : Bool) : Env :=
  match ns, n with
  | none, some n => (useTyVar env n b).2.1
  | _, _ => env

theorem headTyV_agree {me : Nat} {v : VSt} {env : Env} (h : Agree me v.scope env) (ns n : Option Name)
    (b : Bool) : Agree me (headTyV me ns n b v).2.scope (headEnv env ns n b) := by
  match ns, n with
  | some m, some n => exact h
  | some m, none => exact h
  | none, none => exact h
  | none, some n =>
    have ht := h.type n.text
    simp only [headTyV, headEnv, useTyVar]
    cases hl : v.scope.lookupType n.text with
    | some s =>
      rw [hl] at ht
      simp only [← ht, Option.map_some]
      exact h
    | none =>
      rw [hl] at ht
      simp only [← ht, Option.map_none]
      cases startsLower n.text && b with
      | true =>
        have := h.insertType n.text (v.st.fresh me n.node).1
        rw [erase_fresh] at this
        exact this
      | false => exact h

/-- the annotation of a name, with its arguments apart -/
theorem specTyV_named (env : Env) (ns n : Option Name) (args : Tys) :
    (specTyV env (.named ns n args)).out =
      (match ns, n with
        | some m, some n => (useNs .type env m n).2
        | none, some n => (useTyVar env n args.isNil).2.2.2
        | _, none => {}) ++ (specTysV (headEnv env ns n args.isNil) args).out := by
  simp only [specTyV]
  match ns, n with
  | some m, some n => rfl
  | none, some n => rfl
  | some m, none => rfl
  | none, none => rfl

mutual
theorem fit_tyV {me : Nat} : ∀ (t : Ty) (v : VSt) (env : Env), Agree me v.scope env →
    (nodesOf (sitesTy t)).Nodup →
      AllFit v.scope (namesTyV me t v) (sitesTy t) (fun p x => (specTyV env (renTy p x t)).out)
  | .int, _, _, _, _ | .bool, _, _, _, _ | .string, _, _, _, _ | .missing, _, _, _, _ => by
    simp only [namesTyV, sitesTy]; exact .nil ..
  | .paren t, v, env, h, hn => by
    simp only [namesTyV, sitesTy, renTy, specTyV] at hn ⊢
    exact fit_tyV t v env h hn
  | .fn a b, v, env, h, hn => by
    simp only [namesTyV, sitesTy, renTy, specTyV] at hn ⊢
    obtain ⟨n1, n2, d1, d2⟩ := nodup_append hn
    have hb := fit_tyV b _ _ (resolveTyV_spec a v env h).2.agree n2
    refine .append ((fit_tyV a v env h n1).congr fun p hp x => ?_)
      ((hb.base (SameMods.tyV me a v)).congr fun p hp x => ?_)
    · obtain ⟨e1, e2⟩ := free_specTyV x b (specTyV env (renTy p x a)).env (d1 p hp)
      simp only [RefAt.append, e1, NoRef.iff.1 e2, or_false]
    · obtain ⟨e1, e2⟩ := free_specTyV x a env (d2 p hp)
      simp only [RefAt.append, e1, NoRef.iff.1 e2, false_or]
  | .named ns n args, v, env, h, hn => by
    simp only [namesTyV, sitesTy, renTy, specTyV_named] at hn ⊢
    obtain ⟨n1, n2, d1, d2⟩ := nodup_append hn
    have hb := fit_tysV args _ _ (headTyV_agree h ns n args.isNil) n2
    refine .append ?_ ((hb.base (SameMods.head ..)).congr fun p hp x => ?_)
    · have ha := fun p hp x env => NoRef.iff.1 (free_specTysV x args env (d1 p hp)).2
      have hb := fun p hp x env => (free_specTysV x args env (d1 p hp)).1
      match ns, n with
      | some m, some n =>
        have hd := nodup_two n1
        refine fit_namesNs h (ns := .type) (by decide) m n hd fun x => ?_
        have hp : n.node ∈ nodesOf (siteName .type (some m) (some n)) := by simp [nodesOf, siteName]
        simp only [renName, Option.map_some, Name.ren_ne hd, Name.ren_eq, RefAt.append, hb _ hp, ha _ hp x,
          or_false]
      | none, some n =>
        refine fit_plain h (ns := .type) (by decide) n fun x => ?_
        have hp : n.node ∈ nodesOf (siteName .type none (some n)) := by simp [nodesOf, siteName]
        simp only [renName, Option.map_some, Option.map_none, Name.ren_eq, RefAt.append, hb _ hp, ha _ hp x,
          or_false, refAt_useTyVar]
      | some m, none => exact .nil ..
      | none, none => exact .nil ..
    · have hq := d2 p hp
      match ns, n with
      | some m, some n =>
        obtain ⟨h1, h2⟩ := site_two.1 hq
        simp only [renName, Option.map_some, Name.ren_ne h1, Name.ren_ne h2, RefAt.append,
          NoRef.iff.1 (NoRef.useNs h2), false_or, renTys_isNil]
      | none, some n =>
        have h2 := site_one.1 hq
        simp only [renName, Option.map_some, Option.map_none, Name.ren_ne h2, RefAt.append,
          NoRef.iff.1 (NoRef.useTyVar h2), false_or, renTys_isNil]
      | some m, none => simp [RefAt.append, NoRef.iff.1 (NoRef.nil p), headEnv]
      | none, none => simp [RefAt.append, NoRef.iff.1 (NoRef.nil p), headEnv]
theorem fit_tysV {me : Nat} : ∀ (t : Tys) (v : VSt) (env : Env), Agree me v.scope env →
    (nodesOf (sitesTys t)).Nodup →
      AllFit v.scope (namesTysV me t v) (sitesTys t) (fun p x => (specTysV env (renTys p x t)).out)
  | .nil, _, _, _, _ => by simp only [namesTysV, sitesTys]; exact .nil ..
  | .cons a b, v, env, h, hn => by
    simp only [namesTysV, sitesTys, renTys, specTysV] at hn ⊢
    obtain ⟨n1, n2, d1, d2⟩ := nodup_append hn
    have hb := fit_tysV b _ _ (resolveTyV_spec a v env h).2.agree n2
    refine .append ((fit_tyV a v env h n1).congr fun p hp x => ?_)
      ((hb.base (SameMods.tyV me a v)).congr fun p hp x => ?_)
    · obtain ⟨e1, e2⟩ := free_specTysV x b (specTyV env (renTy p x a)).env (d1 p hp)
      simp only [RefAt.append, e1, NoRef.iff.1 e2, or_false]
    · obtain ⟨e1, e2⟩ := free_specTyV x a env (d2 p hp)
      simp only [RefAt.append, e1, NoRef.iff.1 e2, false_or]
end

theorem fit_ann {me : Nat} (t : Option Ty) (v : VSt) (env : Env) (h : Agree me v.scope env)
    (hn : (nodesOf (sitesAnn t)).Nodup) :
    AllFit v.scope (namesAnn me t v) (sitesAnn t) (fun p x => (specAnn env (renAnn p x t)).out) := by
  cases t with
  | none => exact .nil ..
  | some t => exact fit_tyV t v env h hn

theorem fit_ctor {me : Nat} {scope : Scope} {env : Env} (h : Agree me scope env) (ns n : Option Name)
    (hn : (nodesOf (siteName .pattern ns n)).Nodup) :
    AllFit scope (namesCtor scope ns n) (siteName .pattern ns n)
      (fun p x => specCtor env (renName p x ns) (renName p x n)) := by
  match ns, n with
  | some m, some n =>
    have hd := nodup_two hn
    refine fit_namesNs h (ns := .pattern) (by decide) m n hd fun x => ?_
    simp only [renName, Option.map_some, Name.ren_ne hd, Name.ren_eq, specCtor]
  | none, some n =>
    refine fit_plain h (ns := .pattern) (by decide) n fun x => ?_
    simp only [renName, Option.map_some, Option.map_none, Name.ren_eq, specCtor, refAt_useName]
  | some m, none => exact .nil ..
  | none, none => exact .nil ..

theorem bindOpt_agree {me : Nat} {scope : Scope} {env : Env} (h : Agree me scope env) (n : Option Name)
    (ty : RTy Sym) (vars : List Sym) (st : St) :
    Agree me (bindOpt me n ty vars scope st).1 (match n with | some n => env.value n | none => env) := by
  cases n with
  | none => exact h
  | some n => exact (bindLocal_spec h n ty vars st).1

mutual
theorem fit_expr {me : Nat} : ∀ (e : Expr) (scope : Scope) (env : Env) (st : St), Agree me scope env →
    (nodesOf (sitesExpr e)).Nodup →
      AllFit scope (namesExpr me e scope st) (sitesExpr e) (fun p x => specExpr env (renExpr p x e))
  | .literal, _, _, _, _, _ | .hole, _, _, _, _, _ | .missing, _, _, _, _, _ | .name none, _, _, _, _, _
  | .nsName none _, _, _, _, _, _ | .nsName (some _) none, _, _, _, _, _ => by
    simp only [namesExpr, sitesExpr, siteName]; exact .nil ..
  | .name (some n), scope, env, st, h, hn => by
    refine fit_plain h (ns := .value) (by decide) n fun x => ?_
    simp only [renExpr, renName, Option.map_some, Name.ren_eq, specExpr, refAt_useName]
  | .nsName (some m) (some n), scope, env, st, h, hn => by
    have hd := nodup_two hn
    refine fit_namesNs h (ns := .value) (by decide) m n hd fun x => ?_
    simp only [renExpr, renName, Option.map_some, Name.ren_ne hd, Name.ren_eq, specExpr]
  | .paren e, scope, env, st, h, hn => by
    simp only [namesExpr, sitesExpr, renExpr, specExpr] at hn ⊢
    exact fit_expr e scope env st h hn
  | .apply a b, scope, env, st, h, hn => by
    simp only [namesExpr, sitesExpr, renExpr, specExpr] at hn ⊢
    obtain ⟨n1, n2, d1, d2⟩ := nodup_append hn
    refine .append ((fit_expr a scope env _ h n1).congr fun p hp x => ?_)
      ((fit_expr b scope env _ h n2).congr fun p hp x => ?_)
    · obtain ⟨e1, e2⟩ := free_specExpr x b env (d1 p hp)
      simp only [RefAt.append, e1, NoRef.iff.1 e2, or_false]
    · obtain ⟨e1, e2⟩ := free_specExpr x a env (d2 p hp)
      simp only [RefAt.append, e1, NoRef.iff.1 e2, false_or]
  | .binary a b, scope, env, st, h, hn => by
    simp only [namesExpr, sitesExpr, renExpr, specExpr] at hn ⊢
    obtain ⟨n1, n2, d1, d2⟩ := nodup_append hn
    refine .append ((fit_expr a scope env _ h n1).congr fun p hp x => ?_)
      ((fit_expr b scope env _ h n2).congr fun p hp x => ?_)
    · obtain ⟨e1, e2⟩ := free_specExpr x b env (d1 p hp)
      simp only [RefAt.append, e1, NoRef.iff.1 e2, or_false]
    · obtain ⟨e1, e2⟩ := free_specExpr x a env (d2 p hp)
      simp only [RefAt.append, e1, NoRef.iff.1 e2, false_or]
  | .matchE a b, scope, env, st, h, hn => by
    simp only [namesExpr, sitesExpr, renExpr, specExpr] at hn ⊢
    obtain ⟨n1, n2, d1, d2⟩ := nodup_append hn
    refine .append ((fit_expr a scope env _ h n1).congr fun p hp x => ?_)
      ((fit_cases b scope env _ h n2).congr fun p hp x => ?_)
    · obtain ⟨e1, e2⟩ := free_specCases x b env (d1 p hp)
      simp only [RefAt.append, e1, NoRef.iff.1 e2, or_false]
    · obtain ⟨e1, e2⟩ := free_specExpr x a env (d2 p hp)
      simp only [RefAt.append, e1, NoRef.iff.1 e2, false_or]
  | .ifE a b c, scope, env, st, h, hn => by
    simp only [namesExpr, sitesExpr, renExpr, specExpr] at hn ⊢
    obtain ⟨n1, n23, d1, d23⟩ := nodup_append hn
    obtain ⟨n2, n3, d2, d3⟩ := nodup_append n23
    refine .append ((fit_expr a scope env _ h n1).congr fun p hp x => ?_)
      (.append ((fit_expr b scope env _ h n2).congr fun p hp x => ?_)
        ((fit_expr c scope env _ h n3).congr fun p hp x => ?_))
    · have hq := not_mem_append'.1 (d1 p hp)
      obtain ⟨e1, e2⟩ := free_specExpr x b env hq.1
      obtain ⟨e3, e4⟩ := free_specExpr x c env hq.2
      simp only [RefAt.append, e1, NoRef.iff.1 e2, e3, NoRef.iff.1 e4, or_false]
    · obtain ⟨e1, e2⟩ := free_specExpr x a env (d23 p (by simp only [nodesOf, List.map_append]; exact List.mem_append_left _ hp))
      obtain ⟨e3, e4⟩ := free_specExpr x c env (d2 p hp)
      simp only [RefAt.append, e1, NoRef.iff.1 e2, e3, NoRef.iff.1 e4, or_false, false_or]
    · obtain ⟨e1, e2⟩ := free_specExpr x a env (d23 p (by simp only [nodesOf, List.map_append]; exact List.mem_append_right _ hp))
      obtain ⟨e3, e4⟩ := free_specExpr x b env (d3 p hp)
      simp only [RefAt.append, e1, NoRef.iff.1 e2, e3, NoRef.iff.1 e4, false_or]
  | .lambda n b, scope, env, st, h, hn => by
    simp only [namesExpr, sitesExpr, renExpr] at hn ⊢
    have hb := fit_expr b _ _ (bindOpt me n .infer [] scope.child st).2
      (bindOpt_agree h.child n .infer [] st) hn
    refine (hb.base ((SameMods.bindOpt ..).trans (.child _))).congr fun p hp x => ?_
    cases n with
    | none => simp only [specExpr]
    | some n => simp only [specExpr, RefAt.append, RefAt.oDef, false_or]
  | .letE n ty v r, scope, env, st, h, hn => by
    simp only [namesExpr, sitesExpr, renExpr] at hn ⊢
    obtain ⟨n1, n23, d1, d23⟩ := nodup_append hn
    obtain ⟨n2, n3, d2, d3⟩ := nodup_append n23
    have hsc : SameMods scope.child.child scope := (SameMods.child _).trans (.child _)
    have ha := fit_ann ty ⟨scope.child.child, [], st⟩ env h.child.child n1
    have hs := resolveAnn_spec ty ⟨scope.child.child, [], st⟩ env h.child.child
    have hv := fit_expr v _ _ (resolveAnn me ty ⟨scope.child.child, [], st⟩).2.st hs.2.agree n2
    have hr := fun rty vs st' => fit_expr r _ _ (bindOpt me n rty vs scope.child st').2
      (bindOpt_agree h.child n rty vs st') n3
    refine .append ((ha.base hsc).congr fun p hp x => ?_)
      (.append ((hv.base ((SameMods.ann ..).trans hsc)).congr fun p hp x => ?_)
        (((hr _ _ _).base ((SameMods.bindOpt ..).trans (.child _))).congr fun p hp x => ?_))
    · have hq := not_mem_append'.1 (d1 p hp)
      obtain ⟨e1, e2⟩ := free_specExpr x v (specAnn env (renAnn p x ty)).env hq.1
      have e3 := fun env => free_specExpr x r env hq.2
      cases n with
      | none => simp only [specExpr, RefAt.append, e1, NoRef.iff.1 e2, e3, NoRef.iff.1 (e3 _).2, or_false]
      | some n => simp only [specExpr, RefAt.append, RefAt.oDef, e1, NoRef.iff.1 e2, e3, NoRef.iff.1 (e3 _).2, or_false]
    · obtain ⟨e1, e2⟩ := free_specAnn x ty env (d23 p (by simp only [nodesOf, List.map_append]; exact List.mem_append_left _ hp))
      have e3 := fun env => free_specExpr x r env (d2 p hp)
      cases n with
      | none => simp only [specExpr, RefAt.append, e1, NoRef.iff.1 e2, e3, NoRef.iff.1 (e3 _).2, or_false, false_or]
      | some n => simp only [specExpr, RefAt.append, RefAt.oDef, e1, NoRef.iff.1 e2, e3, NoRef.iff.1 (e3 _).2, or_false, false_or]
    · obtain ⟨e1, e2⟩ := free_specAnn x ty env (d23 p (by simp only [nodesOf, List.map_append]; exact List.mem_append_right _ hp))
      have e3 := fun env => free_specExpr x v env (d3 p hp)
      cases n with
      | none => simp only [specExpr, RefAt.append, e1, NoRef.iff.1 e2, e3, NoRef.iff.1 (e3 _).2, false_or]
      | some n => simp only [specExpr, RefAt.append, RefAt.oDef, e1, NoRef.iff.1 e2, e3, NoRef.iff.1 (e3 _).2, false_or]
theorem fit_cases {me : Nat} : ∀ (cs : Cases) (scope : Scope) (env : Env) (st : St), Agree me scope env →
    (nodesOf (sitesCases cs)).Nodup →
      AllFit scope (namesCases me cs scope st) (sitesCases cs) (fun p x => specCases env (renCases p x cs))
  | .nil, _, _, _, _, _ => by simp only [namesCases, sitesCases]; exact .nil ..
  | .cons ns c vars b r, scope, env, st, h, hn => by
    simp only [namesCases, sitesCases, renCases, specCases] at hn ⊢
    obtain ⟨n1, n23, d1, d23⟩ := nodup_append hn
    obtain ⟨n2, n3, d2, d3⟩ := nodup_append n23
    have hb := fun st' => fit_expr b _ _ (bindVars me vars scope.child st').2
      (bindVars_spec vars _ _ h.child st').1 n2
    refine .append ((fit_ctor h ns c n1).congr fun p hp x => ?_)
      (.append (((hb _).base ((SameMods.bindVars ..).trans (.child _))).congr fun p hp x => ?_)
        ((fit_cases r scope env _ h n3).congr fun p hp x => ?_))
    · have hq := not_mem_append'.1 (d1 p hp)
      obtain ⟨e1, e2⟩ := free_specExpr x b (env.values vars) hq.1
      obtain ⟨e3, e4⟩ := free_specCases x r env hq.2
      simp only [RefAt.append, NoRef.iff.1 (NoRef.oVars ..), e1, NoRef.iff.1 e2, e3, NoRef.iff.1 e4, or_false]
    · obtain ⟨e1, e2⟩ := free_specCtor x env ns c (d23 p (by simp only [nodesOf, List.map_append]; exact List.mem_append_left _ hp))
      obtain ⟨e3, e4⟩ := free_specCases x r env (d2 p hp)
      simp only [RefAt.append, NoRef.iff.1 (NoRef.oVars ..), e1, NoRef.iff.1 e2, e3, NoRef.iff.1 e4, or_false, false_or]
    · obtain ⟨e1, e2⟩ := free_specCtor x env ns c (d23 p (by simp only [nodesOf, List.map_append]; exact List.mem_append_right _ hp))
      obtain ⟨e3, e4⟩ := free_specExpr x b (env.values vars) (d3 p hp)
      simp only [RefAt.append, NoRef.iff.1 (NoRef.oVars ..), e1, NoRef.iff.1 e2, e3, NoRef.iff.1 e4, false_or]
end

end Tic.Resolve
