import Verif.ResolveSpec

/-!
# The resolver meets its specification

Simulation of the resolver by `specItem`/`specUnit`: nested scopes agree with the flat environment, and
everything recorded is, up to replacing symbols by targets, what the specification says.
-/

namespace Tic.Resolve

theorem SOut.append_def (a b : SOut) :
    a ++ b = ⟨a.defs ++ b.defs, a.refs ++ b.refs, a.errs ++ b.errs⟩ := rfl

theorem SOut.append_assoc (a b c : SOut) : a ++ b ++ c = a ++ (b ++ c) := by
  simp only [SOut.append_def, List.append_assoc]

theorem SOut.append_nil (a : SOut) : a ++ ({} : SOut) = a := by
  simp only [SOut.append_def, List.append_nil]

theorem SOut.nil_append (a : SOut) : ({} : SOut) ++ a = a := by
  simp only [SOut.append_def, List.nil_append]

/-- The recorded output of a state, as targets. -/
def St.er (me : Nat) (st : St) : SOut := st.out.map (erase me)

@[simp] theorem er_ref (me : Nat) (st : St) (s : Sym) (k : Nat) :
    (st.ref s k).er me = st.er me ++ oRef (erase me s) k := by
  simp [St.er, St.ref, Out.map, SOut.append_def, oRef]

@[simp] theorem er_err (me : Nat) (st : St) (e : ErrKind) (k : Nat) :
    (st.err e k).er me = st.er me ++ oErr e k := by
  simp [St.er, St.err, Out.map, SOut.append_def, oErr]

@[simp] theorem er_def (me : Nat) (st : St) (d : Def Sym) :
    (st.def_ d).er me = st.er me ++ ({ defs := [d.map (erase me)] } : SOut) := by
  simp [St.er, St.def_, Out.map, SOut.append_def]

@[simp] theorem er_fresh (me : Nat) (st : St) (m k : Nat) : (st.fresh m k).2.er me = st.er me := rfl

theorem erase_fresh (me : Nat) (st : St) (k : Nat) : erase me (st.fresh me k).1 = .here k := by
  simp [erase, St.fresh]

/-- The nested scopes and the flat environment give every name the same meaning. -/
structure Agree (me : Nat) (scope : Scope) (env : Env) : Prop where
  value : ∀ x, (scope.lookupValue x).map (erase me) = env.find .value x
  type : ∀ x, (scope.lookupType x).map (erase me) = env.find .type x
  ctor : ∀ x, (scope.lookupCtor x).map (erase me) = env.find .pattern x
  mod : ∀ x, (scope.lookupModule x).map (fun ex => ex.map (Export.map (erase me))) = env.findMod x

theorem Agree.child {me : Nat} {scope : Scope} {env : Env} (h : Agree me scope env) :
    Agree me scope.child env := ⟨h.value, h.type, h.ctor, h.mod⟩

theorem lookupValue_insertValue (x y : String) (s : Sym) (scope : Scope) :
    (scope.insertValue x s).lookupValue y =
      if x = y then some s else scope.lookupValue y := by
  cases scope <;> simp only [Scope.insertValue, Scope.lookupValue, get] <;> by_cases h : x = y <;> simp [h]

theorem lookupType_insertType (x y : String) (s : Sym) (scope : Scope) :
    (scope.insertType x s).lookupType y =
      if x = y then some s else scope.lookupType y := by
  cases scope <;> simp only [Scope.insertType, Scope.lookupType, get] <;> by_cases h : x = y <;> simp [h]

theorem lookupCtor_insertCtor (x y : String) (s : Sym) (scope : Scope) :
    (scope.insertCtor x s).lookupCtor y =
      if x = y then some s else scope.lookupCtor y := by
  cases scope <;> simp only [Scope.insertCtor, Scope.lookupCtor, get] <;> by_cases h : x = y <;> simp [h]

theorem lookupModule_insertModule (x y : String) (s : List (Export Sym)) (scope : Scope) :
    (scope.insertModule x s).lookupModule y =
      if x = y then some s else scope.lookupModule y := by
  cases scope <;> simp only [Scope.insertModule, Scope.lookupModule, get] <;> by_cases h : x = y <;> simp [h]

theorem lookup_insert_other (x y : String) (s : Sym) (u : List (Export Sym)) (scope : Scope) :
    (scope.insertValue x s).lookupType y = scope.lookupType y ∧
    (scope.insertValue x s).lookupCtor y = scope.lookupCtor y ∧
    (scope.insertValue x s).lookupModule y = scope.lookupModule y ∧
    (scope.insertType x s).lookupValue y = scope.lookupValue y ∧
    (scope.insertType x s).lookupCtor y = scope.lookupCtor y ∧
    (scope.insertType x s).lookupModule y = scope.lookupModule y ∧
    (scope.insertCtor x s).lookupValue y = scope.lookupValue y ∧
    (scope.insertCtor x s).lookupType y = scope.lookupType y ∧
    (scope.insertCtor x s).lookupModule y = scope.lookupModule y ∧
    (scope.insertModule x u).lookupValue y = scope.lookupValue y ∧
    (scope.insertModule x u).lookupType y = scope.lookupType y ∧
    (scope.insertModule x u).lookupCtor y = scope.lookupCtor y := by
  cases scope <;> exact ⟨rfl, rfl, rfl, rfl, rfl, rfl, rfl, rfl, rfl, rfl, rfl, rfl⟩

theorem Agree.insertValue {me : Nat} {scope : Scope} {env : Env} (h : Agree me scope env)
    (x : String) (s : Sym) :
    Agree me (scope.insertValue x s) (.sym .value x (erase me s) :: env) := by
  have ho := fun y => lookup_insert_other x y s [] scope
  refine ⟨fun y => ?_, fun y => ?_, fun y => ?_, fun y => ?_⟩
  · rw [lookupValue_insertValue, Env.find]
    by_cases hx : x = y
    · simp [hx]
    · simp [hx, h.value]
  · rw [(ho y).1]; simp [Env.find, h.type]
  · rw [(ho y).2.1]; simp [Env.find, h.ctor]
  · rw [(ho y).2.2.1, h.mod]; simp [Env.findMod]

theorem Agree.insertType {me : Nat} {scope : Scope} {env : Env} (h : Agree me scope env)
    (x : String) (s : Sym) :
    Agree me (scope.insertType x s) (.sym .type x (erase me s) :: env) := by
  have ho := fun y => lookup_insert_other x y s [] scope
  refine ⟨fun y => ?_, fun y => ?_, fun y => ?_, fun y => ?_⟩
  · rw [(ho y).2.2.2.1]; simp [Env.find, h.value]
  · rw [lookupType_insertType, Env.find]
    by_cases hx : x = y
    · simp [hx]
    · simp [hx, h.type]
  · rw [(ho y).2.2.2.2.1]; simp [Env.find, h.ctor]
  · rw [(ho y).2.2.2.2.2.1, h.mod]; simp [Env.findMod]

theorem Agree.insertCtor {me : Nat} {scope : Scope} {env : Env} (h : Agree me scope env)
    (x : String) (s : Sym) :
    Agree me (scope.insertCtor x s) (.sym .pattern x (erase me s) :: env) := by
  have ho := fun y => lookup_insert_other x y s [] scope
  refine ⟨fun y => ?_, fun y => ?_, fun y => ?_, fun y => ?_⟩
  · rw [(ho y).2.2.2.2.2.2.1]; simp [Env.find, h.value]
  · rw [(ho y).2.2.2.2.2.2.2.1]; simp [Env.find, h.type]
  · rw [lookupCtor_insertCtor, Env.find]
    by_cases hx : x = y
    · simp [hx]
    · simp [hx, h.ctor]
  · rw [(ho y).2.2.2.2.2.2.2.2.1, h.mod]; simp [Env.findMod]

theorem Agree.insertModule {me : Nat} {scope : Scope} {env : Env} (h : Agree me scope env)
    (x : String) (u : List (Export Sym)) :
    Agree me (scope.insertModule x u) (.mod x (u.map (Export.map (erase me))) :: env) := by
  have ho := fun y => lookup_insert_other x y ⟨0, 0, 0⟩ u scope
  refine ⟨fun y => ?_, fun y => ?_, fun y => ?_, fun y => ?_⟩
  · rw [(ho y).2.2.2.2.2.2.2.2.2.1]; simp [Env.find, h.value]
  · rw [(ho y).2.2.2.2.2.2.2.2.2.2.1]; simp [Env.find, h.type]
  · rw [(ho y).2.2.2.2.2.2.2.2.2.2.2]; simp [Env.find, h.ctor]
  · rw [lookupModule_insertModule, Env.findMod]
    by_cases hx : x = y
    · simp [hx]
    · simp only [hx, if_false]; exact h.mod y

/-! ## Exports -/

theorem getExport_map {S T : Type} (f : S → T) (ns : NS) (x : String) (l : List (Export S)) :
    getExport ns x (l.map (Export.map f)) = (getExport ns x l).map (Export.map f) := by
  induction l with
  | nil => rfl
  | cons e l ih =>
    simp only [List.map_cons, getExport, Export.map]
    split
    · rfl
    · exact ih

def Found.map {S T : Type} (f : S → T) : Found S → Found T
  | .ok e => .ok (e.map f)
  | .noExport => .noExport
  | .wrongNamespace => .wrongNamespace

theorem findExport_map {S T : Type} (f : S → T) (ns : NS) (x : String) (l : List (Export S)) :
    findExport (l.map (Export.map f)) ns x = (findExport l ns x).map f := by
  simp only [findExport, getExport_map]
  cases getExport ns x l with
  | some e => rfl
  | none =>
    dsimp only [Option.map_none]
    simp only [Option.isSome_map]
    split <;> rfl

theorem resolveNs_spec {me : Nat} {scope : Scope} {env : Env} (h : Agree me scope env) (want : NS)
    (ns n : Name) (st : St) :
    ((resolveNs want scope ns n st).1.map (erase me) = (useNs want env ns n).1) ∧
    (resolveNs want scope ns n st).2.er me = st.er me ++ (useNs want env ns n).2 := by
  have hm := h.mod ns.text
  unfold resolveNs useNs
  cases hl : scope.lookupModule ns.text with
  | none =>
    rw [hl] at hm
    rw [← hm]
    simp
  | some ex =>
    rw [hl] at hm
    rw [← hm]
    simp only [Option.map_some, findExport_map]
    cases findExport ex want n.text with
    | ok e => simp [Found.map, Export.map]
    | noExport => simp [Found.map]
    | wrongNamespace => simp [Found.map]

/-! ## Types -/

mutual
theorem resolveTy_spec {me : Nat} {scope : Scope} {env : Env} (h : Agree me scope env) :
    ∀ (t : Ty) (st : St), (resolveTy scope t st).1.map (erase me) = (specTy env t).1 ∧
      (resolveTy scope t st).2.er me = st.er me ++ (specTy env t).2
  | .int, st => by simp [resolveTy, specTy, RTy.map, SOut.append_nil]
  | .bool, st => by simp [resolveTy, specTy, RTy.map, SOut.append_nil]
  | .string, st => by simp [resolveTy, specTy, RTy.map, SOut.append_nil]
  | .fn a b, st => by
    obtain ⟨a1, a2⟩ := resolveTy_spec h a st
    obtain ⟨b1, b2⟩ := resolveTy_spec h b (resolveTy scope a st).2
    simp only [resolveTy, specTy, RTy.map]
    rw [a1, b1, b2, a2, SOut.append_assoc]
    exact ⟨rfl, rfl⟩
  | .named ns name args, st => by
    have key : ∀ (s : Option Sym) (s' : Option Target) (st1 : St) (o : SOut),
        s.map (erase me) = s' → st1.er me = st.er me ++ o →
        (match s with
          | some s => RTy.named s (resolveTys scope args st1).1
          | none => .error).map (erase me) = mkNamed s' (specTys env args).1 ∧
        (resolveTys scope args st1).2.er me = st.er me ++ (o ++ (specTys env args).2) := by
      intro s s' st1 o hs ho
      obtain ⟨c1, c2⟩ := resolveTys_spec h args st1
      refine ⟨?_, by rw [c2, ho, SOut.append_assoc]⟩
      cases s with
      | none => subst hs; rfl
      | some s => subst hs; simp only [RTy.map, c1]; rfl
    match ns, name with
    | some ns, some n =>
      obtain ⟨e1, e2⟩ := resolveNs_spec h .type ns n st
      simp only [resolveTy, specTy]
      exact key _ _ _ _ e1 e2
    | none, some n =>
      simp only [resolveTy, specTy]
      have ht := h.type n.text
      unfold useName
      cases hl : scope.lookupType n.text with
      | none =>
        rw [hl] at ht
        rw [← ht]
        exact key none none _ _ rfl (er_err ..)
      | some s =>
        rw [hl] at ht
        rw [← ht]
        exact key (some s) _ _ _ rfl (er_ref ..)
    | some _, none =>
      simp only [resolveTy, specTy]
      exact key none none _ _ rfl (SOut.append_nil _).symm
    | none, none =>
      simp only [resolveTy, specTy]
      exact key none none _ _ rfl (SOut.append_nil _).symm
  | .paren t, st => by
    simp only [resolveTy, specTy]
    exact resolveTy_spec h t st
  | .missing, st => by simp [resolveTy, specTy, RTy.map, SOut.append_nil]
theorem resolveTys_spec {me : Nat} {scope : Scope} {env : Env} (h : Agree me scope env) :
    ∀ (t : Tys) (st : St), (resolveTys scope t st).1.map (erase me) = (specTys env t).1 ∧
      (resolveTys scope t st).2.er me = st.er me ++ (specTys env t).2
  | .nil, st => by simp [resolveTys, specTys, RTys.map, SOut.append_nil]
  | .cons t ts, st => by
    obtain ⟨a1, a2⟩ := resolveTy_spec h t st
    obtain ⟨b1, b2⟩ := resolveTys_spec h ts (resolveTy scope t st).2
    simp only [resolveTys, specTys, RTys.map]
    rw [a1, b1, b2, a2, SOut.append_assoc]
    exact ⟨rfl, rfl⟩
end

/-- The state of `resolveTyV` after something that the specification describes by an environment,
some new variables and an output. -/
structure VSim (me : Nat) (v v' : VSt) (env' : Env) (vars : List Target) (o : SOut) : Prop where
  agree : Agree me v'.scope env'
  vars : v'.vars.map (erase me) = v.vars.map (erase me) ++ vars
  out : v'.st.er me = v.st.er me ++ o

theorem VSim.trans {me : Nat} {a b c : VSt} {e1 e2 : Env} {v1 v2 : List Target} {o1 o2 : SOut}
    (h : VSim me a b e1 v1 o1) (h' : VSim me b c e2 v2 o2) :
    VSim me a c e2 (v1 ++ v2) (o1 ++ o2) :=
  ⟨h'.agree, by rw [h'.vars, h.vars, List.append_assoc], by rw [h'.out, h.out, SOut.append_assoc]⟩

theorem VSim.refl {me : Nat} {v : VSt} {env : Env} (h : Agree me v.scope env) :
    VSim me v v env [] {} := ⟨h, by simp, (SOut.append_nil _).symm⟩

mutual
theorem resolveTyV_spec {me : Nat} :
    ∀ (t : Ty) (v : VSt) (env : Env), Agree me v.scope env →
      (resolveTyV me t v).1.map (erase me) = (specTyV env t).ty ∧
      VSim me v (resolveTyV me t v).2 (specTyV env t).env (specTyV env t).vars (specTyV env t).out
  | .int, v, env, h => by simp only [resolveTyV, specTyV]; exact ⟨rfl, .refl h⟩
  | .bool, v, env, h => by simp only [resolveTyV, specTyV]; exact ⟨rfl, .refl h⟩
  | .string, v, env, h => by simp only [resolveTyV, specTyV]; exact ⟨rfl, .refl h⟩
  | .fn a b, v, env, h => by
    obtain ⟨a1, a2⟩ := resolveTyV_spec a v env h
    obtain ⟨b1, b2⟩ := resolveTyV_spec b (resolveTyV me a v).2 _ a2.agree
    simp only [resolveTyV, specTyV, RTy.map]
    exact ⟨by rw [a1, b1], a2.trans b2⟩
  | .named ns name args, v, env, h => by
    have key : ∀ (s : Option Sym) (s' : Option Target) (v1 : VSt) (env1 : Env)
        (vs : List Target) (o : SOut),
        s.map (erase me) = s' → VSim me v v1 env1 vs o →
        (match s with
          | some s => RTy.named s (resolveTysV me args v1).1
          | none => .error).map (erase me) = mkNamed s' (specTysV env1 args).tys ∧
        VSim me v (resolveTysV me args v1).2 (specTysV env1 args).env
          (vs ++ (specTysV env1 args).vars) (o ++ (specTysV env1 args).out) := by
      intro s s' v1 env1 vs o hs ho
      obtain ⟨c1, c2⟩ := resolveTysV_spec args v1 env1 ho.agree
      refine ⟨?_, ho.trans c2⟩
      cases s with
      | none => subst hs; rfl
      | some s => subst hs; simp only [RTy.map, c1]; rfl
    match ns, name with
    | some ns, some n =>
      obtain ⟨e1, e2⟩ := resolveNs_spec h .type ns n v.st
      simp only [resolveTyV, specTyV]
      exact key _ _ _ _ _ _ e1 ⟨h, by simp, e2⟩
    | none, some n =>
      simp only [resolveTyV, specTyV]
      have ht := h.type n.text
      unfold useTyVar
      cases hl : v.scope.lookupType n.text with
      | none =>
        rw [hl] at ht
        rw [← ht]
        simp only [Option.map_none]
        cases hc : startsLower n.text && args.isNil with
        | false =>
          simp only [if_false, Bool.false_eq_true]
          exact key none none _ _ _ _ rfl ⟨h, by simp, by simp⟩
        | true =>
          simp only [if_true]
          refine key (some _) (some _) _ _ _ _ (by rw [Option.map_some, erase_fresh]) ⟨?_, ?_, ?_⟩
          · have := h.insertType n.text (v.st.fresh me n.node).1
            rw [erase_fresh] at this
            exact this
          · simp [erase_fresh]
          · rw [er_def, er_fresh]
            simp only [Def.map, erase_fresh]
            rfl
      | some s =>
        rw [hl] at ht
        rw [← ht]
        simp only [Option.map_some]
        exact key (some s) _ _ _ _ _ rfl ⟨h, by simp, by simp⟩
    | some _, none =>
      simp only [resolveTyV, specTyV]
      exact key none none _ _ _ _ rfl (.refl h)
    | none, none =>
      simp only [resolveTyV, specTyV]
      exact key none none _ _ _ _ rfl (.refl h)
  | .paren t, v, env, h => by
    simp only [resolveTyV, specTyV]
    exact resolveTyV_spec t v env h
  | .missing, v, env, h => by simp only [resolveTyV, specTyV]; exact ⟨rfl, .refl h⟩
theorem resolveTysV_spec {me : Nat} :
    ∀ (t : Tys) (v : VSt) (env : Env), Agree me v.scope env →
      (resolveTysV me t v).1.map (erase me) = (specTysV env t).tys ∧
      VSim me v (resolveTysV me t v).2 (specTysV env t).env (specTysV env t).vars
        (specTysV env t).out
  | .nil, v, env, h => by simp only [resolveTysV, specTysV]; exact ⟨rfl, .refl h⟩
  | .cons t ts, v, env, h => by
    obtain ⟨a1, a2⟩ := resolveTyV_spec t v env h
    obtain ⟨b1, b2⟩ := resolveTysV_spec ts (resolveTyV me t v).2 _ a2.agree
    simp only [resolveTysV, specTysV, RTys.map]
    exact ⟨by rw [a1, b1], a2.trans b2⟩
end

theorem resolveAnn_spec {me : Nat} (t : Option Ty) (v : VSt) (env : Env)
    (h : Agree me v.scope env) :
    (resolveAnn me t v).1.map (erase me) = (specAnn env t).ty ∧
    VSim me v (resolveAnn me t v).2 (specAnn env t).env (specAnn env t).vars (specAnn env t).out := by
  cases t with
  | none => exact ⟨rfl, .refl h⟩
  | some t => exact resolveTyV_spec t v env h

/-! ## Expressions -/

theorem bindLocal_spec {me : Nat} {scope : Scope} {env : Env} (h : Agree me scope env) (n : Name)
    (ty : RTy Sym) (vars : List Sym) (st : St) :
    Agree me (bindLocal me n ty vars scope st).1 (env.value n) ∧
    (bindLocal me n ty vars scope st).2.er me =
      st.er me ++ oDef n (.value (ty.map (erase me)) (vars.map (erase me))) .local := by
  refine ⟨?_, ?_⟩
  · have := h.insertValue n.text (st.fresh me n.node).1
    rw [erase_fresh] at this
    exact this
  · simp only [bindLocal, er_def, er_fresh, Def.map, erase_fresh]
    rfl

theorem bindVars_spec {me : Nat} : ∀ (ns : List Name) (scope : Scope) (env : Env),
    Agree me scope env → ∀ (st : St),
    Agree me (bindVars me ns scope st).1 (env.values ns) ∧
    (bindVars me ns scope st).2.er me = st.er me ++ oVars ns := by
  intro ns
  induction ns with
  | nil => intro scope env h st; exact ⟨h, (SOut.append_nil _).symm⟩
  | cons n ns ih =>
    intro scope env h st
    obtain ⟨a1, a2⟩ := bindLocal_spec h n .infer [] st
    obtain ⟨b1, b2⟩ := ih _ _ a1 (bindLocal me n .infer [] scope st).2
    refine ⟨b1, ?_⟩
    simp only [bindVars, oVars]
    rw [b2, a2, SOut.append_assoc]
    rfl

theorem resolveCtor_spec {me : Nat} {scope : Scope} {env : Env} (h : Agree me scope env)
    (ns ctor : Option Name) (st : St) :
    (resolveCtor scope ns ctor st).er me = st.er me ++ specCtor env ns ctor := by
  match ns, ctor with
  | some ns, some n => exact (resolveNs_spec h .pattern ns n st).2
  | none, some n =>
    simp only [resolveCtor, specCtor, useName]
    have := h.ctor n.text
    cases hl : scope.lookupCtor n.text with
    | none => rw [hl] at this; rw [← this]; simp
    | some s => rw [hl] at this; rw [← this]; simp
  | some _, none => exact (SOut.append_nil _).symm
  | none, none => exact (SOut.append_nil _).symm

mutual
theorem resolveExpr_spec {me : Nat} :
    ∀ (e : Expr) (scope : Scope) (env : Env), Agree me scope env → ∀ (st : St),
      (resolveExpr me e scope st).er me = st.er me ++ specExpr env e
  | .name none, scope, env, h, st => by simp [resolveExpr, specExpr, SOut.append_nil]
  | .name (some n), scope, env, h, st => by
    simp only [resolveExpr, specExpr, useName]
    have := h.value n.text
    cases hl : scope.lookupValue n.text with
    | none => rw [hl] at this; rw [← this]; simp
    | some s => rw [hl] at this; rw [← this]; simp
  | .nsName none n, scope, env, h, st => by simp [resolveExpr, specExpr, SOut.append_nil]
  | .nsName (some ns) none, scope, env, h, st => by simp [resolveExpr, specExpr, SOut.append_nil]
  | .nsName (some ns) (some n), scope, env, h, st => by
    simp only [resolveExpr, specExpr]
    exact (resolveNs_spec h .value ns n st).2
  | .apply f a, scope, env, h, st => by
    simp only [resolveExpr, specExpr]
    rw [resolveExpr_spec a scope env h, resolveExpr_spec f scope env h, SOut.append_assoc]
  | .binary f a, scope, env, h, st => by
    simp only [resolveExpr, specExpr]
    rw [resolveExpr_spec a scope env h, resolveExpr_spec f scope env h, SOut.append_assoc]
  | .letE name ty value rest, scope, env, h, st => by
    obtain ⟨a1, a2⟩ := resolveAnn_spec ty ⟨scope.child.child, [], st⟩ env h.child.child
    have hv := resolveExpr_spec value _ _ a2.agree (resolveAnn me ty ⟨scope.child.child, [], st⟩).2.st
    have a3 := a2.vars
    simp only [List.map_nil, List.nil_append] at a3
    cases name with
    | none =>
      simp only [resolveExpr, specExpr, bindOpt]
      rw [resolveExpr_spec rest _ env h.child, hv, a2.out]
      simp only [SOut.append_assoc]
    | some n =>
      simp only [resolveExpr, specExpr, bindOpt]
      obtain ⟨b1, b2⟩ := bindLocal_spec h.child n
        (resolveAnn me ty ⟨scope.child.child, [], st⟩).1
        (resolveAnn me ty ⟨scope.child.child, [], st⟩).2.vars
        (resolveExpr me value (resolveAnn me ty ⟨scope.child.child, [], st⟩).2.scope
          (resolveAnn me ty ⟨scope.child.child, [], st⟩).2.st)
      rw [resolveExpr_spec rest _ _ b1, b2, hv, a2.out, a1, a3]
      simp only [SOut.append_assoc]
  | .matchE d cs, scope, env, h, st => by
    simp only [resolveExpr, specExpr]
    rw [resolveCases_spec cs scope env h, resolveExpr_spec d scope env h, SOut.append_assoc]
  | .ifE c t e, scope, env, h, st => by
    simp only [resolveExpr, specExpr]
    rw [resolveExpr_spec e scope env h, resolveExpr_spec t scope env h,
      resolveExpr_spec c scope env h, SOut.append_assoc, SOut.append_assoc]
  | .literal, scope, env, h, st => by simp [resolveExpr, specExpr, SOut.append_nil]
  | .lambda none b, scope, env, h, st => by
    simp only [resolveExpr, specExpr, bindOpt]
    exact resolveExpr_spec b _ env h.child st
  | .lambda (some n) b, scope, env, h, st => by
    simp only [resolveExpr, specExpr, bindOpt]
    obtain ⟨b1, b2⟩ := bindLocal_spec h.child n .infer [] st
    rw [resolveExpr_spec b _ _ b1, b2, SOut.append_assoc]
    rfl
  | .paren e, scope, env, h, st => by
    simp only [resolveExpr, specExpr]
    exact resolveExpr_spec e scope env h st
  | .hole, scope, env, h, st => by simp [resolveExpr, specExpr, SOut.append_nil]
  | .missing, scope, env, h, st => by simp [resolveExpr, specExpr, SOut.append_nil]
theorem resolveCases_spec {me : Nat} :
    ∀ (cs : Cases) (scope : Scope) (env : Env), Agree me scope env → ∀ (st : St),
      (resolveCases me cs scope st).er me = st.er me ++ specCases env cs
  | .nil, scope, env, h, st => by simp [resolveCases, specCases, SOut.append_nil]
  | .cons ns ctor vars body rest, scope, env, h, st => by
    simp only [resolveCases, specCases]
    obtain ⟨b1, b2⟩ := bindVars_spec vars scope.child env h.child (resolveCtor scope ns ctor st)
    rw [resolveCases_spec rest scope env h, resolveExpr_spec body _ _ b1, b2,
      resolveCtor_spec h]
    simp only [SOut.append_assoc]
end

/-! ## Items -/

theorem resolveValueItem_spec {me : Nat} {scope : Scope} {env : Env} (h : Agree me scope env)
    (ex : Bool) (name : Option Name) (ty : Option Ty) (v : Expr) (st : St) :
    (resolveValueItem me ex name ty v scope st).er me =
      st.er me ++ specValueItem env ex name ty v := by
  obtain ⟨a1, a2⟩ := resolveAnn_spec ty ⟨scope.child, [], st⟩ env h.child
  have a3 := a2.vars
  simp only [List.map_nil, List.nil_append] at a3
  simp only [resolveValueItem, specValueItem]
  rw [resolveExpr_spec v _ _ a2.agree]
  cases name with
  | none => dsimp only; rw [a2.out, SOut.append_assoc, SOut.nil_append]
  | some n =>
    dsimp only
    rw [er_def, er_fresh, a2.out]
    simp only [Def.map, erase_fresh, Kind.map, a1, a3, List.map_nil, SOut.append_assoc]
    rfl

theorem bindParams_spec {me : Nat} : ∀ (ns : List Name) (scope : Scope) (env : Env),
    Agree me scope env → ∀ (st : St),
    Agree me (bindParams me ns scope st).1 (env.params ns) ∧
    (bindParams me ns scope st).2.1.map (erase me) = ns.map (fun n => .here n.node) ∧
    (bindParams me ns scope st).2.2.er me = st.er me ++ oParams ns := by
  intro ns
  induction ns with
  | nil => intro scope env h st; exact ⟨h, rfl, (SOut.append_nil _).symm⟩
  | cons n ns ih =>
    intro scope env h st
    have hs := h.insertType n.text (st.fresh me n.node).1
    rw [erase_fresh] at hs
    obtain ⟨b1, b2, b3⟩ := ih _ _ hs ((st.fresh me n.node).2.def_
      ⟨(st.fresh me n.node).1, .type 0 true none, .local, n.node, n.text, true, []⟩)
    refine ⟨b1, ?_, ?_⟩
    · simp only [bindParams, List.map_cons, erase_fresh]
      rw [b2]
    · simp only [bindParams, oParams]
      rw [b3, er_def, er_fresh, SOut.append_assoc]
      simp only [Def.map, erase_fresh]
      rfl

theorem resolveFields_spec {me : Nat} {scope : Scope} {env : Env} (h : Agree me scope env) :
    ∀ (fs : List FieldSyntax) (st : St),
    (resolveFields scope fs st).1.map (Field.map (erase me)) = (specFields env fs).1 ∧
    (resolveFields scope fs st).2.er me = st.er me ++ (specFields env fs).2 := by
  intro fs
  induction fs with
  | nil => intro st; exact ⟨rfl, (SOut.append_nil _).symm⟩
  | cons f fs ih =>
    intro st
    cases f with
    | recur =>
      obtain ⟨b1, b2⟩ := ih st
      simp only [resolveFields, specFields, List.map_cons, Field.map]
      exact ⟨by rw [b1], b2⟩
    | type t =>
      obtain ⟨a1, a2⟩ := resolveTy_spec h t st
      obtain ⟨b1, b2⟩ := ih (resolveTy scope t st).2
      simp only [resolveFields, specFields, List.map_cons, Field.map]
      exact ⟨by rw [a1, b1], by rw [b2, a2, SOut.append_assoc]⟩

theorem namedAll_map {S T : Type} (f : S → T) (l : List S) :
    (namedAll l).map f = namedAll (l.map f) := by
  induction l with
  | nil => rfl
  | cons a l ih => simp only [namedAll, RTys.map, RTy.map, List.map_cons, ih]

theorem ctorFnTy_map {S T : Type} (f : S → T) (w : RTy S) (l : List (Field S)) :
    (ctorFnTy w l).map f = ctorFnTy (w.map f) (l.map (Field.map f)) := by
  induction l with
  | nil => rfl
  | cons a l ih =>
    cases a <;> simp only [ctorFnTy, RTy.map, List.map_cons, Field.map, ih]

theorem resolveTypeCases_spec {me : Nat} {scope : Scope} {env : Env} (h : Agree me scope env)
    (ty : Sym) (params : List Sym) (vis : Vis) :
    ∀ (cs : List CaseSyntax) (names : List String) (st : St),
    (resolveTypeCases me scope ty params vis cs names st).1.map (erase me) =
      (specTypeCases env (erase me ty) (params.map (erase me)) vis cs names).1 ∧
    (resolveTypeCases me scope ty params vis cs names st).2.er me =
      st.er me ++ (specTypeCases env (erase me ty) (params.map (erase me)) vis cs names).2 := by
  intro cs
  induction cs with
  | nil => intro names st; exact ⟨rfl, (SOut.append_nil _).symm⟩
  | cons c cs ih =>
    intro names st
    obtain ⟨f1, f2⟩ := resolveFields_spec h c.fields st
    simp only [resolveTypeCases, specTypeCases]
    cases c.name with
    | none =>
      dsimp only
      obtain ⟨b1, b2⟩ := ih names (resolveFields scope c.fields st).2
      exact ⟨b1, by rw [b2, f2, SOut.append_assoc]⟩
    | some n =>
      dsimp only
      split
      · obtain ⟨b1, b2⟩ := ih names ((resolveFields scope c.fields st).2.err (.dupCtor n.text) n.node)
        exact ⟨b1, by rw [b2, er_err, f2, SOut.append_assoc, SOut.append_assoc]⟩
      · have := ih (names ++ [n.text]) (((resolveFields scope c.fields st).2.fresh me n.node).2.def_
          ⟨((resolveFields scope c.fields st).2.fresh me n.node).1,
            .ctor ty params (resolveFields scope c.fields st).1
              (ctorFnTy (.named ty (namedAll params)) (resolveFields scope c.fields st).1),
            vis, n.node, n.text, true, []⟩)
        obtain ⟨b1, b2⟩ := this
        refine ⟨?_, ?_⟩
        · simp only [List.map_cons, erase_fresh]
          rw [b1]
        · rw [b2, er_def, er_fresh, f2]
          simp only [Def.map, erase_fresh, Kind.map, ctorFnTy_map, RTy.map, namedAll_map,
            List.map_nil, SOut.append_assoc]
          rw [f1]
          rfl

theorem resolveTypeItem_spec {me : Nat} {scope : Scope} {env : Env} (h : Agree me scope env)
    (node : Nat) (ex exc : Bool) (name : Option Name) (params : List Name)
    (cases : List CaseSyntax) (st : St) :
    (resolveTypeItem me node ex exc name params cases scope st).er me =
      st.er me ++ specTypeItem env node ex exc name params cases := by
  obtain ⟨b1, b2, b3⟩ := bindParams_spec params scope.child env h.child
    (st.fresh me (typeTag node name)).2
  have hlen : (bindParams me params scope.child (st.fresh me (typeTag node name)).2).2.1.length =
      params.length := by
    have := congrArg List.length b2
    simpa using this
  obtain ⟨c1, c2⟩ := resolveTypeCases_spec b1 (st.fresh me (typeTag node name)).1
    (bindParams me params scope.child (st.fresh me (typeTag node name)).2).2.1
    (if exc then Vis.export else Vis.module) cases []
    (bindParams me params scope.child (st.fresh me (typeTag node name)).2).2.2
  rw [erase_fresh, b2] at c1 c2
  simp only [resolveTypeItem, specTypeItem]
  cases name with
  | none =>
    dsimp only
    rw [c2, b3, er_fresh, SOut.append_nil, SOut.append_assoc]
  | some n =>
    dsimp only
    rw [er_def, c2, b3, er_fresh]
    simp only [Def.map, Kind.map, Option.map_some, c1, hlen, List.map_nil, SOut.append_assoc]
    rw [show erase me (st.fresh me (typeTag node (some n))).1 = .here n.node from erase_fresh ..]
    rfl

theorem getExport_of_find {S : Type} (u : List (Export S)) (ns : NS) (x : String) :
    (∀ e, findExport u ns x = .ok e ↔ getExport ns x u = some e) := by
  intro e
  simp only [findExport]
  cases getExport ns x u with
  | none =>
    dsimp only
    constructor
    · intro h; split at h <;> cases h
    · intro h; cases h
  | some e' => simp

/-- the definitions `expose` makes, as targets -/
def exposedIn (unit : List (Export Target)) (n : Name) (l : List NS) : List (Def Target) :=
  l.filterMap fun ns =>
    (getExport ns n.text unit).map fun e => ⟨e.sym, e.kind, .module, n.node, n.text, true, []⟩

theorem expose_spec {me : Nat} (unit : List (Export Sym)) (n : Name) :
    ∀ (l : List NS) (found : Bool) (st : St),
    (expose unit n l (found, st)).1 =
      (found || !(exposedIn (unit.map (Export.map (erase me))) n l).isEmpty) ∧
    (expose unit n l (found, st)).2.er me =
      st.er me ++ ({ defs := exposedIn (unit.map (Export.map (erase me))) n l } : SOut) := by
  intro l
  induction l with
  | nil => intro found st; exact ⟨by simp [expose, exposedIn], (SOut.append_nil _).symm⟩
  | cons ns l ih =>
    intro found st
    simp only [expose]
    have hcons : exposedIn (unit.map (Export.map (erase me))) n (ns :: l) =
        ((getExport ns n.text unit).map fun e => (⟨erase me e.sym, e.kind.map (erase me), .module,
          n.node, n.text, true, []⟩ : Def Target)).toList ++
        exposedIn (unit.map (Export.map (erase me))) n l := by
      simp only [exposedIn, List.filterMap_cons, getExport_map]
      cases getExport ns n.text unit <;> rfl
    rw [hcons]
    cases hg : getExport ns n.text unit with
    | some e =>
      rw [(getExport_of_find unit ns n.text e).2 hg]
      dsimp only
      obtain ⟨b1, b2⟩ := ih true
        (st.def_ ⟨e.sym, e.kind, .module, n.node, n.text, true, []⟩)
      refine ⟨by rw [b1]; simp, ?_⟩
      rw [b2, er_def, SOut.append_assoc]
      rfl
    | none =>
      have hno : ∀ e, findExport unit ns n.text ≠ .ok e := by
        intro e he
        rw [(getExport_of_find unit ns n.text e).1 he] at hg
        cases hg
      obtain ⟨b1, b2⟩ := ih found st
      cases hf : findExport unit ns n.text with
      | ok e => exact absurd hf (hno e)
      | noExport => exact ⟨b1, b2⟩
      | wrongNamespace => exact ⟨b1, b2⟩

theorem exposeAll_spec {me : Nat} (unit : List (Export Sym)) : ∀ (ns : List Name) (st : St),
    (exposeAll unit ns st).er me =
      st.er me ++ specExpose (unit.map (Export.map (erase me))) ns := by
  intro ns
  induction ns with
  | nil => intro st; exact (SOut.append_nil _).symm
  | cons n ns ih =>
    intro st
    simp only [exposeAll, specExpose]
    obtain ⟨e1, e2⟩ := expose_spec (me := me) unit n [.value, .type, .pattern, .module] false st
    have hx : exposedIn (unit.map (Export.map (erase me))) n [.value, .type, .pattern, .module] =
      exposedDefs (unit.map (Export.map (erase me))) n := rfl
    rw [hx] at e1 e2
    rw [ih]
    by_cases hd : exposedDefs (unit.map (Export.map (erase me))) n = []
    · rw [hd] at e1 e2
      rw [e1]
      simp only [List.isEmpty_nil, Bool.not_true, Bool.or_self, Bool.false_eq_true, if_false, if_pos hd]
      rw [er_err, e2, SOut.append_nil, SOut.append_assoc]
    · have : (exposedDefs (unit.map (Export.map (erase me))) n).isEmpty = false := by
        simpa using hd
      rw [e1, this]
      simp only [Bool.not_false, Bool.or_true, if_true, if_neg hd]
      rw [e2, SOut.append_assoc]

theorem resolveImport_spec {me : Nat} (node : Nat) (result : ImportResult) (name : Option Name)
    (exposed : List Name) (st : St) :
    (resolveImport me node result name exposed st).er me =
      st.er me ++ specImport me node result name exposed := by
  cases result with
  | noPath => exact (SOut.append_nil _).symm
  | failed k node => simp [resolveImport, specImport]
  | ok unit =>
    simp only [resolveImport, specImport]
    rw [exposeAll_spec]
    cases name with
    | none =>
      dsimp only
      rw [er_def, er_fresh, SOut.append_assoc]
      simp only [Def.map, erase_fresh, Kind.map]
    | some n =>
      dsimp only
      rw [er_def, er_fresh, SOut.append_assoc]
      simp only [Def.map, erase_fresh, Kind.map]

theorem resolveItem_spec {me : Nat} {scope : Scope} {env : Env} (h : Agree me scope env)
    (i : Item) (st : St) :
    (resolveItem me scope st i).er me = st.er me ++ specItem me env i := by
  cases i with
  | importI => exact resolveImport_spec ..
  | typeI => exact resolveTypeItem_spec h ..
  | valueI => exact resolveValueItem_spec h ..

/-! ## Units -/

theorem addDef_agree {me : Nat} {scope : Scope} {env : Env} (h : Agree me scope env)
    (d : Def Sym) : Agree me (scope.addDef d) (bindingsOf (d.map (erase me)) ++ env) := by
  obtain ⟨sym, kind, vis, node, text, hasName, unit⟩ := d
  simp only [Scope.addDef, bindingsOf, Def.map]
  by_cases h1 : vis = .local
  · simp only [h1, true_or, if_true]; exact h
  · by_cases h2 : hasName = false
    · simp only [h1, h2, or_true, if_true, if_false]; exact h
    · simp only [h1, h2, or_self, if_false]
      cases kind with
      | value => exact h.insertValue text sym
      | ctor => exact (h.insertCtor text sym).insertValue text sym
      | type => exact h.insertType text sym
      | module => exact h.insertModule text unit

theorem addItem_agree {me : Nat} : ∀ (ds : List (Def Sym)) {scope : Scope} {env : Env},
    Agree me scope env →
    Agree me (scope.addItem ds) (env.after (ds.map (Def.map (erase me)))) := by
  intro ds
  induction ds with
  | nil => intro scope env h; exact h
  | cons d ds ih =>
    intro scope env h
    have := ih (addDef_agree h d)
    simp only [Scope.addItem, List.foldl_cons] at this ⊢
    simp only [Env.after, List.map_cons, List.reverse_cons, List.flatMap_append, List.flatMap_cons,
      List.flatMap_nil, List.append_nil, List.append_assoc] at this ⊢
    exact this

theorem resolveUnit_spec {me : Nat} : ∀ (is : List Item) {scope : Scope} {env : Env} (next : Nat),
    Agree me scope env →
    (resolveUnit me is scope next).map (Out.map (erase me)) = specUnit me is env := by
  intro is
  induction is with
  | nil => intro scope env next h; rfl
  | cons i is ih =>
    intro scope env next h
    have hi := resolveItem_spec h i { next }
    have he : (resolveItem me scope { next } i).out.map (erase me) = specItem me env i := by
      have : St.er me { next } = ({} : SOut) := rfl
      rw [this, SOut.nil_append] at hi
      exact hi
    simp only [resolveUnit, specUnit, List.map_cons]
    rw [he]
    have hd : (resolveItem me scope { next } i).out.defs.map (Def.map (erase me)) =
        (specItem me env i).defs := by rw [← he]; rfl
    rw [ih _ (addItem_agree _ h), hd]

theorem agree_empty (me : Nat) : Agree me [{}] [] :=
  ⟨fun _ => rfl, fun _ => rfl, fun _ => rfl, fun _ => rfl⟩

end Tic.Resolve
