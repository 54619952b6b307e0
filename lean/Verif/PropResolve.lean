import Verif.ResolveProof

/-!
# C30: names refer to the innermost or latest definition
-/

namespace Tic.Resolve

/-! ## Symbols are fresh, and references point at recorded definitions -/

/-- numbers of the unit's own symbols among some definitions -/
def ownIdx (me : Nat) (ds : List (Def Sym)) : List Nat :=
  ds.filterMap fun d => if d.sym.unit = me then some d.sym.idx else none

/-- `s` is a symbol of another unit, or is defined in `D` by the name it was drawn for. -/
def KnownIn (me : Nat) (D : List (Def Sym)) (s : Sym) : Prop :=
  s.unit = me → ∃ d ∈ D, d.sym = s ∧ d.node = s.tag

structure Grow (me : Nat) (st st' : St) : Prop where
  next : st.next ≤ st'.next
  defs : ∃ new, st'.out.defs = st.out.defs ++ new ∧ (ownIdx me new).Nodup ∧
    (∀ i ∈ ownIdx me new, st.next ≤ i ∧ i < st'.next) ∧
    (∀ d ∈ new, d.sym.unit = me → d.node = d.sym.tag) ∧
    ∀ d ∈ new, ∀ e ∈ d.unit, e.sym.unit ≠ me

theorem Grow.refl (me : Nat) (st : St) : Grow me st st :=
  ⟨Nat.le_refl _, [], by simp, by simp [ownIdx], by simp [ownIdx], by simp, by simp⟩

theorem Grow.trans {me : Nat} {a b c : St} (h : Grow me a b) (h' : Grow me b c) : Grow me a c := by
  obtain ⟨h1, n1, e1, u1, b1, t1, f1⟩ := h
  obtain ⟨h2, n2, e2, u2, b2, t2, f2⟩ := h'
  refine ⟨Nat.le_trans h1 h2, n1 ++ n2, by rw [e2, e1, List.append_assoc], ?_, ?_,
    fun d hd => (List.mem_append.1 hd).elim (t1 d) (t2 d),
    fun d hd => (List.mem_append.1 hd).elim (f1 d) (f2 d)⟩
  · rw [ownIdx, List.filterMap_append]
    refine List.nodup_append.2 ⟨u1, u2, ?_⟩
    intro i hi j hj hij
    subst hij
    have := (b1 i hi).2
    have := (b2 i hj).1
    omega
  · intro i hi
    rw [ownIdx, List.filterMap_append] at hi
    rcases List.mem_append.1 hi with hi | hi
    · have := b1 i hi; omega
    · have := b2 i hi; omega

def Inv (me : Nat) (D : List (Def Sym)) (st : St) : Prop :=
  ∀ r ∈ st.out.refs, KnownIn me (D ++ st.out.defs) r.1

structure Step (me : Nat) (D : List (Def Sym)) (st st' : St) : Prop where
  grow : Grow me st st'
  inv : Inv me D st → Inv me D st'

theorem Step.refl (me : Nat) (D : List (Def Sym)) (st : St) : Step me D st st := ⟨.refl .., id⟩

theorem Step.trans {me : Nat} {D : List (Def Sym)} {a b c : St} (h : Step me D a b)
    (h' : Step me D b c) : Step me D a c := ⟨h.grow.trans h'.grow, fun hi => h'.inv (h.inv hi)⟩

/-- Everything that can be found in the scope is known, and what modules export is foreign. -/
structure ScopeKnown (me : Nat) (D : List (Def Sym)) (scope : Scope) : Prop where
  value : ∀ x s, scope.lookupValue x = some s → KnownIn me D s
  type : ∀ x s, scope.lookupType x = some s → KnownIn me D s
  ctor : ∀ x s, scope.lookupCtor x = some s → KnownIn me D s
  mod : ∀ x u, scope.lookupModule x = some u → ∀ e ∈ u, e.sym.unit ≠ me

theorem KnownIn.mono {me : Nat} {D D' : List (Def Sym)} {s : Sym} (h : KnownIn me D s)
    (hD : ∀ d ∈ D, d ∈ D') : KnownIn me D' s := fun hu => by
  obtain ⟨d, hd, h1⟩ := h hu
  exact ⟨d, hD d hd, h1⟩

theorem ScopeKnown.mono {me : Nat} {D D' : List (Def Sym)} {scope : Scope}
    (h : ScopeKnown me D scope) (hD : ∀ d ∈ D, d ∈ D') : ScopeKnown me D' scope :=
  ⟨fun x s hs => (h.value x s hs).mono hD, fun x s hs => (h.type x s hs).mono hD,
   fun x s hs => (h.ctor x s hs).mono hD, h.mod⟩

theorem ScopeKnown.child {me : Nat} {D : List (Def Sym)} {scope : Scope}
    (h : ScopeKnown me D scope) : ScopeKnown me D scope.child := ⟨h.value, h.type, h.ctor, h.mod⟩

theorem ScopeKnown.grow {me : Nat} {D : List (Def Sym)} {scope : Scope} {st st' : St}
    (h : ScopeKnown me (D ++ st.out.defs) scope) (g : Grow me st st') :
    ScopeKnown me (D ++ st'.out.defs) scope := by
  obtain ⟨_, new, e, _⟩ := g
  refine h.mono fun d hd => ?_
  rw [e, ← List.append_assoc]
  exact List.mem_append_left _ hd

theorem ScopeKnown.insertValue {me : Nat} {D : List (Def Sym)} {scope : Scope}
    (h : ScopeKnown me D scope) {s : Sym} (hs : KnownIn me D s) (x : String) :
    ScopeKnown me D (scope.insertValue x s) := by
  have ho := fun y => lookup_insert_other x y s [] scope
  refine ⟨fun y t ht => ?_, fun y t ht => ?_, fun y t ht => ?_, fun y t ht => ?_⟩
  · rw [lookupValue_insertValue] at ht
    split at ht
    · cases ht; exact hs
    · exact h.value y t ht
  · rw [(ho y).1] at ht; exact h.type y t ht
  · rw [(ho y).2.1] at ht; exact h.ctor y t ht
  · rw [(ho y).2.2.1] at ht; exact h.mod y t ht

theorem ScopeKnown.insertType {me : Nat} {D : List (Def Sym)} {scope : Scope}
    (h : ScopeKnown me D scope) {s : Sym} (hs : KnownIn me D s) (x : String) :
    ScopeKnown me D (scope.insertType x s) := by
  have ho := fun y => lookup_insert_other x y s [] scope
  refine ⟨fun y t ht => ?_, fun y t ht => ?_, fun y t ht => ?_, fun y t ht => ?_⟩
  · rw [(ho y).2.2.2.1] at ht; exact h.value y t ht
  · rw [lookupType_insertType] at ht
    split at ht
    · cases ht; exact hs
    · exact h.type y t ht
  · rw [(ho y).2.2.2.2.1] at ht; exact h.ctor y t ht
  · rw [(ho y).2.2.2.2.2.1] at ht; exact h.mod y t ht

theorem ScopeKnown.insertCtor {me : Nat} {D : List (Def Sym)} {scope : Scope}
    (h : ScopeKnown me D scope) {s : Sym} (hs : KnownIn me D s) (x : String) :
    ScopeKnown me D (scope.insertCtor x s) := by
  have ho := fun y => lookup_insert_other x y s [] scope
  refine ⟨fun y t ht => ?_, fun y t ht => ?_, fun y t ht => ?_, fun y t ht => ?_⟩
  · rw [(ho y).2.2.2.2.2.2.1] at ht; exact h.value y t ht
  · rw [(ho y).2.2.2.2.2.2.2.1] at ht; exact h.type y t ht
  · rw [lookupCtor_insertCtor] at ht
    split at ht
    · cases ht; exact hs
    · exact h.ctor y t ht
  · rw [(ho y).2.2.2.2.2.2.2.2.1] at ht; exact h.mod y t ht

theorem ScopeKnown.insertModule {me : Nat} {D : List (Def Sym)} {scope : Scope}
    (h : ScopeKnown me D scope) {u : List (Export Sym)} (hu : ∀ e ∈ u, e.sym.unit ≠ me)
    (x : String) : ScopeKnown me D (scope.insertModule x u) := by
  have ho := fun y => lookup_insert_other x y ⟨0, 0, 0⟩ u scope
  refine ⟨fun y t ht => ?_, fun y t ht => ?_, fun y t ht => ?_, fun y t ht => ?_⟩
  · rw [(ho y).2.2.2.2.2.2.2.2.2.1] at ht; exact h.value y t ht
  · rw [(ho y).2.2.2.2.2.2.2.2.2.2.1] at ht; exact h.type y t ht
  · rw [(ho y).2.2.2.2.2.2.2.2.2.2.2] at ht; exact h.ctor y t ht
  · rw [lookupModule_insertModule] at ht
    split at ht
    · cases ht; exact hu
    · exact h.mod y t ht

theorem step_ref {me : Nat} {D : List (Def Sym)} {st : St} {s : Sym} (k : Nat)
    (h : KnownIn me (D ++ st.out.defs) s) : Step me D st (st.ref s k) := by
  refine ⟨⟨Nat.le_refl _, [], by simp [St.ref], by simp [ownIdx], by simp [ownIdx], by simp, by simp⟩, ?_⟩
  intro hi r hr
  simp only [St.ref] at hr ⊢
  rcases List.mem_append.1 hr with hr | hr
  · exact hi r hr
  · rw [List.mem_singleton.1 hr]; exact h

theorem step_err {me : Nat} {D : List (Def Sym)} (st : St) (k : ErrKind) (n : Nat) :
    Step me D st (st.err k n) :=
  ⟨⟨Nat.le_refl _, [], by simp [St.err], by simp [ownIdx], by simp [ownIdx], by simp, by simp⟩, fun hi => hi⟩

theorem inv_def {me : Nat} {D : List (Def Sym)} {st : St} (d : Def Sym) (hi : Inv me D st) :
    Inv me D (st.def_ d) := by
  intro r hr
  refine (hi r hr).mono fun d' hd' => ?_
  simp only [St.def_]
  rw [← List.append_assoc]
  exact List.mem_append_left _ hd'

/-- Drawing a symbol and recording a definition for it at the node it was drawn for. -/
theorem step_fresh {me : Nat} {D : List (Def Sym)} (st : St) (tag : Nat) (k : Kind Sym) (vis : Vis)
    (text : String) (b : Bool) (u : List (Export Sym))
    (hu : ∀ e ∈ u, e.sym.unit ≠ me := by simp) :
    Step me D st ((st.fresh me tag).2.def_ ⟨(st.fresh me tag).1, k, vis, tag, text, b, u⟩) ∧
    KnownIn me (D ++ ((st.fresh me tag).2.def_
      ⟨(st.fresh me tag).1, k, vis, tag, text, b, u⟩).out.defs) (st.fresh me tag).1 := by
  refine ⟨⟨⟨?_, [⟨(st.fresh me tag).1, k, vis, tag, text, b, u⟩], rfl, ?_, ?_, by simp [St.fresh],
    by simpa using hu⟩, fun hi => ?_⟩, ?_⟩
  · simp [St.fresh, St.def_]
  · simp [ownIdx, St.fresh]
  · intro i hi
    simp [ownIdx, St.fresh, St.def_] at hi ⊢
    omega
  · exact inv_def _ hi
  · intro _
    exact ⟨⟨(st.fresh me tag).1, k, vis, tag, text, b, u⟩, by simp [St.def_], rfl, rfl⟩

theorem mem_of_getExport {S : Type} {ns : NS} {x : String} {u : List (Export S)} {e : Export S}
    (h : getExport ns x u = some e) : e ∈ u := by
  induction u with
  | nil => cases h
  | cons a u ih =>
    simp only [getExport] at h
    split at h
    · cases h; exact List.mem_cons_self
    · exact List.mem_cons_of_mem _ (ih h)

theorem step_resolveNs {me : Nat} {D : List (Def Sym)} {scope : Scope} {st : St} (want : NS)
    (ns n : Name) (h : ScopeKnown me (D ++ st.out.defs) scope) :
    Step me D st (resolveNs want scope ns n st).2 := by
  unfold resolveNs
  split
  · rename_i ex hex
    split
    · rename_i e he
      refine step_ref _ fun hu => ?_
      exact absurd hu (h.mod _ _ hex e (mem_of_getExport ((getExport_of_find _ _ _ _).1 he)))
    · exact step_err ..
    · exact step_err ..
  · exact step_err ..

mutual
theorem step_resolveTy {me : Nat} {D : List (Def Sym)} {scope : Scope} :
    ∀ (t : Ty) (st : St), ScopeKnown me (D ++ st.out.defs) scope →
      Step me D st (resolveTy scope t st).2
  | .int, st, h => by simp only [resolveTy]; exact .refl ..
  | .bool, st, h => by simp only [resolveTy]; exact .refl ..
  | .string, st, h => by simp only [resolveTy]; exact .refl ..
  | .fn a b, st, h => by
    simp only [resolveTy]
    have ha := step_resolveTy a st h
    exact ha.trans (step_resolveTy b _ (h.grow ha.grow))
  | .named ns name args, st, h => by
    have key : ∀ st1, Step me D st st1 → Step me D st (resolveTys scope args st1).2 :=
      fun st1 h1 => h1.trans (step_resolveTys args st1 (h.grow h1.grow))
    match ns, name with
    | some ns, some n => simp only [resolveTy]; exact key _ (step_resolveNs _ _ _ h)
    | none, some n =>
      simp only [resolveTy]
      cases hl : scope.lookupType n.text with
      | none => exact key _ (step_err ..)
      | some s => exact key _ (step_ref _ (h.type _ _ hl))
    | some _, none => simp only [resolveTy]; exact key _ (.refl ..)
    | none, none => simp only [resolveTy]; exact key _ (.refl ..)
  | .paren t, st, h => by simp only [resolveTy]; exact step_resolveTy t st h
  | .missing, st, h => by simp only [resolveTy]; exact .refl ..
theorem step_resolveTys {me : Nat} {D : List (Def Sym)} {scope : Scope} :
    ∀ (t : Tys) (st : St), ScopeKnown me (D ++ st.out.defs) scope →
      Step me D st (resolveTys scope t st).2
  | .nil, st, h => by simp only [resolveTys]; exact .refl ..
  | .cons t ts, st, h => by
    simp only [resolveTys]
    have ha := step_resolveTy t st h
    exact ha.trans (step_resolveTys ts _ (h.grow ha.grow))
end

structure VStep (me : Nat) (D : List (Def Sym)) (v v' : VSt) : Prop where
  step : Step me D v.st v'.st
  known : ScopeKnown me (D ++ v'.st.out.defs) v'.scope

theorem VStep.trans {me : Nat} {D : List (Def Sym)} {a b c : VSt} (h : VStep me D a b)
    (h' : VStep me D b c) : VStep me D a c := ⟨h.step.trans h'.step, h'.known⟩

mutual
theorem step_resolveTyV {me : Nat} {D : List (Def Sym)} :
    ∀ (t : Ty) (v : VSt), ScopeKnown me (D ++ v.st.out.defs) v.scope →
      VStep me D v (resolveTyV me t v).2
  | .int, v, h => by simp only [resolveTyV]; exact ⟨.refl .., h⟩
  | .bool, v, h => by simp only [resolveTyV]; exact ⟨.refl .., h⟩
  | .string, v, h => by simp only [resolveTyV]; exact ⟨.refl .., h⟩
  | .fn a b, v, h => by
    simp only [resolveTyV]
    have ha := step_resolveTyV a v h
    exact ha.trans (step_resolveTyV b _ ha.known)
  | .named ns name args, v, h => by
    have key : ∀ v1, VStep me D v v1 → VStep me D v (resolveTysV me args v1).2 :=
      fun v1 h1 => h1.trans (step_resolveTysV args v1 h1.known)
    match ns, name with
    | some ns, some n =>
      simp only [resolveTyV]
      have hs := step_resolveNs (st := v.st) .type ns n h
      exact key _ ⟨hs, h.grow hs.grow⟩
    | none, some n =>
      simp only [resolveTyV]
      cases hl : v.scope.lookupType n.text with
      | none =>
        dsimp only
        split
        · obtain ⟨s1, s2⟩ := step_fresh (me := me) (D := D) v.st n.node (.type 0 true none) .local
            n.text true []
          exact key _ ⟨s1, (h.grow s1.grow).insertType s2 _⟩
        · exact key _ ⟨step_err .., h⟩
      | some s => exact key _ ⟨step_ref _ (h.type _ _ hl), h⟩
    | some _, none => simp only [resolveTyV]; exact key _ ⟨.refl .., h⟩
    | none, none => simp only [resolveTyV]; exact key _ ⟨.refl .., h⟩
  | .paren t, v, h => by simp only [resolveTyV]; exact step_resolveTyV t v h
  | .missing, v, h => by simp only [resolveTyV]; exact ⟨.refl .., h⟩
theorem step_resolveTysV {me : Nat} {D : List (Def Sym)} :
    ∀ (t : Tys) (v : VSt), ScopeKnown me (D ++ v.st.out.defs) v.scope →
      VStep me D v (resolveTysV me t v).2
  | .nil, v, h => by simp only [resolveTysV]; exact ⟨.refl .., h⟩
  | .cons t ts, v, h => by
    simp only [resolveTysV]
    have ha := step_resolveTyV t v h
    exact ha.trans (step_resolveTysV ts _ ha.known)
end

theorem step_resolveAnn {me : Nat} {D : List (Def Sym)} (t : Option Ty) (v : VSt)
    (h : ScopeKnown me (D ++ v.st.out.defs) v.scope) : VStep me D v (resolveAnn me t v).2 := by
  cases t with
  | none => exact ⟨.refl .., h⟩
  | some t => exact step_resolveTyV t v h

theorem step_bindLocal {me : Nat} {D : List (Def Sym)} {scope : Scope} {st : St} (n : Name)
    (ty : RTy Sym) (vars : List Sym) (h : ScopeKnown me (D ++ st.out.defs) scope) :
    Step me D st (bindLocal me n ty vars scope st).2 ∧
    ScopeKnown me (D ++ (bindLocal me n ty vars scope st).2.out.defs)
      (bindLocal me n ty vars scope st).1 := by
  obtain ⟨s1, s2⟩ := step_fresh (me := me) (D := D) st n.node (.value ty vars) .local n.text true []
  exact ⟨s1, (h.grow s1.grow).insertValue s2 _⟩

theorem step_bindOpt {me : Nat} {D : List (Def Sym)} {scope : Scope} {st : St} (n : Option Name)
    (ty : RTy Sym) (vars : List Sym) (h : ScopeKnown me (D ++ st.out.defs) scope) :
    Step me D st (bindOpt me n ty vars scope st).2 ∧
    ScopeKnown me (D ++ (bindOpt me n ty vars scope st).2.out.defs)
      (bindOpt me n ty vars scope st).1 := by
  cases n with
  | none => exact ⟨.refl .., h⟩
  | some n => exact step_bindLocal n ty vars h

theorem step_bindVars {me : Nat} {D : List (Def Sym)} : ∀ (ns : List Name) {scope : Scope} {st : St},
    ScopeKnown me (D ++ st.out.defs) scope →
    Step me D st (bindVars me ns scope st).2 ∧
    ScopeKnown me (D ++ (bindVars me ns scope st).2.out.defs) (bindVars me ns scope st).1 := by
  intro ns
  induction ns with
  | nil => intro scope st h; exact ⟨.refl .., h⟩
  | cons n ns ih =>
    intro scope st h
    obtain ⟨a1, a2⟩ := step_bindLocal n .infer [] h
    obtain ⟨b1, b2⟩ := ih a2
    exact ⟨a1.trans b1, b2⟩

theorem step_resolveCtor {me : Nat} {D : List (Def Sym)} {scope : Scope} {st : St}
    (ns ctor : Option Name) (h : ScopeKnown me (D ++ st.out.defs) scope) :
    Step me D st (resolveCtor scope ns ctor st) := by
  match ns, ctor with
  | some ns, some n => exact step_resolveNs _ _ _ h
  | none, some n =>
    simp only [resolveCtor]
    cases hl : scope.lookupCtor n.text with
    | none => exact step_err ..
    | some s => exact step_ref _ (h.ctor _ _ hl)
  | some _, none => exact .refl ..
  | none, none => exact .refl ..

mutual
theorem step_resolveExpr {me : Nat} {D : List (Def Sym)} :
    ∀ (e : Expr) (scope : Scope) (st : St), ScopeKnown me (D ++ st.out.defs) scope →
      Step me D st (resolveExpr me e scope st)
  | .name none, scope, st, h => by simp only [resolveExpr]; exact .refl ..
  | .name (some n), scope, st, h => by
    simp only [resolveExpr]
    cases hl : scope.lookupValue n.text with
    | none => exact step_err ..
    | some s => exact step_ref _ (h.value _ _ hl)
  | .nsName none n, scope, st, h => by simp only [resolveExpr]; exact .refl ..
  | .nsName (some ns) none, scope, st, h => by simp only [resolveExpr]; exact .refl ..
  | .nsName (some ns) (some n), scope, st, h => by
    simp only [resolveExpr]; exact step_resolveNs _ _ _ h
  | .apply f a, scope, st, h => by
    simp only [resolveExpr]
    have h1 := step_resolveExpr f scope st h
    exact h1.trans (step_resolveExpr a scope _ (h.grow h1.grow))
  | .binary f a, scope, st, h => by
    simp only [resolveExpr]
    have h1 := step_resolveExpr f scope st h
    exact h1.trans (step_resolveExpr a scope _ (h.grow h1.grow))
  | .letE name ty value rest, scope, st, h => by
    simp only [resolveExpr]
    have h1 := step_resolveAnn (me := me) (D := D) ty ⟨scope.child.child, [], st⟩ h.child.child
    have h2 := step_resolveExpr value _ _ h1.known
    have h3 := h1.step.trans h2
    obtain ⟨b1, b2⟩ := step_bindOpt (me := me) (D := D) name
      (resolveAnn me ty ⟨scope.child.child, [], st⟩).1
      (resolveAnn me ty ⟨scope.child.child, [], st⟩).2.vars (h.grow h3.grow).child
    exact (h3.trans b1).trans (step_resolveExpr rest _ _ b2)
  | .matchE d cs, scope, st, h => by
    simp only [resolveExpr]
    have h1 := step_resolveExpr d scope st h
    exact h1.trans (step_resolveCases cs scope _ (h.grow h1.grow))
  | .ifE c t e, scope, st, h => by
    simp only [resolveExpr]
    have h1 := step_resolveExpr c scope st h
    have h2 := h1.trans (step_resolveExpr t scope _ (h.grow h1.grow))
    exact h2.trans (step_resolveExpr e scope _ (h.grow h2.grow))
  | .literal, scope, st, h => by simp only [resolveExpr]; exact .refl ..
  | .lambda p b, scope, st, h => by
    simp only [resolveExpr]
    obtain ⟨b1, b2⟩ := step_bindOpt (me := me) (D := D) p .infer [] h.child
    exact b1.trans (step_resolveExpr b _ _ b2)
  | .paren e, scope, st, h => by simp only [resolveExpr]; exact step_resolveExpr e scope st h
  | .hole, scope, st, h => by simp only [resolveExpr]; exact .refl ..
  | .missing, scope, st, h => by simp only [resolveExpr]; exact .refl ..
theorem step_resolveCases {me : Nat} {D : List (Def Sym)} :
    ∀ (cs : Cases) (scope : Scope) (st : St), ScopeKnown me (D ++ st.out.defs) scope →
      Step me D st (resolveCases me cs scope st)
  | .nil, scope, st, h => by simp only [resolveCases]; exact .refl ..
  | .cons ns ctor vars body rest, scope, st, h => by
    simp only [resolveCases]
    have h1 := step_resolveCtor ns ctor h
    obtain ⟨b1, b2⟩ := step_bindVars vars (h.grow h1.grow).child
    have h2 := (h1.trans b1).trans (step_resolveExpr body _ _ b2)
    exact h2.trans (step_resolveCases rest scope _ (h.grow h2.grow))
end

theorem step_bindParams {me : Nat} {D : List (Def Sym)} : ∀ (ns : List Name) {scope : Scope}
    {st : St}, ScopeKnown me (D ++ st.out.defs) scope →
    Step me D st (bindParams me ns scope st).2.2 ∧
    ScopeKnown me (D ++ (bindParams me ns scope st).2.2.out.defs) (bindParams me ns scope st).1 := by
  intro ns
  induction ns with
  | nil => intro scope st h; exact ⟨.refl .., h⟩
  | cons n ns ih =>
    intro scope st h
    obtain ⟨s1, s2⟩ := step_fresh (me := me) (D := D) st n.node (.type 0 true none) .local n.text
      true []
    obtain ⟨b1, b2⟩ := ih ((h.grow s1.grow).insertType s2 n.text)
    exact ⟨s1.trans b1, b2⟩

theorem step_resolveFields {me : Nat} {D : List (Def Sym)} {scope : Scope} :
    ∀ (fs : List FieldSyntax) (st : St), ScopeKnown me (D ++ st.out.defs) scope →
    Step me D st (resolveFields scope fs st).2 := by
  intro fs
  induction fs with
  | nil => intro st h; exact .refl ..
  | cons f fs ih =>
    intro st h
    cases f with
    | recur => exact ih st h
    | type t =>
      simp only [resolveFields]
      have h1 := step_resolveTy t st h
      exact h1.trans (ih _ (h.grow h1.grow))

theorem step_resolveTypeCases {me : Nat} {D : List (Def Sym)} {scope : Scope} (ty : Sym)
    (ps : List Sym) (vis : Vis) : ∀ (cs : List CaseSyntax) (names : List String) (st : St),
    ScopeKnown me (D ++ st.out.defs) scope →
    Step me D st (resolveTypeCases me scope ty ps vis cs names st).2 := by
  intro cs
  induction cs with
  | nil => intro names st h; exact .refl ..
  | cons c cs ih =>
    intro names st h
    have h1 := step_resolveFields c.fields st h
    simp only [resolveTypeCases]
    cases c.name with
    | none => exact h1.trans (ih _ _ (h.grow h1.grow))
    | some n =>
      dsimp only
      split
      · have h2 := h1.trans (step_err (resolveFields scope c.fields st).2 (.dupCtor n.text) n.node)
        exact h2.trans (ih _ _ (h.grow h2.grow))
      · have h2 := h1.trans (step_fresh (me := me) (D := D) (resolveFields scope c.fields st).2
          n.node (.ctor ty ps (resolveFields scope c.fields st).1 (ctorFnTy (.named ty (namedAll ps))
            (resolveFields scope c.fields st).1)) vis n.text true []).1
        exact h2.trans (ih _ _ (h.grow h2.grow))

theorem step_resolveTypeItem {me : Nat} {D : List (Def Sym)} {scope : Scope} {st : St}
    (node : Nat) (ex exc : Bool) (name : Option Name) (params : List Name)
    (cases : List CaseSyntax) (h : ScopeKnown me (D ++ st.out.defs) scope) :
    Step me D st (resolveTypeItem me node ex exc name params cases scope st) := by
  obtain ⟨b1, b2⟩ := step_bindParams (me := me) (D := D) params
    (st := (st.fresh me (typeTag node name)).2) h.child
  have h2 := b1.trans (step_resolveTypeCases (st.fresh me (typeTag node name)).1
    (bindParams me params scope.child (st.fresh me (typeTag node name)).2).2.1
    (if exc then Vis.export else Vis.module) cases [] _ b2)
  simp only [resolveTypeItem]
  obtain ⟨⟨g1, new, g2, g3, g4, g5, g6⟩, hi⟩ := h2
  cases name with
  | none =>
    dsimp only
    refine ⟨⟨Nat.le_trans (Nat.le_succ _) g1, new, g2, g3, fun i hm => ?_, g5, g6⟩, fun h => hi h⟩
    have e : (st.fresh me (typeTag node none)).2.next = st.next + 1 := rfl
    exact ⟨by have := (g4 i hm).1; omega, (g4 i hm).2⟩
  | some n =>
    dsimp only
    have e : (st.fresh me (typeTag node (some n))).2.next = st.next + 1 := rfl
    refine ⟨⟨Nat.le_trans (Nat.le_succ _) g1, new ++ [_], by rw [St.def_, g2, List.append_assoc]; rfl,
      ?_, fun i hm => ?_, fun d hd => (List.mem_append.1 hd).elim (g5 d) fun hd => by
        rw [List.mem_singleton.1 hd]; exact fun _ => rfl,
      fun d hd => (List.mem_append.1 hd).elim (g6 d) fun hd => by
        rw [List.mem_singleton.1 hd]; simp⟩, fun h => inv_def _ (hi h)⟩
    · rw [ownIdx, List.filterMap_append]
      refine List.nodup_append.2 ⟨g3, by simp [St.fresh], ?_⟩
      intro i hi' j hj hij
      have := g4 i hi'
      simp [St.fresh] at hj
      omega
    · rw [ownIdx, List.filterMap_append] at hm
      rcases List.mem_append.1 hm with hm | hm
      · exact ⟨by have := (g4 i hm).1; omega, (g4 i hm).2⟩
      · simp [St.fresh] at hm
        subst hm
        exact ⟨Nat.le_refl _, g1⟩

theorem step_resolveValueItem {me : Nat} {D : List (Def Sym)} {scope : Scope} {st : St}
    (ex : Bool) (name : Option Name) (ty : Option Ty) (v : Expr)
    (h : ScopeKnown me (D ++ st.out.defs) scope) :
    Step me D st (resolveValueItem me ex name ty v scope st) := by
  have h1 := step_resolveAnn (me := me) (D := D) ty ⟨scope.child, [], st⟩ h.child
  simp only [resolveValueItem]
  cases name with
  | none => exact h1.step.trans (step_resolveExpr v _ _ h1.known)
  | some n =>
    have h2 := (step_fresh (me := me) (D := D) (resolveAnn me ty ⟨scope.child, [], st⟩).2.st n.node
      (.value (resolveAnn me ty ⟨scope.child, [], st⟩).1
        (resolveAnn me ty ⟨scope.child, [], st⟩).2.vars)
      (if ex then .export else .module) n.text true []).1
    exact (h1.step.trans h2).trans (step_resolveExpr v _ _ (h1.known.grow h2.grow))

theorem step_foreign {me : Nat} {D : List (Def Sym)} {st : St} {d : Def Sym}
    (h : d.sym.unit ≠ me) (hd : d.unit = []) : Step me D st (st.def_ d) :=
  ⟨⟨Nat.le_refl _, [d], rfl, by simp [ownIdx, h], by simp [ownIdx, h], by simp [h],
    by simp [hd]⟩, inv_def _⟩

theorem step_expose {me : Nat} {D : List (Def Sym)} {unit : List (Export Sym)}
    (hu : ∀ e ∈ unit, e.sym.unit ≠ me) (n : Name) : ∀ (l : List NS) (b : Bool) (st : St),
    Step me D st (expose unit n l (b, st)).2 := by
  intro l
  induction l with
  | nil => intro b st; exact .refl ..
  | cons ns l ih =>
    intro b st
    simp only [expose]
    split
    · rename_i e he
      refine (step_foreign ?_ rfl).trans (ih ..)
      exact hu e (mem_of_getExport ((getExport_of_find _ _ _ _).1 he))
    · exact ih ..

theorem step_exposeAll {me : Nat} {D : List (Def Sym)} {unit : List (Export Sym)}
    (hu : ∀ e ∈ unit, e.sym.unit ≠ me) : ∀ (ns : List Name) (st : St),
    Step me D st (exposeAll unit ns st) := by
  intro ns
  induction ns with
  | nil => intro st; exact .refl ..
  | cons n ns ih =>
    intro st
    simp only [exposeAll]
    refine (step_expose hu n [.value, .type, .pattern, .module] false st).trans ?_
    split
    · exact ih _
    · exact (step_err ..).trans (ih _)

/-- The modules an item imports define their own symbols: the exports of another unit are not symbols
of this one. -/
def ForeignImports (me : Nat) : Item → Prop
  | .importI _ (.ok unit) _ _ => ∀ e ∈ unit, e.sym.unit ≠ me
  | _ => True

theorem step_resolveItem {me : Nat} {D : List (Def Sym)} {scope : Scope} {st : St} (i : Item)
    (hf : ForeignImports me i) (h : ScopeKnown me (D ++ st.out.defs) scope) :
    Step me D st (resolveItem me scope st i) := by
  match i, hf with
  | .importI node .noPath name exposed, _ => exact .refl ..
  | .importI node (.failed k n) name exposed, _ => exact step_err ..
  | .importI node (.ok unit) name exposed, hf =>
    simp only [resolveItem, resolveImport]
    cases name with
    | none => exact (step_fresh _ _ _ _ _ _ _ hf).1.trans (step_exposeAll hf ..)
    | some n => exact (step_fresh _ _ _ _ _ _ _ hf).1.trans (step_exposeAll hf ..)
  | .typeI .., _ => exact step_resolveTypeItem _ _ _ _ _ _ h
  | .valueI .., _ => exact step_resolveValueItem _ _ _ _ h

/-! ## One mark per use -/

/-- diagnostics that are reported at the name that is used -/
def ErrKind.atUse : ErrKind → Bool
  | .undefVar | .undefType | .undefCtor | .notA .. => true
  | _ => false

/-- how many references and "undefined" diagnostics there are at a node -/
def marks {S : Type} (o : Out S) (k : Nat) : Nat :=
  o.refs.countP (fun r => r.2 == k) + o.errs.countP (fun e => e.node == k && e.kind.atUse)

theorem marks_append (a b : SOut) (k : Nat) : marks (a ++ b) k = marks a k + marks b k := by
  simp only [marks, SOut.append_def, List.countP_append]
  omega

theorem marks_nil (k : Nat) : marks ({} : SOut) k = 0 := rfl

theorem marks_oDef (n : Name) (kd : Kind Target) (v : Vis) (k : Nat) : marks (oDef n kd v) k = 0 := rfl

theorem marks_oRef (t : Target) (n k : Nat) : marks (oRef t n) k = [n].count k := by
  simp [marks, oRef, List.count, List.countP_cons]

theorem marks_oErr (e : ErrKind) (n k : Nat) : marks (oErr e n) k ≤ [n].count k := by
  simp only [marks, oErr, List.countP_nil, List.countP_cons, List.count, Nat.zero_add]
  by_cases h : (n == k) = true
  · simp only [h, Bool.true_and]; split <;> simp
  · simp [h]

theorem marks_oErr_other {e : ErrKind} (h : e.atUse = false) (n k : Nat) :
    marks (oErr e n) k = 0 := by simp [marks, oErr, h]

def optNode : Option Name → List Nat
  | some n => [n.node]
  | none => []

mutual
/-- the nodes of the names used in a type -/
def usesTy : Ty → List Nat
  | .fn a b => usesTy a ++ usesTy b
  | .named _ name args => optNode name ++ usesTys args
  | .paren t => usesTy t
  | _ => []
def usesTys : Tys → List Nat
  | .nil => []
  | .cons t ts => usesTy t ++ usesTys ts
end

def usesAnn : Option Ty → List Nat
  | some t => usesTy t
  | none => []

mutual
/-- the nodes of the names used in an expression -/
def usesExpr : Expr → List Nat
  | .name n => optNode n
  | .nsName _ n => optNode n
  | .apply f a => usesExpr f ++ usesExpr a
  | .binary f a => usesExpr f ++ usesExpr a
  | .letE _ ty v r => usesAnn ty ++ (usesExpr v ++ usesExpr r)
  | .matchE d cs => usesExpr d ++ usesCases cs
  | .ifE c t e => usesExpr c ++ (usesExpr t ++ usesExpr e)
  | .lambda _ b => usesExpr b
  | .paren e => usesExpr e
  | _ => []
def usesCases : Cases → List Nat
  | .nil => []
  | .cons _ ctor _ body rest => optNode ctor ++ (usesExpr body ++ usesCases rest)
end

theorem marks_useName (ns : NS) (u : ErrKind) (env : Env) (n : Name) (k : Nat) :
    marks (useName ns u env n).2 k ≤ [n.node].count k := by
  unfold useName
  split
  · exact Nat.le_of_eq (marks_oRef ..)
  · exact marks_oErr ..

theorem marks_useNs (ns : NS) (env : Env) (m n : Name) (k : Nat) :
    marks (useNs ns env m n).2 k ≤ [n.node].count k := by
  unfold useNs
  split
  · dsimp only; rw [marks_oErr_other rfl]; exact Nat.zero_le _
  · split
    · exact Nat.le_of_eq (marks_oRef ..)
    · dsimp only; rw [marks_oErr_other rfl]; exact Nat.zero_le _
    · exact marks_oErr ..

mutual
theorem marks_specTy (env : Env) (k : Nat) : ∀ t, marks (specTy env t).2 k ≤ (usesTy t).count k
  | .int => by simp [specTy, marks_nil]
  | .bool => by simp [specTy, marks_nil]
  | .string => by simp [specTy, marks_nil]
  | .fn a b => by
    simp only [specTy, usesTy, marks_append, List.count_append]
    exact Nat.add_le_add (marks_specTy env k a) (marks_specTy env k b)
  | .named ns name args => by
    simp only [specTy, usesTy, marks_append, List.count_append]
    refine Nat.add_le_add ?_ (marks_specTys env k args)
    match ns, name with
    | some ns, some n => exact marks_useNs ..
    | none, some n => exact marks_useName ..
    | some _, none => exact Nat.zero_le _
    | none, none => exact Nat.zero_le _
  | .paren t => by simp only [specTy, usesTy]; exact marks_specTy env k t
  | .missing => by simp [specTy, marks_nil]
theorem marks_specTys (env : Env) (k : Nat) : ∀ t, marks (specTys env t).2 k ≤ (usesTys t).count k
  | .nil => by simp [specTys, marks_nil]
  | .cons t ts => by
    simp only [specTys, usesTys, marks_append, List.count_append]
    exact Nat.add_le_add (marks_specTy env k t) (marks_specTys env k ts)
end

theorem marks_useTyVar (env : Env) (n : Name) (b : Bool) (k : Nat) :
    marks (useTyVar env n b).2.2.2 k ≤ [n.node].count k := by
  unfold useTyVar
  split
  · exact Nat.le_of_eq (marks_oRef ..)
  · split
    · exact Nat.zero_le _
    · exact marks_oErr ..

mutual
theorem marks_specTyV (k : Nat) : ∀ t env, marks (specTyV env t).out k ≤ (usesTy t).count k
  | .int, env => by simp [specTyV, marks_nil]
  | .bool, env => by simp [specTyV, marks_nil]
  | .string, env => by simp [specTyV, marks_nil]
  | .fn a b, env => by
    simp only [specTyV, usesTy, marks_append, List.count_append]
    exact Nat.add_le_add (marks_specTyV k a _) (marks_specTyV k b _)
  | .named ns name args, env => by
    simp only [specTyV, usesTy, marks_append, List.count_append]
    refine Nat.add_le_add ?_ (marks_specTysV k args _)
    match ns, name with
    | some ns, some n => exact marks_useNs ..
    | none, some n => exact marks_useTyVar ..
    | some _, none => exact Nat.zero_le _
    | none, none => exact Nat.zero_le _
  | .paren t, env => by simp only [specTyV, usesTy]; exact marks_specTyV k t env
  | .missing, env => by simp [specTyV, marks_nil]
theorem marks_specTysV (k : Nat) : ∀ t env, marks (specTysV env t).out k ≤ (usesTys t).count k
  | .nil, env => by simp [specTysV, marks_nil]
  | .cons t ts, env => by
    simp only [specTysV, usesTys, marks_append, List.count_append]
    exact Nat.add_le_add (marks_specTyV k t _) (marks_specTysV k ts _)
end

theorem marks_specAnn (k : Nat) (t : Option Ty) (env : Env) :
    marks (specAnn env t).out k ≤ (usesAnn t).count k := by
  cases t with
  | none => exact Nat.zero_le _
  | some t => exact marks_specTyV k t env

theorem marks_oVars (k : Nat) (ns : List Name) : marks (oVars ns) k = 0 := by
  induction ns with
  | nil => rfl
  | cons n ns ih => simp only [oVars, marks_append, marks_oDef, ih]

theorem marks_specCtor (env : Env) (ns c : Option Name) (k : Nat) :
    marks (specCtor env ns c) k ≤ (optNode c).count k := by
  match ns, c with
  | some ns, some n => exact marks_useNs ..
  | none, some n => exact marks_useName ..
  | some _, none => exact Nat.zero_le _
  | none, none => exact Nat.zero_le _

mutual
theorem marks_specExpr (k : Nat) : ∀ e env, marks (specExpr env e) k ≤ (usesExpr e).count k
  | .name none, env => by simp [specExpr, marks_nil]
  | .name (some n), env => by simp only [specExpr, usesExpr]; exact marks_useName ..
  | .nsName none n, env => by simp [specExpr, marks_nil]
  | .nsName (some ns) none, env => by simp [specExpr, marks_nil]
  | .nsName (some ns) (some n), env => by simp only [specExpr, usesExpr]; exact marks_useNs ..
  | .apply f a, env => by
    simp only [specExpr, usesExpr, marks_append, List.count_append]
    exact Nat.add_le_add (marks_specExpr k f _) (marks_specExpr k a _)
  | .binary f a, env => by
    simp only [specExpr, usesExpr, marks_append, List.count_append]
    exact Nat.add_le_add (marks_specExpr k f _) (marks_specExpr k a _)
  | .letE none ty v r, env => by
    simp only [specExpr, usesExpr, marks_append, List.count_append]
    exact Nat.add_le_add (marks_specAnn k ty env)
      (Nat.add_le_add (marks_specExpr k v _) (marks_specExpr k r _))
  | .letE (some n) ty v r, env => by
    simp only [specExpr, usesExpr, marks_append, List.count_append, marks_oDef, Nat.zero_add]
    exact Nat.add_le_add (marks_specAnn k ty env)
      (Nat.add_le_add (marks_specExpr k v _) (marks_specExpr k r _))
  | .matchE d cs, env => by
    simp only [specExpr, usesExpr, marks_append, List.count_append]
    exact Nat.add_le_add (marks_specExpr k d _) (marks_specCases k cs _)
  | .ifE c t e, env => by
    simp only [specExpr, usesExpr, marks_append, List.count_append]
    exact Nat.add_le_add (marks_specExpr k c _)
      (Nat.add_le_add (marks_specExpr k t _) (marks_specExpr k e _))
  | .literal, env => by simp [specExpr, marks_nil]
  | .lambda none b, env => by simp only [specExpr, usesExpr]; exact marks_specExpr k b _
  | .lambda (some n) b, env => by
    simp only [specExpr, usesExpr, marks_append, marks_oDef, Nat.zero_add]
    exact marks_specExpr k b _
  | .paren e, env => by simp only [specExpr, usesExpr]; exact marks_specExpr k e _
  | .hole, env => by simp [specExpr, marks_nil]
  | .missing, env => by simp [specExpr, marks_nil]
theorem marks_specCases (k : Nat) : ∀ cs env, marks (specCases env cs) k ≤ (usesCases cs).count k
  | .nil, env => by simp [specCases, marks_nil]
  | .cons ns c vars body rest, env => by
    simp only [specCases, usesCases, marks_append, List.count_append, marks_oVars, Nat.zero_add]
    exact Nat.add_le_add (marks_specCtor ..)
      (Nat.add_le_add (marks_specExpr k body _) (marks_specCases k rest _))
end

/-! ## Occurrences and the binders around them -/

/-- one of the cases has these variables and this body -/
def InCases : Cases → List Name → Expr → Prop
  | .nil, _, _ => False
  | .cons _ _ vars body rest, vs, b => (vars = vs ∧ body = b) ∨ InCases rest vs b

/-- `At e bs s`: the expression `s` occurs in `e` below the value binders `bs`, innermost first.  A
`let` binds its name in what follows but not in its own value; a lambda binds its parameter in its body;
a match case binds its variables in its body. -/
inductive At : Expr → List Name → Expr → Prop
  | here (e : Expr) : At e [] e
  | fn {f a bs s} : At f bs s → At (.apply f a) bs s
  | arg {f a bs s} : At a bs s → At (.apply f a) bs s
  | lhs {l r bs s} : At l bs s → At (.binary l r) bs s
  | rhs {l r bs s} : At r bs s → At (.binary l r) bs s
  | value {n ty v r bs s} : At v bs s → At (.letE n ty v r) bs s
  | rest {n ty v r bs s} : At r bs s → At (.letE (some n) ty v r) (bs ++ [n]) s
  | rest' {ty v r bs s} : At r bs s → At (.letE none ty v r) bs s
  | discr {d cs bs s} : At d bs s → At (.matchE d cs) bs s
  | case {d cs vars body bs s} : InCases cs vars body → At body bs s →
      At (.matchE d cs) (bs ++ vars.reverse) s
  | cond {c t e bs s} : At c bs s → At (.ifE c t e) bs s
  | thn {c t e bs s} : At t bs s → At (.ifE c t e) bs s
  | els {c t e bs s} : At e bs s → At (.ifE c t e) bs s
  | body {n b bs s} : At b bs s → At (.lambda (some n) b) (bs ++ [n]) s
  | body' {b bs s} : At b bs s → At (.lambda none b) bs s
  | paren {e bs s} : At e bs s → At (.paren e) bs s

/-- What a value name means below binders `bs` (innermost first) in an environment. -/
def meaning (bs : List Name) (env : Env) (x : String) : Option Target :=
  match bs.find? (fun b => b.text == x) with
  | some b => some (.here b.node)
  | none => env.find .value x

/-- `env'` is `env` below the binders `bs`. -/
structure Under (bs : List Name) (env env' : Env) : Prop where
  value : ∀ x, env'.find .value x = meaning bs env x
  ctor : ∀ x, env'.find .pattern x = env.find .pattern x
  mod : ∀ x, env'.findMod x = env.findMod x

theorem Under.refl (env : Env) : Under [] env env := ⟨fun _ => rfl, fun _ => rfl, fun _ => rfl⟩

theorem meaning_value (bs : List Name) (n : Name) (env : Env) (x : String) :
    meaning bs (env.value n) x = meaning (bs ++ [n]) env x := by
  simp only [meaning, List.find?_append]
  cases bs.find? (fun b => b.text == x) with
  | some b => rfl
  | none =>
    by_cases h : n.text = x
    · simp [Env.value, Env.find, h]
    · simp [Env.value, Env.find, h]

theorem Under.push {bs : List Name} {n : Name} {env env' : Env} (h : Under bs (env.value n) env') :
    Under (bs ++ [n]) env env' :=
  ⟨fun x => by rw [h.value, meaning_value], fun x => by rw [h.ctor]; simp [Env.value, Env.find],
   fun x => by rw [h.mod]; rfl⟩

theorem Under.pushAll {bs : List Name} : ∀ {ns : List Name} {env env' : Env},
    Under bs (env.values ns) env' → Under (bs ++ ns.reverse) env env' := by
  intro ns
  induction ns with
  | nil => intro env env' h; rw [List.reverse_nil, List.append_nil]; exact h
  | cons n ns ih =>
    intro env env' h
    have := (ih (env := env.value n) h).push
    simpa [List.append_assoc] using this

theorem Under.after {bs : List Name} {env env1 env' : Env} (h : Under bs env1 env')
    (h1 : Under [] env env1) : Under bs env env' := by
  refine ⟨fun x => ?_, fun x => by rw [h.ctor, h1.ctor], fun x => by rw [h.mod, h1.mod]⟩
  rw [h.value]
  simp only [meaning]
  cases bs.find? (fun b => b.text == x) with
  | some b => rfl
  | none => exact h1.value x

mutual
theorem under_specTyV : ∀ (t : Ty) (env : Env), Under [] env (specTyV env t).env
  | .int, env => by simp only [specTyV]; exact .refl _
  | .bool, env => by simp only [specTyV]; exact .refl _
  | .string, env => by simp only [specTyV]; exact .refl _
  | .fn a b, env => by
    simp only [specTyV]
    exact (under_specTyV b _).after (under_specTyV a env)
  | .named ns name args, env => by
    simp only [specTyV]
    refine (under_specTysV args _).after ?_
    match ns, name with
    | some ns, some n => exact .refl _
    | none, some n =>
      dsimp only
      unfold useTyVar
      split
      · exact .refl _
      · split
        · exact ⟨fun x => by simp [Env.find, meaning], fun x => by simp [Env.find], fun x => rfl⟩
        · exact .refl _
    | some _, none => exact .refl _
    | none, none => exact .refl _
  | .paren t, env => by simp only [specTyV]; exact under_specTyV t env
  | .missing, env => by simp only [specTyV]; exact .refl _
theorem under_specTysV : ∀ (t : Tys) (env : Env), Under [] env (specTysV env t).env
  | .nil, env => by simp only [specTysV]; exact .refl _
  | .cons t ts, env => by
    simp only [specTysV]
    exact (under_specTysV ts _).after (under_specTyV t env)
end

theorem under_specAnn (t : Option Ty) (env : Env) : Under [] env (specAnn env t).env := by
  cases t with
  | none => exact .refl _
  | some t => exact under_specTyV t env

/-- `o` occurs as a part of the output `whole`. -/
def PartOf (o whole : SOut) : Prop := ∃ a b : SOut, whole = a ++ (o ++ b)

theorem PartOf.refl (o : SOut) : PartOf o o := ⟨{}, {}, by rw [SOut.append_nil, SOut.nil_append]⟩

theorem PartOf.left {o w : SOut} (h : PartOf o w) (x : SOut) : PartOf o (w ++ x) := by
  obtain ⟨a, b, rfl⟩ := h
  exact ⟨a, b ++ x, by simp only [SOut.append_assoc]⟩

theorem PartOf.right {o w : SOut} (h : PartOf o w) (x : SOut) : PartOf o (x ++ w) := by
  obtain ⟨a, b, rfl⟩ := h
  exact ⟨x ++ a, b, by simp only [SOut.append_assoc]⟩

theorem partOf_case {vars : List Name} {body : Expr} : ∀ {cs : Cases} (env : Env),
    InCases cs vars body → PartOf (specExpr (env.values vars) body) (specCases env cs)
  | .nil, env, h => h.elim
  | .cons ns c vs b rest, env, h => by
    simp only [specCases]
    rcases h with ⟨rfl, rfl⟩ | h
    · exact ((PartOf.refl _).left _).right _ |>.right _
    · exact (((partOf_case env h).right _).right _).right _

theorem at_spec {e s : Expr} {bs : List Name} (h : At e bs s) : ∀ (env : Env),
    ∃ env', Under bs env env' ∧ PartOf (specExpr env' s) (specExpr env e) := by
  induction h with
  | here e => intro env; exact ⟨env, .refl _, .refl _⟩
  | fn _ ih =>
    intro env; obtain ⟨env', u, p⟩ := ih env
    exact ⟨env', u, by simp only [specExpr]; exact p.left _⟩
  | arg _ ih =>
    intro env; obtain ⟨env', u, p⟩ := ih env
    exact ⟨env', u, by simp only [specExpr]; exact p.right _⟩
  | lhs _ ih =>
    intro env; obtain ⟨env', u, p⟩ := ih env
    exact ⟨env', u, by simp only [specExpr]; exact p.left _⟩
  | rhs _ ih =>
    intro env; obtain ⟨env', u, p⟩ := ih env
    exact ⟨env', u, by simp only [specExpr]; exact p.right _⟩
  | @value n ty v r bs s _ ih =>
    intro env; obtain ⟨env', u, p⟩ := ih (specAnn env ty).env
    refine ⟨env', u.after (under_specAnn ty env), ?_⟩
    cases n with
    | none => simp only [specExpr]; exact (p.left _).right _
    | some n => simp only [specExpr]; exact (p.left _).right _
  | @rest n ty v r bs s _ ih =>
    intro env; obtain ⟨env', u, p⟩ := ih (env.value n)
    exact ⟨env', u.push, by simp only [specExpr]; exact ((p.right _).right _).right _⟩
  | rest' _ ih =>
    intro env; obtain ⟨env', u, p⟩ := ih env
    exact ⟨env', u, by simp only [specExpr]; exact (p.right _).right _⟩
  | discr _ ih =>
    intro env; obtain ⟨env', u, p⟩ := ih env
    exact ⟨env', u, by simp only [specExpr]; exact p.left _⟩
  | @case d cs vars body bs s hin _ ih =>
    intro env; obtain ⟨env', u, p⟩ := ih (env.values vars)
    refine ⟨env', u.pushAll, ?_⟩
    obtain ⟨a, b, hab⟩ := p
    obtain ⟨a', b', hab'⟩ := partOf_case env hin
    simp only [specExpr]
    refine PartOf.right ⟨a' ++ a, b ++ b', ?_⟩ _
    rw [hab', hab]
    simp only [SOut.append_assoc]
  | cond _ ih =>
    intro env; obtain ⟨env', u, p⟩ := ih env
    exact ⟨env', u, by simp only [specExpr]; exact p.left _⟩
  | thn _ ih =>
    intro env; obtain ⟨env', u, p⟩ := ih env
    exact ⟨env', u, by simp only [specExpr]; exact (p.left _).right _⟩
  | els _ ih =>
    intro env; obtain ⟨env', u, p⟩ := ih env
    exact ⟨env', u, by simp only [specExpr]; exact (p.right _).right _⟩
  | @body n b bs s _ ih =>
    intro env; obtain ⟨env', u, p⟩ := ih (env.value n)
    exact ⟨env', u.push, by simp only [specExpr]; exact p.right _⟩
  | body' _ ih =>
    intro env; obtain ⟨env', u, p⟩ := ih env
    exact ⟨env', u, by simp only [specExpr]; exact p⟩
  | paren _ ih =>
    intro env; obtain ⟨env', u, p⟩ := ih env
    exact ⟨env', u, by simp only [specExpr]; exact p⟩

/-! ## Units -/

theorem addDef_known {me : Nat} {D : List (Def Sym)} {scope : Scope} (h : ScopeKnown me D scope)
    {d : Def Sym} (hd : KnownIn me D d.sym) (hm : ∀ e ∈ d.unit, e.sym.unit ≠ me) :
    ScopeKnown me D (scope.addDef d) := by
  unfold Scope.addDef
  split
  · exact h
  · split
    · exact h
    · split
      · exact h.insertValue hd _
      · exact (h.insertCtor hd _).insertValue hd _
      · exact h.insertType hd _
      · exact h.insertModule hm _

theorem addItem_known {me : Nat} {D : List (Def Sym)} : ∀ (ds : List (Def Sym)) {scope : Scope},
    ScopeKnown me D scope → (∀ d ∈ ds, KnownIn me D d.sym) →
    (∀ d ∈ ds, ∀ e ∈ d.unit, e.sym.unit ≠ me) → ScopeKnown me D (scope.addItem ds) := by
  intro ds
  induction ds with
  | nil => intro scope h _ _; exact h
  | cons d ds ih =>
    intro scope h hd hm
    exact ih (addDef_known h (hd d List.mem_cons_self) (hm d List.mem_cons_self))
      (fun d' h' => hd d' (List.mem_cons_of_mem _ h')) (fun d' h' => hm d' (List.mem_cons_of_mem _ h'))

/-- The definitions recorded so far: own symbols are distinct, below the counter, and tagged with the
node of the definition. -/
structure DefsOK (me : Nat) (D : List (Def Sym)) (next : Nat) : Prop where
  nodup : (ownIdx me D).Nodup
  below : ∀ i ∈ ownIdx me D, i < next
  tag : ∀ d ∈ D, d.sym.unit = me → d.node = d.sym.tag
  foreign : ∀ d ∈ D, ∀ e ∈ d.unit, e.sym.unit ≠ me

theorem DefsOK.known {me : Nat} {D : List (Def Sym)} {next : Nat} (h : DefsOK me D next)
    {d : Def Sym} (hd : d ∈ D) : KnownIn me D d.sym := fun hu => ⟨d, hd, rfl, h.tag d hd hu⟩

theorem DefsOK.grow {me : Nat} {D : List (Def Sym)} {st st' : St}
    (h : DefsOK me D st.next) (h0 : st.out.defs = []) (g : Grow me st st') :
    DefsOK me (D ++ st'.out.defs) st'.next := by
  obtain ⟨g1, new, g2, g3, g4, g5, g6⟩ := g
  rw [h0, List.nil_append] at g2
  rw [g2]
  refine ⟨?_, ?_, ?_, ?_⟩
  · rw [ownIdx, List.filterMap_append]
    refine List.nodup_append.2 ⟨h.nodup, g3, ?_⟩
    intro i hi j hj hij
    have := h.below i hi
    have := (g4 j hj).1
    omega
  · intro i hi
    rw [ownIdx, List.filterMap_append] at hi
    rcases List.mem_append.1 hi with hi | hi
    · have := h.below i hi; omega
    · exact (g4 i hi).2
  · intro d hd
    rcases List.mem_append.1 hd with hd | hd
    · exact h.tag d hd
    · exact g5 d hd
  · intro d hd
    rcases List.mem_append.1 hd with hd | hd
    · exact h.foreign d hd
    · exact g6 d hd

/-- all definitions recorded by some items -/
def allDefs (outs : List (Out Sym)) : List (Def Sym) := outs.flatMap (·.defs)

theorem unit_ok {me : Nat} : ∀ (is : List Item) (scope : Scope) (next : Nat) (D : List (Def Sym)),
    (∀ i ∈ is, ForeignImports me i) → ScopeKnown me D scope → DefsOK me D next →
    (∃ n, DefsOK me (D ++ allDefs (resolveUnit me is scope next)) n) ∧
    ∀ (k : Nat) out, (resolveUnit me is scope next)[k]? = some out → ∀ r ∈ out.refs,
      KnownIn me (D ++ allDefs ((resolveUnit me is scope next).take (k + 1))) r.1 := by
  intro is
  induction is with
  | nil =>
    intro scope next D _ _ hd
    refine ⟨⟨next, by simpa [resolveUnit, allDefs] using hd⟩, fun k out h => by simp [resolveUnit] at h⟩
  | cons i is ih =>
    intro scope next D hf hs hd
    have hst := step_resolveItem (me := me) (D := D) (scope := scope) (st := { next }) i
      (hf i List.mem_cons_self) (by simpa using hs)
    have hd' := DefsOK.grow (st := { next }) hd rfl hst.grow
    have hsc : ScopeKnown me (D ++ (resolveItem me scope { next } i).out.defs)
        (scope.addItem (resolveItem me scope { next } i).out.defs) := by
      refine addItem_known _ (hs.mono fun d h => List.mem_append_left _ h) ?_ ?_
      · exact fun d h => hd'.known (List.mem_append_right _ h)
      · exact fun d h => hd'.foreign d (List.mem_append_right _ h)
    obtain ⟨⟨n, r1⟩, r2⟩ := ih _ (resolveItem me scope { next } i).next _
      (fun j hj => hf j (List.mem_cons_of_mem _ hj)) hsc hd'
    refine ⟨⟨n, ?_⟩, ?_⟩
    · rw [resolveUnit, allDefs, List.flatMap_cons, ← List.append_assoc]
      exact r1
    · intro k out hk r hr
      rw [resolveUnit] at hk ⊢
      cases k with
      | zero =>
        simp only [List.getElem?_cons_zero, Option.some.injEq] at hk
        subst hk
        have := hst.inv (by intro r hr; cases hr) r hr
        simpa [allDefs] using this
      | succ k =>
        simp only [List.getElem?_cons_succ] at hk
        have := r2 k out hk r hr
        rw [List.append_assoc] at this
        rw [List.take_succ_cons, allDefs, List.flatMap_cons]
        exact this

theorem known_empty (me : Nat) : ScopeKnown me [] [{}] :=
  ⟨(fun _ _ h => by simp [Scope.lookupValue, get] at h), (fun _ _ h => by simp [Scope.lookupType, get] at h),
   (fun _ _ h => by simp [Scope.lookupCtor, get] at h), (fun _ _ h => by simp [Scope.lookupModule, get] at h)⟩

theorem defsOK_empty (me : Nat) : DefsOK me [] 0 :=
  ⟨List.nodup_nil, (fun _ h => nomatch h), (fun _ h => nomatch h), (fun _ h => nomatch h)⟩

/-- the environment of an item of a unit -/
theorem specUnit_get {me : Nat} : ∀ (is : List Item) (env : Env) (k : Nat) (i : Item),
    is[k]? = some i →
    (specUnit me is env)[k]? =
      some (specItem me (env.after (((specUnit me is env).take k).flatMap (·.defs))) i) := by
  intro is
  induction is with
  | nil => intro env k i h; simp at h
  | cons j is ih =>
    intro env k i h
    cases k with
    | zero =>
      simp only [List.getElem?_cons_zero, Option.some.injEq] at h
      subst h
      simp [specUnit, Env.after]
    | succ k =>
      simp only [List.getElem?_cons_succ] at h
      rw [specUnit, List.getElem?_cons_succ, ih _ k i h, List.take_succ_cons, List.flatMap_cons]
      congr 2
      simp only [Env.after, List.reverse_append, List.flatMap_append, List.append_assoc]

/-! ## C30 -/

/-- Whether a definition is visible to later items as a value called `x`: top-level values and
constructors, and names exposed by an import. -/
def isValueDef {S : Type} (x : String) (d : Def S) : Bool :=
  decide (d.vis ≠ .local) && d.hasName && decide (d.text = x) &&
  (match d.kind with
    | .value .. => true
    | .ctor .. => true
    | _ => false)

/-- The target a definition of the unit `me` gives: its own name, or what an exposed name stands for. -/
def defTarget (me : Nat) (d : Def Sym) : Target :=
  if d.sym.unit = me then .here d.node else .other d.sym

/-- What the value name `x` must refer to: the innermost enclosing binder, else the latest of the
earlier top-level definitions. -/
def valueMeaning (me : Nat) (binders : List Name) (earlier : List (Def Sym)) (x : String) :
    Option Target :=
  match binders.find? (fun b => b.text == x) with
  | some b => some (.here b.node)
  | none => (earlier.reverse.find? (isValueDef x)).map (defTarget me)

/-- The name at `node` is recorded as referring to `t`: to the symbol of the definition, among `D`, made
at that syntax node, or to that symbol of another unit. -/
def Refers (me : Nat) (D : List (Def Sym)) (out : Out Sym) (node : Nat) : Target → Prop
  | .here b => ∃ s, (s, node) ∈ out.refs ∧ s.unit = me ∧ ∃ d ∈ D, d.sym = s ∧ d.node = b
  | .other s => (s, node) ∈ out.refs ∧ s.unit ≠ me

theorem find_after (x : String) : ∀ (l : List (Def Target)) (env : Env),
    Env.find .value x (l.flatMap bindingsOf ++ env) =
      match l.find? (isValueDef x) with
      | some d => some d.sym
      | none => env.find .value x := by
  intro l
  induction l with
  | nil => intro env; rfl
  | cons d l ih =>
    intro env
    rw [List.flatMap_cons, List.append_assoc, List.find?_cons]
    obtain ⟨sym, kind, vis, node, text, hasName, unit⟩ := d
    by_cases h1 : vis = .local
    · simp only [bindingsOf, isValueDef, h1, true_or, if_true, List.nil_append]
      simpa using ih env
    · by_cases h2 : hasName = false
      · simp only [bindingsOf, isValueDef, h2, or_true, if_true, List.nil_append]
        simpa using ih env
      · have h2' : hasName = true := by simpa using h2
        simp only [bindingsOf, isValueDef, h1, h2', or_self, if_false, Bool.true_eq_false]
        cases kind with
        | value =>
          by_cases h3 : text = x
          · simp [Env.find, h3, h1]
          · simp [Env.find, h3, h1, ih]
        | ctor =>
          by_cases h3 : text = x
          · simp [Env.find, h3, h1]
          · simp [Env.find, h3, h1, ih]
        | type => simp [Env.find, h1, ih]
        | module => simp [Env.find, h1, ih]

theorem isValueDef_map {S T : Type} (f : S → T) (x : String) (d : Def S) :
    isValueDef x (d.map f) = isValueDef x d := by
  obtain ⟨sym, kind, vis, node, text, hasName, unit⟩ := d
  cases kind <;> rfl

/-- **The whole resolver.**  Everything a unit's items record - definitions with their types and
visibility, references, diagnostics, each in order - is what the specification with one flat
environment says, where a symbol stands for the name it was made for. -/
theorem resolve_meets_spec (me : Nat) (items : List Item) :
    (resolveUnit me items [{}] 0).map (Out.map (erase me)) = specUnit me items [] :=
  resolveUnit_spec items 0 (agree_empty me)

/-- **Symbols are never reused**: the symbols a unit defines are pairwise different, and every
recorded reference is to a symbol of another unit or to one defined in this unit, at or before the
item it stands in. -/
theorem symbols_distinct_and_defined (me : Nat) (items : List Item)
    (hf : ∀ i ∈ items, ForeignImports me i) :
    (ownIdx me (allDefs (resolveUnit me items [{}] 0))).Nodup ∧
    ∀ (k : Nat) out, (resolveUnit me items [{}] 0)[k]? = some out → ∀ r ∈ out.refs,
      r.1.unit = me →
        ∃ d ∈ allDefs ((resolveUnit me items [{}] 0).take (k + 1)), d.sym = r.1 := by
  obtain ⟨⟨n, h1⟩, h2⟩ := unit_ok items [{}] 0 [] hf (known_empty me) (defsOK_empty me)
  refine ⟨by simpa using h1.nodup, fun k out hk r hr hu => ?_⟩
  obtain ⟨d, hd, he, -⟩ := h2 k out hk r hr hu
  exact ⟨d, by simpa using hd, he⟩

/-- **Names refer to the innermost definition.**  Take any value item of a unit and any use of a plain
name in its expression, below the binders `bs`.  If an enclosing binder has that name, the use is
recorded as a reference to the innermost such binder; otherwise to the latest earlier top-level value,
constructor or exposed name of that name; and if there is none, it is reported as an undefined
variable.  Provided different uses are different syntax nodes, nothing else is recorded at that use. -/
theorem name_refers_to_innermost (me : Nat) (items : List Item)
    (hf : ∀ i ∈ items, ForeignImports me i) (k : Nat) (ex : Bool) (name : Option Name)
    (ty : Option Ty) (v : Expr) (hk : items[k]? = some (.valueI ex name ty v))
    (bs : List Name) (n : Name) (hat : At v bs (.name (some n))) :
    ∃ out, (resolveUnit me items [{}] 0)[k]? = some out ∧
      (match valueMeaning me bs (allDefs ((resolveUnit me items [{}] 0).take k)) n.text with
        | some t => Refers me (allDefs ((resolveUnit me items [{}] 0).take (k + 1))) out n.node t
        | none => ⟨.undefVar, n.node⟩ ∈ out.errs) ∧
      ((usesAnn ty ++ usesExpr v).Nodup → marks out n.node = 1) := by
  have hspec := resolve_meets_spec me items
  obtain ⟨⟨nx, hd⟩, hknown⟩ := unit_ok items [{}] 0 [] hf (known_empty me) (defsOK_empty me)
  simp only [List.nil_append] at hd hknown
  have hget := specUnit_get (me := me) items [] k _ hk
  rw [← hspec] at hget
  rw [List.getElem?_map] at hget
  cases ho : (resolveUnit me items [{}] 0)[k]? with
  | none => rw [ho] at hget; cases hget
  | some out =>
    rw [ho] at hget
    simp only [Option.map_some, Option.some.injEq] at hget
    refine ⟨out, rfl, ?_⟩
    -- the environment of the item, in terms of the recorded definitions
    have henv : ((((resolveUnit me items [{}] 0).map (Out.map (erase me))).take k).flatMap
        (·.defs)) = (allDefs ((resolveUnit me items [{}] 0).take k)).map (Def.map (erase me)) := by
      rw [← List.map_take, List.flatMap_map, allDefs, List.map_flatMap]
      rfl
    rw [henv] at hget
    generalize hD : allDefs ((resolveUnit me items [{}] 0).take k) = D at hget ⊢
    have hsub : ∀ d ∈ D, d ∈ allDefs (resolveUnit me items [{}] 0) := by
      intro d h
      rw [← hD, allDefs, List.mem_flatMap] at h
      obtain ⟨o, h1, h2⟩ := h
      exact List.mem_flatMap.2 ⟨o, List.mem_of_mem_take h1, h2⟩
    obtain ⟨env', hu, hp⟩ := at_spec hat
      (specAnn (Env.after (D.map (Def.map (erase me))) []) ty).env
    have hu' := hu.after (under_specAnn ty _)
    have hval := hu'.value n.text
    have hmean : meaning bs (Env.after (D.map (Def.map (erase me))) []) n.text =
        valueMeaning me bs D n.text := by
      simp only [meaning, valueMeaning]
      cases bs.find? (fun b => b.text == n.text) with
      | some b => rfl
      | none =>
        dsimp only
        rw [Env.after, find_after, ← List.map_reverse, List.find?_map]
        have hfun : (isValueDef n.text ∘ Def.map (erase me) : Def Sym → Bool) =
            isValueDef n.text := funext fun d => isValueDef_map _ _ d
        rw [hfun]
        cases hfd : D.reverse.find? (isValueDef n.text) with
        | none => rfl
        | some d =>
          have hmem : d ∈ D := List.mem_reverse.1 (List.mem_of_find?_eq_some hfd)
          simp only [Option.map_some, Def.map, defTarget, erase]
          split
          · rename_i hun
            rw [hd.tag d (hsub d hmem) hun]
          · rfl
    rw [hmean] at hval
    have hpart : PartOf (useName .value .undefVar env' n).2 (out.map (erase me)) := by
      rw [hget]
      simp only [specItem, specValueItem]
      simp only [specExpr] at hp
      exact (hp.right _).right _
    obtain ⟨a, b, hab⟩ := hpart
    refine ⟨?_, ?_⟩
    · unfold useName at hab
      rw [hval] at hab
      cases hm : valueMeaning me bs D n.text with
      | none =>
        rw [hm] at hab
        have : (⟨.undefVar, n.node⟩ : Err) ∈ (out.map (erase me)).errs := by
          rw [hab]
          simp [SOut.append_def, oErr]
        exact this
      | some t =>
        rw [hm] at hab
        have : (t, n.node) ∈ (out.map (erase me)).refs := by
          rw [hab]
          simp [SOut.append_def, oRef]
        simp only [Out.map, List.mem_map, Prod.mk.injEq] at this
        obtain ⟨⟨s, nd⟩, hr, ht, hn⟩ := this
        subst ht hn
        have hkn := hknown k out ho _ hr
        dsimp only
        unfold erase
        split
        · rename_i hun
          obtain ⟨d, h1, h2, h3⟩ := hkn hun
          exact ⟨s, hr, hun, d, h1, h2, h3⟩
        · rename_i hun
          exact ⟨hr, hun⟩
    · intro hnd
      have hm : marks out n.node = marks (out.map (erase me)) n.node := by
        simp only [marks, Out.map, List.countP_map]
        rfl
      have hle : marks (out.map (erase me)) n.node ≤ (usesAnn ty ++ usesExpr v).count n.node := by
        rw [hget]
        simp only [specItem, specValueItem, marks_append, List.count_append]
        refine Nat.add_le_add (marks_specAnn _ ty _) ?_
        cases name <;> simp only [marks_oDef, marks_nil, Nat.zero_add]
        all_goals exact marks_specExpr _ v _
      have h1 : (usesAnn ty ++ usesExpr v).count n.node ≤ 1 := List.nodup_iff_count.1 hnd _
      have hge : 1 ≤ marks (out.map (erase me)) n.node := by
        rw [hab, marks_append, marks_append]
        have : marks (useName .value .undefVar env' n).2 n.node = 1 := by
          unfold useName
          split <;> simp [marks, oRef, oErr, ErrKind.atUse]
        omega
      omega

/-- **What another file sees under a name is the latest export of that name** in that namespace. -/
theorem exported_name_is_latest {S : Type} (defs : List (Def S)) (ns : NS) (x : String) :
    getExport ns x (collectExports defs) =
      (defs.reverse.find? (fun d => decide (d.vis = .export) && decide (d.text = x) &&
        decide (ns ∈ d.kind.namespaces))).map (fun d => ⟨ns, d.text, d.sym, d.kind⟩) := by
  have key : ∀ (l : List (Def S)),
      getExport ns x (l.foldr (fun d ex =>
        if d.vis = .export then
          d.kind.namespaces.foldl (fun ex ns => ⟨ns, d.text, d.sym, d.kind⟩ :: ex) ex
        else ex) []) =
      (l.find? (fun d => decide (d.vis = .export) && decide (d.text = x) &&
        decide (ns ∈ d.kind.namespaces))).map (fun d => ⟨ns, d.text, d.sym, d.kind⟩) := by
    intro l
    induction l with
    | nil => rfl
    | cons d l ih =>
      rw [List.foldr_cons, List.find?_cons]
      revert ih
      generalize List.foldr _ _ l = ex
      generalize hf : List.find? _ l = fd
      intro ih
      by_cases h1 : d.vis = .export
      · rw [if_pos h1]
        by_cases h2 : d.text = x
        · cases hk : d.kind <;> cases ns <;>
            simp [Kind.namespaces, getExport, h1, h2, ih, hk]
        · cases hk : d.kind <;> simp [Kind.namespaces, getExport, h1, h2, ih]
      · rw [if_neg h1, ih]
        simp [h1]
  have := key defs.reverse
  rwa [List.foldr_reverse] at this

/-! ## Concrete units

`a : int = 1;  export f = \a -> (let a = a; a);  g = match f { C a -> a | D b -> q };`
with nodes numbered as they occur. -/

def exUnit : List Item :=
  [ .valueI false (some ⟨"a", 1⟩) (some .int) .literal,
    .typeI 20 true true (some ⟨"t", 2⟩) []
      [⟨some ⟨"C", 3⟩, [.type .int, .type .int]⟩, ⟨some ⟨"D", 4⟩, [.type .int]⟩],
    .valueI true (some ⟨"f", 5⟩) none
      (.lambda (some ⟨"a", 6⟩)
        (.letE (some ⟨"a", 7⟩) none (.name (some ⟨"a", 8⟩)) (.name (some ⟨"a", 9⟩)))),
    .valueI false (some ⟨"g", 10⟩) none
      (.matchE (.name (some ⟨"f", 11⟩))
        (.cons none (some ⟨"C", 12⟩) [⟨"b", 13⟩, ⟨"a", 14⟩] (.name (some ⟨"a", 15⟩))
        (.cons none (some ⟨"D", 16⟩) [⟨"b", 17⟩] (.binary (.name (some ⟨"a", 18⟩)) (.name (some ⟨"q", 19⟩)))
        .nil))) ]

theorem exUnit_foreign : ∀ i ∈ exUnit, ForeignImports 0 i := by
  intro i hi
  simp only [exUnit, List.mem_cons, List.not_mem_nil, or_false] at hi
  rcases hi with rfl | rfl | rfl | rfl <;> trivial

/-- the value of the inner `let` refers to the lambda parameter (node 6), not to the `let` itself
(node 7) nor to the top-level `a` (node 1) -/
example : ∃ out, (resolveUnit 0 exUnit [{}] 0)[2]? = some out ∧
    Refers 0 (allDefs ((resolveUnit 0 exUnit [{}] 0).take 3)) out 8 (.here 6) ∧
    marks out 8 = 1 := by
  obtain ⟨out, h1, h2, h3⟩ := name_refers_to_innermost 0 exUnit exUnit_foreign 2 true _ none _ rfl
    [⟨"a", 6⟩] ⟨"a", 8⟩ (At.body (bs := []) (At.value (At.here _)))
  exact ⟨out, h1, h2, h3 (by decide)⟩

/-- its body refers to the `let` -/
example : ∃ out, (resolveUnit 0 exUnit [{}] 0)[2]? = some out ∧
    Refers 0 (allDefs ((resolveUnit 0 exUnit [{}] 0).take 3)) out 9 (.here 7) := by
  obtain ⟨out, h1, h2, -⟩ := name_refers_to_innermost 0 exUnit exUnit_foreign 2 true _ none _ rfl
    [⟨"a", 7⟩, ⟨"a", 6⟩] ⟨"a", 9⟩ (At.body (bs := [_]) (At.rest (bs := []) (At.here _)))
  exact ⟨out, h1, h2⟩

/-- in the second case of the `match` the name `a` is the top-level one (node 1), and `q` is undefined -/
example : ∃ out, (resolveUnit 0 exUnit [{}] 0)[3]? = some out ∧
    Refers 0 (allDefs ((resolveUnit 0 exUnit [{}] 0).take 4)) out 18 (.here 1) ∧
    ⟨.undefVar, 19⟩ ∈ out.errs := by
  obtain ⟨out, h1, h2, -⟩ := name_refers_to_innermost 0 exUnit exUnit_foreign 3 false _ none _ rfl
    [⟨"b", 17⟩] ⟨"a", 18⟩ (At.case (bs := []) (vars := [⟨"b", 17⟩]) (Or.inr (Or.inl ⟨rfl, rfl⟩)) (At.lhs (At.here _)))
  obtain ⟨out', h1', h2', -⟩ := name_refers_to_innermost 0 exUnit exUnit_foreign 3 false _ none _ rfl
    [⟨"b", 17⟩] ⟨"q", 19⟩ (At.case (bs := []) (vars := [⟨"b", 17⟩]) (Or.inr (Or.inl ⟨rfl, rfl⟩)) (At.rhs (At.here _)))
  rw [h1] at h1'
  cases h1'
  exact ⟨out, h1, h2, h2'⟩

/-- A type declaration without a name still defines its constructors, whose type symbol no definition
has (`resolve.rs:170-190`): looking that symbol up later (`DefSet::lookup`, `compiler.rs`) panics. -/
theorem nameless_type_leaves_dangling_symbol :
    ∃ (items : List Item) (d : Def Sym) (t : Sym) (ps : List Sym) (fs : List (Field Sym)) (ft : RTy Sym),
      d ∈ allDefs (resolveUnit 0 items [{}] 0) ∧ d.kind = .ctor t ps fs ft ∧ t.unit = 0 ∧
      ∀ d' ∈ allDefs (resolveUnit 0 items [{}] 0), d'.sym ≠ t := by
  refine ⟨[.typeI 0 false false none [] [⟨some ⟨"A", 1⟩, []⟩]], ?_⟩
  refine ⟨_, _, _, _, _, List.mem_singleton.2 rfl, rfl, rfl, ?_⟩
  intro d' hd'
  rw [List.mem_singleton.1 hd']
  decide

end Tic.Resolve
