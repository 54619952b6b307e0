import Verif.TypeckSol
import Verif.PropMatchck
/-
The type checker is sound: without diagnostics, the types it found are a typing by the rules of
`Verif.Typing`.
-/
namespace Tic.Front
open Tic.Unify

/-! ### What name resolution and kind checking guarantee -/

mutual
/-- The expression is resolved: every name is in scope (`dom`), binders have their own entries in
the checker's tables, constructors in patterns are constructors, declared types are well formed
and their own type variables are new.  (`resolve.rs`; `vs` are the type variables in scope.) -/
def Resolved (Δ : List TypeDecl) (T : Tables) : List Symbol → List Symbol → Ex Unit → Prop
  | dom, _, .name s inst => inst = [] ∧ s ∈ dom
  | dom, vs, .apply f a => Resolved Δ T dom vs f ∧ Resolved Δ T dom vs a
  | dom, vs, .binary _ l r => Resolved Δ T dom vs l ∧ Resolved Δ T dom vs r
  | dom, vs, .pipe l r => Resolved Δ T dom vs l ∧ Resolved Δ T dom vs r
  | dom, vs, .let_ s vars ann _ v rest =>
    (∀ x ∈ vars, x ∉ vs ∧ declOf Δ x = none) ∧
    (∀ a, ann = some a → T.names s = some (.inst ⟨vars, a⟩) ∧ WfTy Δ (vars ++ vs) a) ∧
    (ann = none → vars = [] ∧ ∃ i, T.names s = some (.infer i)) ∧
    Resolved Δ T dom (vars ++ vs) v ∧ Resolved Δ T (s :: dom) vs rest
  | dom, vs, .match_ d _ cases => Resolved Δ T dom vs d ∧ ResolvedCases Δ T dom vs cases
  | dom, vs, .ite c a b => Resolved Δ T dom vs c ∧ Resolved Δ T dom vs a ∧ Resolved Δ T dom vs b
  | _, _, .bool _ => True
  | _, _, .number _ => True
  | _, _, .str _ => True
  | dom, vs, .lambda _ p _ _ body => (∃ i, T.names p = some (.infer i)) ∧ Resolved Δ T (p :: dom) vs body
  | dom, vs, .paren e => Resolved Δ T dom vs e
  | _, _, .hole _ _ => True
/-- ... for match cases. -/
def ResolvedCases (Δ : List TypeDecl) (T : Tables) : List Symbol → List Symbol → List (Case Unit) → Prop
  | _, _, [] => True
  | dom, vs, .mk c pvs body :: cs => (∃ d, T.ctors c = some d) ∧ (∀ p ∈ pvs, ∃ i, T.names p.1 = some (.infer i)) ∧
      Resolved Δ T ((pvs.map (·.1)).reverse ++ dom) vs body ∧ ResolvedCases Δ T dom vs cs
end

/-- The checker's tables agree with the declarations: schemes are well formed, constructors are
those of the declared types. -/
structure TabOK (Δ : List TypeDecl) (T : Tables) : Prop where
  inst : ∀ s sch, T.names s = some (.inst sch) → (∀ v ∈ sch.vars, declOf Δ v = none) ∧ ∃ vs, WfTy Δ vs sch.ty
  ctor : ∀ c d, T.ctors c = some d → ∃ decl, declOf Δ d.tySym = some decl ∧ decl.vars = d.vars ∧ (c, d.fields) ∈ decl.ctors ∧
    (∀ v ∈ d.vars, declOf Δ v = none) ∧ ∀ t, Field.ty t ∈ d.fields → WfTy Δ d.vars t

/-- The variables of inferred names exist. -/
def InferOK (T : Tables) (u : Unifier) (ar : Nat → Nat) : Prop := ∀ s i, T.names s = some (.infer i) → Typ u ar i

theorem InferOK.step {T count st ar st' ar'} (h : InferOK T st.u ar) (e : Step count st ar st' ar') : InferOK T st'.u ar' :=
  fun s i hi => e.evo.typ (h s i hi)

/-- The type an index stands for. -/
def U (θ : Nat → Term) (i : Nat) : IrTy := Tm.ty (θ i)

/-- The context agrees with the checker's tables. -/
structure CtxOK (T : Tables) (θ : Nat → Term) (dom : List Symbol) (Γ : Ctx) : Prop where
  entry : ∀ s sch, Γ.find s = some sch → T.names s = some (.inst sch) ∨ ∃ i, T.names s = some (.infer i) ∧ sch = mono (U θ i)
  dom : ∀ s ∈ dom, ∃ sch, Γ.find s = some sch

theorem CtxOK.cons {T θ dom Γ s sch} (h : CtxOK T θ dom Γ)
    (hs : T.names s = some (.inst sch) ∨ ∃ i, T.names s = some (.infer i) ∧ sch = mono (U θ i)) :
    CtxOK T θ (s :: dom) ((s, sch) :: Γ) := by
  constructor
  · intro k c hk
    simp only [Ctx.find] at hk
    split at hk
    · rename_i he; cases hk; subst he; exact hs
    · exact h.entry k c hk
  · intro k hk
    simp only [Ctx.find]
    split
    · exact ⟨_, rfl⟩
    · rename_i hne
      rcases List.mem_cons.mp hk with rfl | hk
      · exact absurd rfl hne
      · exact h.dom k hk

theorem CtxOK.append {T θ dom Γ} (h : CtxOK T θ dom Γ) : ∀ (pvs : List (Symbol × IrTy)),
    (∀ p ∈ pvs, ∃ i, T.names p.1 = some (.infer i) ∧ p.2 = U θ i) →
    CtxOK T θ (pvs.map (·.1) ++ dom) ((pvs.map fun p => (p.1, mono p.2)) ++ Γ)
  | [], _ => h
  | p :: pvs, hp => by
    obtain ⟨i, h1, h2⟩ := hp p (by simp)
    exact CtxOK.cons (CtxOK.append h pvs fun q hq => hp q (by simp [hq])) (.inr ⟨i, h1, by rw [h2]⟩)

/-! ### Conditions on the result -/

/-- The conditions of `NoEscape`, `NoNestedFold` and `Covered` at one node. -/
def NodeOK (Δ : List TypeDecl) (vs : List Symbol) (n : Ex IrTy) : Prop :=
  (∀ t ∈ annots n, ∀ s ∈ tySyms t, s ∈ ownVars n ++ vs ∨ (declOf Δ s).isSome) ∧
  (∀ q pty fty body a b, n = .lambda true q pty fty body → pty = .folded a b → IrTy.isFolded a = false) ∧
  (∀ d dty cases, n = .match_ d dty cases → (Matchck.check (scrutinee Δ dty) (cases.map fun c => some c.ctor)).1 = [])

/-- ... at all nodes. -/
def Sane (Δ : List TypeDecl) (vs : List Symbol) (e : Ex IrTy) : Prop := ∀ p ∈ nodes vs e, NodeOK Δ p.1 p.2

/-- ... in match cases. -/
def SaneCases (Δ : List TypeDecl) (vs : List Symbol) (cs : List (Case IrTy)) : Prop := ∀ p ∈ caseNodes vs cs, NodeOK Δ p.1 p.2

mutual
theorem nodes_snd : ∀ (e : Ex IrTy) (vs ws : List Symbol), (nodes vs e).map (·.2) = (nodes ws e).map (·.2)
  | .name .., _, _ => rfl
  | .apply f a, vs, ws => by simp [nodes, nodes_snd f vs ws, nodes_snd a vs ws]
  | .binary _ f a, vs, ws => by simp [nodes, nodes_snd f vs ws, nodes_snd a vs ws]
  | .pipe f a, vs, ws => by simp [nodes, nodes_snd f vs ws, nodes_snd a vs ws]
  | .let_ _ vars _ _ v r, vs, ws => by simp [nodes, nodes_snd v (vars ++ vs) (vars ++ ws), nodes_snd r vs ws]
  | .match_ d _ cs, vs, ws => by simp [nodes, nodes_snd d vs ws, caseNodes_snd cs vs ws]
  | .ite c a b, vs, ws => by simp [nodes, nodes_snd c vs ws, nodes_snd a vs ws, nodes_snd b vs ws]
  | .bool _, _, _ => rfl
  | .number _, _, _ => rfl
  | .str _, _, _ => rfl
  | .lambda _ _ _ _ b, vs, ws => by simp [nodes, nodes_snd b vs ws]
  | .paren b, vs, ws => by simp [nodes, nodes_snd b vs ws]
  | .hole .., _, _ => rfl
theorem caseNodes_snd : ∀ (cs : List (Case IrTy)) (vs ws : List Symbol), (caseNodes vs cs).map (·.2) = (caseNodes ws cs).map (·.2)
  | [], _, _ => rfl
  | .mk _ _ b :: cs, vs, ws => by simp [caseNodes, nodes_snd b vs ws, caseNodes_snd cs vs ws]
end

theorem sane_of {Δ vs e} (h1 : NoEscape Δ vs e) (h2 : NoNestedFold e) (h3 : Covered Δ e) : Sane Δ vs e := by
  intro p hp
  have : p.2 ∈ (nodes [] e).map (·.2) := by rw [nodes_snd e [] vs]; exact List.mem_map.mpr ⟨p, hp, rfl⟩
  obtain ⟨q, hq, he⟩ := List.mem_map.mp this
  refine ⟨h1 p hp, fun x pty fty body a b hn => ?_, fun d dty cases hn => ?_⟩
  · exact h2 q hq x pty fty body a b (by rw [he, hn])
  · exact h3 q hq d dty cases (by rw [he, hn])

/-! ### Instantiating names -/

mutual
theorem substTy_nil : ∀ t, substTy [] t = t
  | .named s args => by simp [substTy, findTy, substTys_nil args]
  | .fn a b => by simp [substTy, substTy_nil a, substTy_nil b]
  | .folded a b => by simp [substTy, substTy_nil a, substTy_nil b]
  | .int => rfl
  | .bool => rfl
  | .str => rfl
  | .error => rfl
  | .infer => rfl
theorem substTys_nil : ∀ ts, substTys [] ts = ts
  | [] => rfl
  | t :: ts => by simp [substTys, substTy_nil t, substTys_nil ts]
end

theorem step_instName {Δ : List TypeDecl} {T : Tables} {st ar s} (hT : TabOK Δ T) (h : Good (arity Δ) st.u ar) (hI : InferOK T st.u ar)
    (hs : ∃ nt, T.names s = some nt) :
    ∃ ar', Step (arity Δ) st ar (instName T st s).1 ar' ∧ Typ (instName T st s).1.u ar' (instName T st s).2.1 ∧
      (∀ i ∈ (instName T st s).2.2, Typ (instName T st s).1.u ar' i) ∧
      (∀ i, T.names s = some (.infer i) → (instName T st s).2.1 = i ∧ (instName T st s).2.2 = []) ∧
      (∀ sch, T.names s = some (.inst sch) → (instName T st s).2.2.length = sch.vars.length ∧
        ∀ θ, Sat (instName T st s).1.u θ →
          U θ (instName T st s).2.1 = substTy (sch.vars.zip ((instName T st s).2.2.map (U θ))) sch.ty) := by
  obtain ⟨nt, hnt⟩ := hs
  unfold instName
  rw [hnt]
  cases nt with
  | infer i =>
    refine ⟨ar, .refl h, hI s i hnt, by simp, ?_, by simp⟩
    intro j hj; cases hj; exact ⟨rfl, rfl⟩
  | inst sch =>
    obtain ⟨hv, vs, hw⟩ := hT.inst s sch hnt
    obtain ⟨a1, s1, v1⟩ := step_freshAll sch.vars h hv
    obtain ⟨a2, s2, t2, p2⟩ := step_inst s1.evo.good v1 hw
    refine ⟨a2, s1.trans s2, t2, ?_, by simp, ?_⟩
    · intro i hi
      obtain ⟨p, hp, rfl⟩ := List.mem_map.mp hi
      exact s2.evo.typ (v1 p hp).2
    · intro sch' hsch
      cases hsch
      have hl : (st.freshAll sch.vars).2.length = sch.vars.length := by
        have := congrArg List.length (freshAll_fst sch.vars st); simpa using this
      refine ⟨by simpa using hl, fun θ hθ => ?_⟩
      have := p2 θ hθ
      rw [freshAll_fst] at this
      simp only [U, List.map_map]
      rw [this]
      rfl

theorem declOf_sym {Δ : List TypeDecl} {s d} (h : declOf Δ s = some d) : d.sym = s := by
  have := List.find?_some h
  simpa using this

/-- Typing the pattern variables. -/
theorem step_checkVars {Δ : List TypeDecl} {T : Tables} {n vars} {inst : List (Symbol × Nat)} {recTy : Nat} (hT : TabOK Δ T) :
    ∀ (vs : List (Symbol × Unit)) (fs : List Field) {st ar r}, Good (arity Δ) st.u ar → InferOK T st.u ar → VarsOK Δ st.u ar inst →
    inst.map (·.1) = vars → Typ st.u ar recTy → (∀ t, Field.ty t ∈ fs → WfTy Δ vars t) → (∀ p ∈ vs, ∃ i, T.names p.1 = some (.infer i)) →
    vs.length = fs.length → checkVars n T inst recTy vs fs st = some r →
    ∃ ar', Step (arity Δ) st ar r.1 ar' ∧ (∀ p ∈ r.2, T.names p.1 = some (.infer p.2)) ∧ (r.2.map fun p => (p.1, ())) = vs ∧
      (r.1.diags = [] → ∀ θ, Sol (arity Δ) r.1.u ar' θ →
        r.2.map (fun p => U θ p.2) = fs.map (fieldTy vars (inst.map fun p => U θ p.2) (U θ recTy)))
  | [], [], st, ar, r, h, _, _, _, _, _, _, _, hc => by
    simp only [checkVars, Option.some.injEq] at hc
    subst hc
    exact ⟨ar, .refl h, by simp, rfl, by simp⟩
  | [], _ :: _, _, _, _, _, _, _, _, _, _, _, hl, _ => by simp at hl
  | _ :: _, [], _, _, _, _, _, _, _, _, _, _, hl, _ => by simp at hl
  | (v, ()) :: vs, f :: fs, st, ar, r, h, hI, hV, hvars, hr, hf, hn, hl, hc => by
    obtain ⟨i, hi⟩ := hn (v, ()) (by simp)
    have he : instName T st v = (st, i, []) := by simp only [instName, hi]
    have hti := hI v i hi
    -- the type of the field
    obtain ⟨a1, s1, t1, p1⟩ : ∃ a1, Step (arity Δ) st ar (match f with | .rec_ => (st, recTy) | .ty t => st.inst inst t).1 a1 ∧
        Typ (match f with | .rec_ => (st, recTy) | .ty t => st.inst inst t).1.u a1 (match f with | .rec_ => (st, recTy) | .ty t => st.inst inst t).2 ∧
        ∀ θ, Sat (match f with | .rec_ => (st, recTy) | .ty t => st.inst inst t).1.u θ →
          U θ (match f with | .rec_ => (st, recTy) | .ty t => st.inst inst t).2 = fieldTy vars (inst.map fun p => U θ p.2) (U θ recTy) f := by
      cases f with
      | rec_ => exact ⟨ar, .refl h, hr, fun θ _ => rfl⟩
      | ty t =>
        obtain ⟨a1, s1, t1, p1⟩ := step_inst (vs := vars) (ty := t) h hV (hf t (by simp))
        refine ⟨a1, s1, t1, fun θ hθ => ?_⟩
        have := p1 θ hθ
        rw [hvars] at this
        exact this
    simp only [checkVars, he, Option.bind_eq_some_iff, Option.map_eq_some_iff] at hc
    obtain ⟨st2, hu, rs, hrs, rfl⟩ := hc
    obtain ⟨s2, p2⟩ := step_unify s1.evo.good t1.1 (s1.evo.typ hti).1 (by rw [t1.2, (s1.evo.typ hti).2]) hu
    have s12 := s1.trans s2
    obtain ⟨a3, s3, n3, e3, p3⟩ := step_checkVars hT vs fs s2.evo.good (hI.step s12) (hV.evo s12.evo) hvars (s12.evo.typ hr)
      (fun t ht => hf t (by simp [ht])) (fun p hp => hn p (by simp [hp])) (by simpa using hl) hrs
    refine ⟨a3, s12.trans s3, ?_, by simp [e3], fun hd θ hθ => ?_⟩
    · intro p hp
      rcases List.mem_cons.mp hp with rfl | hp
      · exact hi
      · exact n3 p hp
    · have hθ2 := s3.evo.sol hθ
      have hq := p2 (s3.quiet hd) θ hθ2
      have h1 := p1 θ (s2.evo.sol hθ2).sat
      simp only [List.map_cons]
      rw [p3 hd θ hθ, ← h1]
      simp only [U, hq]

/-- What a normalized type says about solutions. -/
theorem normalize_sat {n u i t} (h : normalize n u i = some (some t)) :
    ∃ j, u.get j = some (.ty t) ∧ ∀ θ, Sat u θ → θ i = θ j := by
  simp only [normalize, Option.bind_eq_some_iff] at h
  obtain ⟨j, hj, h⟩ := h
  have F := finalIdx_spec hj
  split at h
  · rename_i t' hg
    simp only [Option.some.injEq] at h
    subst h
    exact ⟨j, hg, F.eq⟩
  · cases h
  · cases h

/-- What checking an expression guarantees. -/
def PostE (Δ : List TypeDecl) (T : Tables) (e : Ex Unit) (dom vs : List Symbol) (x : Nat) (r : TcSt × Ex Nat) (ar' : Nat → Nat) : Prop :=
  r.1.diags = [] → r.2.erase = e ∧ ∀ θ, Sol (arity Δ) r.1.u ar' θ → ∀ Γ, CtxOK T θ dom Γ → Sane Δ vs (r.2.map (U θ)) →
    HasTy Δ vs Γ (r.2.map (U θ)) (U θ x)

/-- What checking the cases of a match guarantees. -/
def PostC (Δ : List TypeDecl) (T : Tables) (cs : List (Case Unit)) (dom vs : List Symbol) (primary recTy x : Nat)
    (r : TcSt × List (Case Nat)) (ar' : Nat → Nat) : Prop :=
  r.1.diags = [] → casesErase r.2 = cs ∧ ∀ θ, Sol (arity Δ) r.1.u ar' θ → ∀ Γ, CtxOK T θ dom Γ → SaneCases Δ vs (casesMap (U θ) r.2) →
    (cs ≠ [] → ∃ s args, U θ primary = .named s args) ∧
    ∀ decl args, declOf Δ decl.sym = some decl → U θ primary = .named decl.sym args →
      HasCases Δ vs Γ decl args (U θ recTy) (casesMap (U θ) r.2) (U θ x)

theorem sane_wf {Δ : List TypeDecl} {vs θ u ar i n} (hn : NodeOK Δ vs n) (ha : U θ i ∈ annots n) (hs : Sol (arity Δ) u ar θ) (ht : Typ u ar i) :
    WfTy Δ (ownVars n ++ vs) (U θ i) := by
  have := hs.wk i ht.1
  rw [ht.2] at this
  exact wfTy_of this rfl (hn.1 _ ha)

theorem wfTys_of_forall {Δ : List TypeDecl} {vs} : ∀ {ts : List IrTy}, (∀ t ∈ ts, WfTy Δ vs t) → WfTys Δ vs ts
  | [], _ => trivial
  | _ :: _, h => ⟨h _ (by simp), wfTys_of_forall fun t ht => h t (by simp [ht])⟩

theorem casesMap_ctor {α β : Type} (f : α → β) : ∀ cs : List (Case α), (casesMap f cs).map (·.ctor) = cs.map (·.ctor)
  | [] => rfl
  | .mk c vs e :: cs => by
    show c :: (casesMap f cs).map (·.ctor) = c :: cs.map (·.ctor)
    rw [casesMap_ctor f cs]

/-- The match checker's verdict in terms of the scrutinee's type. -/
theorem covered_shape {Δ : List TypeDecl} {dty : IrTy} {cases : List (Case IrTy)} {count k t} (hk : WK count k t) (he : dty = Tm.ty t)
    (h : (Matchck.check (scrutinee Δ dty) (cases.map fun c => some c.ctor)).1 = []) :
    ∃ decl args, declOf Δ decl.sym = some decl ∧ (dty = .named decl.sym args ∨ ∃ r, dty = .folded (.named decl.sym args) r) ∧
      ∀ c ∈ decl.ctors, ∃ k ∈ cases, k.ctor = c.1 := by
  have cover : ∀ decl : TypeDecl, (∀ c ∈ decl.ctors.map (·.1), (cases.map fun c => some c.ctor).count (some c) = 1) →
      ∀ c ∈ decl.ctors, ∃ k ∈ cases, k.ctor = c.1 := by
    intro decl hc c hm
    have h1 := hc c.1 (List.mem_map.mpr ⟨c, hm, rfl⟩)
    have : some c.1 ∈ cases.map fun c => some c.ctor := List.count_pos_iff.mp (by omega)
    obtain ⟨k, hk, he⟩ := List.mem_map.mp this
    exact ⟨k, hk, by simpa using he⟩
  rcases Matchck.silent_cases _ _ h with h1 | h1 | h1 | ⟨all, h1, h2⟩
  · exfalso
    unfold scrutinee at h1
    split at h1 <;> try (split at h1 <;> cases h1)
    · cases t with
      | folded a b =>
        simp only [Tm.ty, IrTy.folded.injEq] at he
        cases a <;> simp only [Tm.ty, reduceCtorEq, false_and] at he
        · have := hk.2.1.1
          split at he
          · cases he.1
          · have hx := (WK.ty hk.2.1.1).2
            rcases hx with ⟨s, xs, hx, -⟩ | hx
            · rename_i hno; exact hno _ _ hx
            · cases hx
        · exact hk.2.1
      | apply a b =>
        rcases (WK.ty hk).2 with ⟨s, xs, hx, -⟩ | h0
        · rw [hx] at he; cases he
        · rcases (WK.ty hk.1).2 with ⟨s, xs, hx, -⟩ | h0
          · simp only [Tm.ty, hx] at he; cases he
          · cases h0
      | _ => simp [Tm.ty] at he
    · cases t with
      | error => exact hk
      | apply a b =>
        rcases (WK.ty hk.1).2 with ⟨s, xs, hx, -⟩ | h0
        · simp only [Tm.ty, hx] at he; cases he
        · cases h0
      | _ => simp [Tm.ty] at he
    · cases h1
  · exfalso
    unfold scrutinee at h1
    split at h1 <;> first | cases h1 | (split at h1 <;> cases h1)
  · simp at h1
  · unfold scrutinee at h1
    split at h1
    · rename_i s args
      split at h1
      · rename_i d hd
        cases h1
        have := declOf_sym hd
        subst this
        exact ⟨d, args, hd, .inl rfl, cover d h2⟩
      · cases h1
    · rename_i s args r
      split at h1
      · rename_i d hd
        cases h1
        have := declOf_sym hd
        subst this
        exact ⟨d, args, hd, .inr ⟨r, rfl⟩, cover d h2⟩
      · cases h1
    · cases h1
    · cases h1
    · cases h1

theorem sane_sub {Δ vs ws} {e c : Ex IrTy} (h : Sane Δ vs e) (hs : ∀ p ∈ nodes ws c, p ∈ nodes vs e) : Sane Δ ws c :=
  fun p hp => h p (hs p hp)

theorem Good.st {count st ar st' ar'} (s : Step count st ar st' ar') : Good count st'.u ar' := s.evo.good

mutual
/-- The type checker is sound, expression by expression. -/
theorem check_sound {Δ : List TypeDecl} {T : Tables} {n : Nat} (hT : TabOK Δ T) : ∀ (e : Ex Unit) {dom vs x st ar r},
    Good (arity Δ) st.u ar → InferOK T st.u ar → Typ st.u ar x → (∀ s ∈ dom, ∃ nt, T.names s = some nt) →
    Resolved Δ T dom vs e → check n T e x st = some r →
    ∃ ar', Step (arity Δ) st ar r.1 ar' ∧ PostE Δ T e dom vs x r ar'
  | .name s inst, dom, vs, x, st, ar, r, h, hI, hx, hd, hR, hc => by
    obtain ⟨rfl, hs⟩ := hR
    simp only [check, Option.map_eq_some_iff] at hc
    obtain ⟨st2, hu, rfl⟩ := hc
    obtain ⟨a1, s1, t1, ti, q1, p1⟩ := step_instName hT h hI (hd s hs)
    obtain ⟨s2, p2⟩ := step_unify s1.evo.good (s1.evo.typ hx).1 t1.1 (by rw [(s1.evo.typ hx).2, t1.2]) hu
    refine ⟨a1, s1.trans s2, fun hq => ⟨rfl, fun θ hθ Γ hΓ hS => ?_⟩⟩
    have hθ1 := s2.evo.sol hθ
    have hxe : U θ x = U θ (instName T st s).2.1 := by simp only [U, p2 hq θ hθ]
    have hwf : WfTys Δ vs ((instName T st s).2.2.map (U θ)) := by
      refine wfTys_of_forall fun t ht => ?_
      obtain ⟨i, hi, rfl⟩ := List.mem_map.mp ht
      exact sane_wf (n := .name s ((instName T st s).2.2.map (U θ))) (hS (vs, _) (by simp [Ex.map, nodes])) (List.mem_map.mpr ⟨i, hi, rfl⟩) hθ1 (ti i hi)
    obtain ⟨sch, hsch⟩ := hΓ.dom s hs
    refine ⟨sch, hsch, ?_⟩
    rcases hΓ.entry s sch hsch with hn | ⟨i, hn, rfl⟩
    · obtain ⟨hl, hp⟩ := p1 sch hn
      exact ⟨by simpa using hl, hwf, by rw [hxe, hp θ hθ1.sat]⟩
    · obtain ⟨h1, h2⟩ := q1 i hn
      refine ⟨by simp [h2, mono], hwf, ?_⟩
      rw [hxe, h1]
      simp [mono, substTy_nil]
  | .apply f e, dom, vs, x, st, ar, r, h, hI, hx, hd, hR, hc => by
    simp only [check, Option.bind_eq_some_iff, Option.map_eq_some_iff] at hc
    obtain ⟨rf, hf, re, he, st2, hu, rfl⟩ := hc
    obtain ⟨a1, s1, t1⟩ := step_fresh h
    obtain ⟨a2, s2, t2⟩ := step_fresh s1.evo.good
    obtain ⟨a3, s3, t3, p3⟩ := step_fn s2.evo.good (s2.evo.typ t1) t2
    have s13 := (s1.trans s2).trans s3
    obtain ⟨a4, s4, p4⟩ := check_sound hT f s3.evo.good (hI.step s13) t3 hd hR.1 hf
    obtain ⟨a5, s5, p5⟩ := check_sound hT e s4.evo.good (hI.step (s13.trans s4)) (s4.evo.typ (s3.evo.typ (s2.evo.typ t1))) hd hR.2 he
    have s35 := s3.trans (s4.trans s5)
    have tb := s35.evo.typ t2
    have tx := (s13.trans (s4.trans s5)).evo.typ hx
    obtain ⟨s6, p6⟩ := step_unify s5.evo.good tx.1 tb.1 (by rw [tx.2, tb.2]) hu
    refine ⟨a5, (s13.trans (s4.trans s5)).trans s6, fun hq => ?_⟩
    have q5 := s6.quiet hq
    have q4 := s5.quiet q5
    refine ⟨by simp [Ex.erase, (p4 q4).1, (p5 q5).1], fun θ hθ Γ hΓ hS => ?_⟩
    have hθ5 := s6.evo.sol hθ
    have hθ4 := s5.evo.sol hθ5
    have h1 := (p4 q4).2 θ hθ4 Γ hΓ (sane_sub hS (by intro p hp; simp [Ex.map, nodes, hp]))
    have h2 := (p5 q5).2 θ hθ5 Γ hΓ (sane_sub hS (by intro p hp; simp [Ex.map, nodes, hp]))
    refine ⟨_, ?_, h2⟩
    have hx' := p6 hq θ hθ
    have hfn := p3 θ (s4.evo.sol hθ4).sat
    simp only [U, hfn, Tm.ty] at h1 ⊢
    rw [hx']
    exact h1
  | .binary o l e, dom, vs, x, st, ar, r, h, hI, hx, hd, hR, hc => by
    simp only [check, Option.bind_eq_some_iff] at hc
    obtain ⟨rl, hl, rr, hr, hc⟩ := hc
    obtain ⟨a1, s1, t1, p1⟩ := step_base h .int (.inl rfl)
    obtain ⟨a2, s2, p2⟩ := check_sound hT l s1.evo.good (hI.step s1) t1 hd hR.1 hl
    obtain ⟨a3, s3, p3⟩ := check_sound hT e s2.evo.good (hI.step (s1.trans s2)) (s2.evo.typ t1) hd hR.2 hr
    have s23 := s2.trans s3
    have s13 := s1.trans s23
    have key : ∀ {st' : TcSt} {a'}, Step (arity Δ) rr.1 a3 st' a' → st'.diags = [] →
        (Ex.binary o rl.2 rr.2).erase = .binary o l e ∧ ∀ θ, Sol (arity Δ) st'.u a' θ → ∀ Γ, CtxOK T θ dom Γ →
          Sane Δ vs ((Ex.binary o rl.2 rr.2).map (U θ)) →
          HasTy Δ vs Γ (rl.2.map (U θ)) .int ∧ HasTy Δ vs Γ (rr.2.map (U θ)) .int := by
      intro st' a' s4 hq
      have q3 := s4.quiet hq
      have q2 := s3.quiet q3
      refine ⟨by simp [Ex.erase, (p2 q2).1, (p3 q3).1], fun θ hθ Γ hΓ hS => ?_⟩
      have hθ3 := s4.evo.sol hθ
      have hθ2 := s3.evo.sol hθ3
      have h1 := (p2 q2).2 θ hθ2 Γ hΓ (sane_sub hS (by intro p hp; simp [Ex.map, nodes, hp]))
      have h2 := (p3 q3).2 θ hθ3 Γ hΓ (sane_sub hS (by intro p hp; simp [Ex.map, nodes, hp]))
      have hi := p1 θ (s2.evo.sol hθ2).sat
      simp only [U, hi, Ty.under, Tm.ty] at h1 h2
      exact ⟨h1, h2⟩
    split at hc
    · rename_i hres
      simp only [Option.map_eq_some_iff] at hc
      obtain ⟨st2, hu, rfl⟩ := hc
      have tx := s13.evo.typ hx
      have ti := s23.evo.typ t1
      obtain ⟨s4, p4⟩ := step_unify s3.evo.good tx.1 ti.1 (by rw [tx.2, ti.2]) hu
      refine ⟨a3, s13.trans s4, fun hq => ⟨(key s4 hq).1, fun θ hθ Γ hΓ hS => ?_⟩⟩
      obtain ⟨h1, h2⟩ := (key s4 hq).2 θ hθ Γ hΓ hS
      refine ⟨h1, h2, ?_⟩
      have hi := p1 θ (s23.evo.sol (s4.evo.sol hθ)).sat
      have hx' := p4 hq θ hθ
      have : opTy o = .int := by cases o <;> simp_all [resultTy, opTy]
      simp only [U, hx', hi, Ty.under, Tm.ty, this]
    · rename_i hres
      simp only [Option.map_eq_some_iff] at hc
      obtain ⟨st2, hu, rfl⟩ := hc
      obtain ⟨a4, s4, t4, p4⟩ := step_base s3.evo.good .bool (.inr (.inl rfl))
      have tx := (s13.trans s4).evo.typ hx
      obtain ⟨s5, p5⟩ := step_unify s4.evo.good tx.1 t4.1 (by rw [tx.2, t4.2]) hu
      refine ⟨a4, (s13.trans s4).trans s5, fun hq => ⟨(key (s4.trans s5) hq).1, fun θ hθ Γ hΓ hS => ?_⟩⟩
      obtain ⟨h1, h2⟩ := (key (s4.trans s5) hq).2 θ hθ Γ hΓ hS
      refine ⟨h1, h2, ?_⟩
      have hb := p4 θ (s5.evo.sol hθ).sat
      have hx' := p5 hq θ hθ
      have : opTy o = .bool := by cases o <;> simp_all [resultTy, opTy]
      simp only [U, hx', hb, Ty.under, Tm.ty, this]
  | .pipe l e, dom, vs, x, st, ar, r, h, hI, hx, hd, hR, hc => by
    simp only [check, Option.bind_eq_some_iff, Option.map_eq_some_iff] at hc
    obtain ⟨rl, hl, rr, hr, st2, hu, rfl⟩ := hc
    obtain ⟨a1, s1, t1⟩ := step_fresh h
    obtain ⟨a2, s2, p2⟩ := check_sound hT l s1.evo.good (hI.step s1) t1 hd hR.1 hl
    obtain ⟨a3, s3, t3⟩ := step_fresh s2.evo.good
    obtain ⟨a4, s4, t4, p4⟩ := step_fn s3.evo.good (s3.evo.typ (s2.evo.typ t1)) t3
    have s14 := ((s1.trans s2).trans s3).trans s4
    obtain ⟨a5, s5, p5⟩ := check_sound hT e s4.evo.good (hI.step s14) t4 hd hR.2 hr
    have tb := (s4.trans s5).evo.typ t3
    have tx := (s14.trans s5).evo.typ hx
    obtain ⟨s6, p6⟩ := step_unify s5.evo.good tx.1 tb.1 (by rw [tx.2, tb.2]) hu
    refine ⟨a5, (s14.trans s5).trans s6, fun hq => ?_⟩
    have q5 := s6.quiet hq
    have q2 := (s3.trans (s4.trans s5)).quiet q5
    refine ⟨by simp [Ex.erase, (p2 q2).1, (p5 q5).1], fun θ hθ Γ hΓ hS => ?_⟩
    have hθ5 := s6.evo.sol hθ
    have hθ2 := (s3.trans (s4.trans s5)).evo.sol hθ5
    have h1 := (p2 q2).2 θ hθ2 Γ hΓ (sane_sub hS (by intro p hp; simp [Ex.map, nodes, hp]))
    have h2 := (p5 q5).2 θ hθ5 Γ hΓ (sane_sub hS (by intro p hp; simp [Ex.map, nodes, hp]))
    refine ⟨_, h1, ?_⟩
    have hx' := p6 hq θ hθ
    have hfn := p4 θ (s5.evo.sol hθ5).sat
    simp only [U, hfn, Tm.ty] at h2 ⊢
    rw [hx']
    exact h2
  | .let_ s vars ann u v rest, dom, vs, x, st, ar, r, h, hI, hx, hd, hR, hc => by
    obtain ⟨hfresh, hann, hinf, hRv, hRr⟩ := hR
    simp only [check, Option.bind_eq_some_iff, Option.map_eq_some_iff] at hc
    obtain ⟨rv, hv, rr, hr, rfl⟩ := hc
    obtain ⟨a1, s1, t1, p1⟩ : ∃ a1, Step (arity Δ) st ar (opaqueName T st s).1 a1 ∧ Typ (opaqueName T st s).1.u a1 (opaqueName T st s).2 ∧
        ∀ θ, Sat (opaqueName T st s).1.u θ → (∀ a, ann = some a → U θ (opaqueName T st s).2 = a) ∧
          (T.names s = some (.inst ⟨vars, U θ (opaqueName T st s).2⟩) ∨
            ∃ i, T.names s = some (.infer i) ∧ (⟨vars, U θ (opaqueName T st s).2⟩ : Scheme) = mono (U θ i)) := by
      cases ann with
      | some a =>
        obtain ⟨hn, hw⟩ := hann a rfl
        obtain ⟨a1, s1, t1, p1⟩ := step_inst (vars := []) (ty := a) h (by simp [VarsOK]) hw
        refine ⟨a1, by simpa only [opaqueName, hn] using s1, by simpa only [opaqueName, hn] using t1, ?_⟩
        simp only [opaqueName, hn]
        intro θ hθ
        have := p1 θ hθ
        simp only [List.map_nil, List.zip_nil_left, substTy_nil] at this
        refine ⟨fun a' ha' => by cases ha'; exact this, .inl ?_⟩
        simp only [U, this]
      | none =>
        obtain ⟨rfl, i, hn⟩ := hinf rfl
        refine ⟨ar, by simpa only [opaqueName, hn] using Step.refl h, by simpa only [opaqueName, hn] using hI s i hn, ?_⟩
        simp only [opaqueName, hn]
        exact fun θ hθ => ⟨fun a ha => (nomatch ha), .inr ⟨i, rfl, rfl⟩⟩
    obtain ⟨a2, s2, p2⟩ := check_sound hT v s1.evo.good (hI.step s1) t1 hd hRv hv
    have s12 := s1.trans s2
    have hd' : ∀ k ∈ s :: dom, ∃ nt, T.names k = some nt := by
      intro k hk
      rcases List.mem_cons.mp hk with rfl | hk
      · cases ann with
        | some a => exact ⟨_, (hann a rfl).1⟩
        | none => obtain ⟨-, i, hi⟩ := hinf rfl; exact ⟨_, hi⟩
      · exact hd k hk
    obtain ⟨a3, s3, p3⟩ := check_sound hT rest s2.evo.good (hI.step s12) (s12.evo.typ hx) hd' hRr hr
    refine ⟨a3, s12.trans s3, fun hq => ?_⟩
    have q2 := s3.quiet hq
    refine ⟨by simp [Ex.erase, (p2 q2).1, (p3 hq).1], fun θ hθ Γ hΓ hS => ?_⟩
    have hθ2 := s3.evo.sol hθ
    have hθ1 := s2.evo.sol hθ2
    obtain ⟨e1, e2⟩ := p1 θ hθ1.sat
    have hw : WfTy Δ (vars ++ vs) (U θ (opaqueName T st s).2) :=
      sane_wf (n := .let_ s vars ann (U θ (opaqueName T st s).2) (rv.2.map (U θ)) (rr.2.map (U θ))) (hS (vs, _) (by simp [Ex.map, nodes]))
        (by simp [annots]) hθ1 t1
    refine ⟨e1, fun hn => (hinf hn).1, hfresh, hw, ?_, ?_⟩
    · exact (p2 q2).2 θ hθ2 Γ hΓ (sane_sub hS (by intro p hp; simp [Ex.map, nodes, hp]))
    · exact (p3 hq).2 θ hθ _ (hΓ.cons e2) (sane_sub hS (by intro p hp; simp [Ex.map, nodes, hp]))
  | .match_ d u cases, dom, vs, x, st, ar, r, h, hI, hx, hd, hR, hc => by
    simp only [check, Option.bind_eq_some_iff, Option.map_eq_some_iff] at hc
    obtain ⟨rd, hrd, nt, hnt, rc, hrc, rfl⟩ := hc
    obtain ⟨a1, s1, t1⟩ := step_fresh h
    obtain ⟨a2, s2, p2⟩ := check_sound hT d s1.evo.good (hI.step s1) t1 hd hR.1 hrd
    have s12 := s1.trans s2
    have tdv := s2.evo.typ t1
    generalize hpr : matchParts st.fresh.2 nt = pr at hrc
    -- what the checker takes as the matched type and the type of recursive fields
    obtain ⟨tp, tr, hkind⟩ : Typ rd.1.u a2 pr.1 ∧ Typ rd.1.u a2 pr.2 ∧
        ((∀ θ, Sat rd.1.u θ → U θ st.fresh.2 = .folded (U θ pr.1) (U θ pr.2)) ∨ (pr.1 = st.fresh.2 ∧ pr.2 = st.fresh.2)) := by
      by_cases hfold : ∃ a b, nt = some (.folded a b)
      · obtain ⟨a, b, rfl⟩ := hfold
        obtain rfl : (a, b) = pr := hpr
        obtain ⟨j, hg, hj⟩ := normalize_sat hnt
        have hs := s2.evo.good.slots j _ hg
        refine ⟨⟨refs_lt s2.evo.good (i := j) (by simp [Unifier.refs, hg, Ty.refs]), hs.2.1⟩,
          ⟨refs_lt s2.evo.good (i := j) (by simp [Unifier.refs, hg, Ty.refs]), hs.2.2⟩, .inl fun θ hθ => ?_⟩
        simp only [U, hj θ hθ, sat_get_ty hθ hg, Ty.under, Tm.ty]
      · have : pr = (st.fresh.2, st.fresh.2) := by
          rw [← hpr]
          unfold matchParts
          split
          · exact absurd ⟨_, _, rfl⟩ hfold
          · rfl
        subst this
        exact ⟨tdv, tdv, .inr ⟨rfl, rfl⟩⟩
    obtain ⟨a3, s3, p3⟩ := checkCases_sound hT cases s2.evo.good (hI.step s12) tp tr (s12.evo.typ hx) hd hR.2 hrc
    refine ⟨a3, s12.trans s3, fun hq => ?_⟩
    have q2 := s3.quiet hq
    obtain ⟨er, p3⟩ := p3 hq
    refine ⟨by simp [Ex.erase, (p2 q2).1, er], fun θ hθ Γ hΓ hS => ?_⟩
    have hθ2 := s3.evo.sol hθ
    have hn := hS (vs, _) (by simp only [Ex.map, nodes]; exact List.mem_cons_self)
    have hw : WfTy Δ vs (U θ st.fresh.2) := sane_wf hn (by simp [annots]) hθ2 tdv
    have hd1 := (p2 q2).2 θ hθ2 Γ hΓ (sane_sub hS (by intro p hp; simp [Ex.map, nodes, hp]))
    refine ⟨hd1, hw, ?_⟩
    have hwk := hθ2.wk _ tdv.1
    obtain ⟨decl, args, hdecl, hshape, hcov⟩ := covered_shape hwk rfl (hn.2.2 _ _ _ rfl)
    obtain ⟨c1, c2⟩ := p3 θ hθ Γ hΓ (fun p hp => hS p (by simp [Ex.map, nodes, hp]))
    have har : args.length = decl.vars.length := by
      have ha : arity Δ decl.sym = decl.vars.length := by simp [arity, hdecl]
      rcases hshape with he | ⟨rr, he⟩ <;> rw [show Tm.ty (θ st.fresh.2) = U θ st.fresh.2 from rfl] at he <;> rw [he] at hw
      · rw [← ha]; exact hw.2.1
      · rw [← ha]; exact hw.1.2.1
    rcases hshape with he | ⟨rr, he⟩ <;> rw [show Tm.ty (θ st.fresh.2) = U θ st.fresh.2 from rfl] at he
    · refine ⟨decl, args, U θ st.fresh.2, hdecl, har, .inl ⟨he, rfl⟩, hcov, ?_⟩
      rcases hkind with hk | ⟨h1, h2⟩
      · rw [hk θ hθ2.sat] at he; cases he
      · have := c2 decl args hdecl (by rw [h1]; exact he)
        rw [h2] at this
        exact this
    · refine ⟨decl, args, rr, hdecl, har, .inr he, hcov, ?_⟩
      rcases hkind with hk | ⟨h1, h2⟩
      · rw [hk θ hθ2.sat] at he
        simp only [IrTy.folded.injEq] at he
        have := c2 decl args hdecl he.1
        rw [he.2] at this
        exact this
      · cases cases with
        | nil =>
          have : rc.2 = [] := by
            cases hrc2 : rc.2 with
            | nil => rfl
            | cons k ks => rw [hrc2] at er; cases k; simp [casesErase] at er
          simp [this, casesMap, HasCases]
        | cons k ks =>
          obtain ⟨s', args', hp⟩ := c1 (by simp)
          rw [h1, he] at hp
          cases hp
  | .ite c t e, dom, vs, x, st, ar, r, h, hI, hx, hd, hR, hc => by
    simp only [check, Option.bind_eq_some_iff, Option.map_eq_some_iff] at hc
    obtain ⟨rc, hrc, rt, hrt, re, hre, rfl⟩ := hc
    obtain ⟨a1, s1, t1, p1⟩ := step_base h .bool (.inr (.inl rfl))
    obtain ⟨a2, s2, p2⟩ := check_sound hT c s1.evo.good (hI.step s1) t1 hd hR.1 hrc
    have s12 := s1.trans s2
    obtain ⟨a3, s3, p3⟩ := check_sound hT t s2.evo.good (hI.step s12) (s12.evo.typ hx) hd hR.2.1 hrt
    have s13 := s12.trans s3
    obtain ⟨a4, s4, p4⟩ := check_sound hT e s3.evo.good (hI.step s13) (s13.evo.typ hx) hd hR.2.2 hre
    refine ⟨a4, s13.trans s4, fun hq => ?_⟩
    have q3 := s4.quiet hq
    have q2 := s3.quiet q3
    refine ⟨by simp [Ex.erase, (p2 q2).1, (p3 q3).1, (p4 hq).1], fun θ hθ Γ hΓ hS => ?_⟩
    have hθ3 := s4.evo.sol hθ
    have hθ2 := s3.evo.sol hθ3
    have h1 := (p2 q2).2 θ hθ2 Γ hΓ (sane_sub hS (by intro p hp; simp [Ex.map, nodes, hp]))
    have hb := p1 θ (s2.evo.sol hθ2).sat
    simp only [U, hb, Ty.under, Tm.ty] at h1
    exact ⟨h1, (p3 q3).2 θ hθ3 Γ hΓ (sane_sub hS (by intro p hp; simp [Ex.map, nodes, hp])),
      (p4 hq).2 θ hθ Γ hΓ (sane_sub hS (by intro p hp; simp [Ex.map, nodes, hp]))⟩
  | .bool b, dom, vs, x, st, ar, r, h, hI, hx, hd, hR, hc => by
    simp only [check, Option.map_eq_some_iff] at hc
    obtain ⟨st2, hu, rfl⟩ := hc
    obtain ⟨a1, s1, t1, p1⟩ := step_base h .bool (.inr (.inl rfl))
    obtain ⟨s2, p2⟩ := step_unify s1.evo.good (s1.evo.typ hx).1 t1.1 (by rw [(s1.evo.typ hx).2, t1.2]) hu
    refine ⟨a1, s1.trans s2, fun hq => ⟨rfl, fun θ hθ Γ hΓ hS => ?_⟩⟩
    show U θ x = .bool
    simp only [U, p2 hq θ hθ, p1 θ (s2.evo.sol hθ).sat, Ty.under, Tm.ty]
  | .number b, dom, vs, x, st, ar, r, h, hI, hx, hd, hR, hc => by
    simp only [check, Option.map_eq_some_iff] at hc
    obtain ⟨st2, hu, rfl⟩ := hc
    obtain ⟨a1, s1, t1, p1⟩ := step_base h .int (.inl rfl)
    obtain ⟨s2, p2⟩ := step_unify s1.evo.good (s1.evo.typ hx).1 t1.1 (by rw [(s1.evo.typ hx).2, t1.2]) hu
    refine ⟨a1, s1.trans s2, fun hq => ⟨rfl, fun θ hθ Γ hΓ hS => ?_⟩⟩
    show U θ x = .int
    simp only [U, p2 hq θ hθ, p1 θ (s2.evo.sol hθ).sat, Ty.under, Tm.ty]
  | .str b, dom, vs, x, st, ar, r, h, hI, hx, hd, hR, hc => by
    simp only [check, Option.map_eq_some_iff] at hc
    obtain ⟨st2, hu, rfl⟩ := hc
    obtain ⟨a1, s1, t1, p1⟩ := step_base h .str (.inr (.inr rfl))
    obtain ⟨s2, p2⟩ := step_unify s1.evo.good (s1.evo.typ hx).1 t1.1 (by rw [(s1.evo.typ hx).2, t1.2]) hu
    refine ⟨a1, s1.trans s2, fun hq => ⟨rfl, fun θ hθ Γ hΓ hS => ?_⟩⟩
    show U θ x = .str
    simp only [U, p2 hq θ hθ, p1 θ (s2.evo.sol hθ).sat, Ty.under, Tm.ty]
  | .lambda fold p _ _ body, dom, vs, x, st, ar, r, h, hI, hx, hd, hR, hc => by
    obtain ⟨⟨i, hi⟩, hRb⟩ := hR
    have he : instName T st p = (st, i, []) := by simp only [instName, hi]
    simp only [check, he, Option.bind_eq_some_iff, Option.map_eq_some_iff] at hc
    obtain ⟨st2, hu, st3, hu3, rb, hrb, rfl⟩ := hc
    obtain ⟨a1, s1, t1⟩ := step_fresh h
    obtain ⟨a2, s2, t2⟩ := step_fresh s1.evo.good
    have s12 := s1.trans s2
    generalize harg : (if fold = true then st.fresh.1.fresh.1.alloc (.folded st.fresh.2 st.fresh.1.fresh.2)
      else (st.fresh.1.fresh.1, st.fresh.2)) = arg at hu
    obtain ⟨a3, s3, t3, p3⟩ : ∃ a3, Step (arity Δ) st.fresh.1.fresh.1 a2 arg.1 a3 ∧ Typ arg.1.u a3 arg.2 ∧
        ∀ θ, Sat arg.1.u θ → θ arg.2 = if fold then .folded (θ st.fresh.2) (θ st.fresh.1.fresh.2) else θ st.fresh.2 := by
      cases fold with
      | true =>
        subst harg
        obtain ⟨a3, s3, t3, p3⟩ := step_folded s2.evo.good (s2.evo.typ t1) t2
        exact ⟨a3, s3, t3, by simpa using p3⟩
      | false =>
        subst harg
        exact ⟨a2, .refl s2.evo.good, s2.evo.typ t1, by simp⟩
    have s13 := s12.trans s3
    have tp := s13.evo.typ (hI p i hi)
    obtain ⟨s4, p4⟩ := step_unify s3.evo.good tp.1 t3.1 (by rw [tp.2, t3.2]) hu
    have s34 := s3.trans s4
    obtain ⟨a5, s5, t5, p5⟩ := step_fn s4.evo.good (s34.evo.typ (s2.evo.typ t1)) (s34.evo.typ t2)
    have s15 := (s13.trans s4).trans s5
    have tx := s15.evo.typ hx
    obtain ⟨s6, p6⟩ := step_unify s5.evo.good tx.1 t5.1 (by rw [tx.2, t5.2]) hu3
    have s16 := s15.trans s6
    have hd' : ∀ k ∈ p :: dom, ∃ nt, T.names k = some nt := by
      intro k hk
      rcases List.mem_cons.mp hk with rfl | hk
      · exact ⟨_, hi⟩
      · exact hd k hk
    obtain ⟨a7, s7, p7⟩ := check_sound hT body s6.evo.good (hI.step s16) ((s34.trans (s5.trans s6)).evo.typ t2) hd' hRb hrb
    refine ⟨a7, s16.trans s7, fun hq => ?_⟩
    have q6 := s7.quiet hq
    have q4 := (s5.trans s6).quiet q6
    refine ⟨by simp [Ex.erase, (p7 hq).1], fun θ hθ Γ hΓ hS => ?_⟩
    have hθ6 := s7.evo.sol hθ
    have hθ5 := s6.evo.sol hθ6
    have hθ4 := s5.evo.sol hθ5
    have hθ3 := s4.evo.sol hθ4
    have e3 := p3 θ hθ3.sat
    have e4 := p4 q4 θ hθ4
    have e5 := p5 θ hθ5.sat
    have e6 := p6 q6 θ hθ6
    have hbody := (p7 hq).2 θ hθ _ (hΓ.cons (s := p) (sch := mono (U θ i)) (.inr ⟨i, hi, rfl⟩))
      (sane_sub hS (by intro p hp; simp [Ex.map, nodes, hp]))
    have hn := hS (vs, _) (by simp only [Ex.map, nodes]; exact List.mem_cons_self)
    have hw : WfTy Δ vs (U θ i) := sane_wf hn (by simp [annots]) hθ3 tp
    have hxt : U θ x = .fn (U θ st.fresh.2) (U θ st.fresh.1.fresh.2) := by simp only [U, e6, e5, Tm.ty]
    cases fold with
    | false =>
      refine ⟨rfl, hw, _, ?_, hbody⟩
      rw [hxt]
      simp only [U, e4, e3]
      simp
    | true =>
      have hpt : U θ i = .folded (U θ st.fresh.2) (U θ st.fresh.1.fresh.2) := by simp [U, e4, e3, Tm.ty]
      exact ⟨rfl, hw, _, _, hpt, hn.2.1 p _ _ _ _ _ rfl hpt, hxt, hbody⟩
  | .paren e, dom, vs, x, st, ar, r, h, hI, hx, hd, hR, hc => by
    simp only [check, Option.map_eq_some_iff] at hc
    obtain ⟨r', hc, rfl⟩ := hc
    obtain ⟨a1, s1, p1⟩ := check_sound hT e h hI hx hd hR hc
    refine ⟨a1, s1, fun hq => ⟨by simp [Ex.erase, (p1 hq).1], fun θ hθ Γ hΓ hS => ?_⟩⟩
    exact (p1 hq).2 θ hθ Γ hΓ (sane_sub hS (by intro p hp; simp [Ex.map, nodes, hp]))
  | .hole text u, dom, vs, x, st, ar, r, h, hI, hx, hd, hR, hc => by
    simp only [check, Option.some.injEq] at hc
    subst hc
    refine ⟨ar, .refl h, fun hq => ⟨rfl, fun θ hθ Γ hΓ hS => ⟨rfl, ?_⟩⟩⟩
    exact sane_wf (n := .hole text (U θ x)) (hS (vs, _) (by simp [Ex.map, nodes])) (by simp [annots]) hθ hx
/-- ... and match case by match case. -/
theorem checkCases_sound {Δ : List TypeDecl} {T : Tables} {n : Nat} (hT : TabOK Δ T) : ∀ (cs : List (Case Unit)) {dom vs primary recTy x st ar r},
    Good (arity Δ) st.u ar → InferOK T st.u ar → Typ st.u ar primary → Typ st.u ar recTy → Typ st.u ar x →
    (∀ s ∈ dom, ∃ nt, T.names s = some nt) → ResolvedCases Δ T dom vs cs → checkCases n T primary recTy x cs st = some r →
    ∃ ar', Step (arity Δ) st ar r.1 ar' ∧ PostC Δ T cs dom vs primary recTy x r ar'
  | [], dom, vs, primary, recTy, x, st, ar, r, h, hI, hp, hr, hx, hd, hR, hc => by
    simp only [checkCases, Option.some.injEq] at hc
    subst hc
    exact ⟨ar, .refl h, fun hq => ⟨rfl, fun θ hθ Γ hΓ hS => ⟨by simp, fun decl args _ _ => by simp [casesMap, HasCases]⟩⟩⟩
  | .mk c pvs body :: cs, dom, vs, primary, recTy, x, st, ar, r, h, hI, hp, hr, hx, hd, hR, hc => by
    obtain ⟨⟨d, hctor⟩, hpv, hRb, hRc⟩ := hR
    obtain ⟨decl0, hdecl0, hvars0, hmem0, hnov, hfw⟩ := hT.ctor c d hctor
    simp only [checkCases, hctor, Option.bind_eq_some_iff, Option.map_eq_some_iff] at hc
    obtain ⟨rv, ⟨st2, hu, hrv⟩, rb, hrb, rc, hrc, rfl⟩ := hc
    -- the type of the patterns
    obtain ⟨a1, e1, l1, k1, p1⟩ := evo_alloc h (t := .named d.tySym) (k := arity Δ d.tySym) (by simp [Ty.refs]) (by simp) (by simp [SlotOK, arSet])
    have s1 : Step (arity Δ) st ar (st.alloc (.named d.tySym)).1 a1 := ⟨e1, id⟩
    obtain ⟨a2, s2, t2, v2, p2⟩ := step_applyVars d.vars (st := (st.alloc (.named d.tySym)).1) (t := (st.alloc (.named d.tySym)).2)
      e1.good hnov l1 (.inl ⟨_, (grows_alloc h.reach.reach (t := .named d.tySym) (by simp [Ty.refs])).2.2⟩)
      (by rw [show (st.alloc (.named d.tySym)).2 = (st.u.allocate (.named d.tySym)).2 from rfl, k1, arity, hdecl0]; simp [hvars0])
    have s12 := s1.trans s2
    have tp := s12.evo.typ hp
    obtain ⟨s3, p3⟩ := step_unify s2.evo.good tp.1 t2.1 (by rw [tp.2, t2.2]) hu
    have s13 := s12.trans s3
    -- the pattern variables
    obtain ⟨a4, s4, n4, p4⟩ : ∃ a4, Step (arity Δ) st2 a2 rv.1 a4 ∧ (∀ p ∈ rv.2, T.names p.1 = some (.infer p.2)) ∧
        (rv.1.diags = [] → (rv.2.map fun p => (p.1, ())) = pvs ∧ ∀ θ, Sol (arity Δ) rv.1.u a4 θ →
          rv.2.map (fun p => U θ p.2) = d.fields.map (fieldTy d.vars
            ((applyVars (st.alloc (.named d.tySym)).1 (st.alloc (.named d.tySym)).2 d.vars).2.2.map fun p => U θ p.2) (U θ recTy))) := by
      by_cases hl : pvs.length = d.fields.length
      · rw [if_neg (by simpa using hl)] at hrv
        obtain ⟨a4, s4, n4, e4, p4⟩ := step_checkVars hT pvs d.fields s3.evo.good (hI.step s13) (v2.evo s3.evo) (applyVars_fst _ _ _)
          (s13.evo.typ hr) hfw hpv hl hrv
        exact ⟨a4, s4, n4, fun hq => ⟨e4, p4 hq⟩⟩
      · rw [if_pos (by simpa using hl)] at hrv
        cases hrv
        exact ⟨a2, ⟨.refl s3.evo.good, by simp⟩, by simp, by simp⟩
    have s14 := s13.trans s4
    have hd' : ∀ k ∈ (pvs.map (·.1)).reverse ++ dom, ∃ nt, T.names k = some nt := by
      intro k hk
      rcases List.mem_append.mp hk with hk | hk
      · obtain ⟨q, hq, rfl⟩ := List.mem_map.mp (List.mem_reverse.mp hk)
        obtain ⟨i, hi⟩ := hpv q hq
        exact ⟨_, hi⟩
      · exact hd k hk
    obtain ⟨a5, s5, p5⟩ := check_sound hT body s4.evo.good (hI.step s14) (s14.evo.typ hx) hd' hRb hrb
    have s15 := s14.trans s5
    obtain ⟨a6, s6, p6⟩ := checkCases_sound hT cs s5.evo.good (hI.step s15) (s15.evo.typ hp) (s15.evo.typ hr) (s15.evo.typ hx) hd hRc hrc
    refine ⟨a6, s15.trans s6, fun hq => ?_⟩
    have q5 := s6.quiet hq
    have q4 := s5.quiet q5
    have q3 := s4.quiet q4
    obtain ⟨ev, p4⟩ := p4 q4
    refine ⟨by simp [casesErase, ev, (p5 q5).1, (p6 hq).1], fun θ hθ Γ hΓ hS => ?_⟩
    have hθ5 := s6.evo.sol hθ
    have hθ4 := s5.evo.sol hθ5
    have hθ3 := s4.evo.sol hθ4
    have hθ2 := s3.evo.sol hθ3
    have hθ1 := s2.evo.sol hθ2
    have hprim : U θ primary = .named d.tySym ((applyVars (st.alloc (.named d.tySym)).1 (st.alloc (.named d.tySym)).2 d.vars).2.2.map fun p => U θ p.2) := by
      have := p2 θ hθ2 d.tySym [] (by rw [show θ (st.alloc (.named d.tySym)).2 = _ from p1 θ hθ1.sat]; rfl)
      simp only [U, p3 q3 θ hθ3]
      simpa using this
    refine ⟨fun _ => ⟨_, _, hprim⟩, fun decl args hdecl hpr => ?_⟩
    rw [hprim] at hpr
    have hpr' := hpr
    simp only [IrTy.named.injEq] at hpr
    obtain ⟨hsym, hargs⟩ := hpr
    rw [hsym, hdecl] at hdecl0
    obtain rfl := Option.some.inj hdecl0
    obtain ⟨-, hrest⟩ := (p6 hq).2 θ hθ Γ hΓ (fun p hp => hS p (by simp [casesMap, caseNodes, hp]))
    have hpv' : (rv.2.map fun p => (p.1, U θ p.2)).map (·.2) = d.fields.map (fieldTy decl.vars args (U θ recTy)) := by
      have := p4 θ hθ4
      rw [hargs, ← hvars0] at this
      rw [List.map_map]
      exact this
    refine ⟨⟨d.fields, hmem0, hpv'⟩, ?_, hrest decl args hdecl (hprim.trans hpr')⟩
    have hctx := hΓ.append (rv.2.map fun p => (p.1, U θ p.2)).reverse (by
      intro q hq'
      obtain ⟨p, hp', rfl⟩ := List.mem_map.mp (List.mem_reverse.mp hq')
      exact ⟨p.2, n4 p hp', rfl⟩)
    have hdom : ((rv.2.map fun p => (p.1, U θ p.2)).reverse.map (·.1)) = (pvs.map (·.1)).reverse := by
      rw [← ev]; simp
    rw [hdom, List.map_reverse] at hctx
    exact (p5 q5).2 θ hθ5 _ hctx (sane_sub (c := rb.2.map (U θ)) (ws := vs) (e := rb.2.map (U θ)) (fun p hp => hS p (by simp [casesMap, caseNodes, hp])) (fun p hp => hp))
end

end Tic.Front
