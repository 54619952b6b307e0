import Verif.VerTy
/-
What the verifier's state knows about generated names: the invariant for verifying generated code.
-/
namespace Tic.Front
open Tic.Unify (Symbol IrTy)
open Tic.Core

/-! ### Moving from one state to the next -/

/-- The later state of the verifier knows at least what the earlier one does, and no type variable
that has left its scope comes back. -/
structure SMove (st st' : VSt) : Prop where
  scope : ∀ n ∈ st.inScope, n ∈ st'.inScope
  types : ∀ x ∈ st.defined, vget x st'.types = vget x st.types
  kinds : ∀ n k, vget n st.kinds = some k → vget n st'.kinds = some k
  ctors : ∀ n k, vget n st.ctors = some k → vget n st'.ctors = some k
  tys : ∀ a ∈ st.definedTy, a ∈ st'.definedTy
  scopeTy : ∀ a ∈ st.inScopeTy, a ∈ st'.inScopeTy
  back : ∀ a ∈ st.definedTy, a ∈ st'.inScopeTy → a ∈ st.inScopeTy

theorem _root_.Tic.Core.Chk.move {L st st' bs} (h : Chk L st st' bs) : SMove st st' :=
  ⟨fun n hn => h.inScope ▸ hn, h.types, fun n k hk => h.kinds ▸ hk, fun n k hk => h.ctors ▸ hk, h.tys, fun a ha => h.inScopeTy ▸ ha,
    fun a _ ha => h.inScopeTy ▸ ha⟩

theorem _root_.Tic.Core.Entered.move {L st st' ns ts} (h : Entered L st st' ns ts) : SMove st st' :=
  ⟨fun n hn => by rw [h.inScope]; simp [hn], h.types, fun n k hk => h.kinds ▸ hk, fun n k hk => h.ctors ▸ hk, h.tys, fun a ha => h.inScopeTy ▸ ha,
    fun a _ ha => h.inScopeTy ▸ ha⟩

/-! ### Names and type variables still free -/

/-- The generator's counters do not go back. -/
structure Le (g g' : Gen) : Prop where
  names : g.names ≤ g'.names
  tys : g.tys ≤ g'.tys

theorem Le.refl (g : Gen) : Le g g := ⟨Nat.le_refl _, Nat.le_refl _⟩
theorem Le.trans {g g' g''} (h : Le g g') (h' : Le g' g'') : Le g g'' := ⟨Nat.le_trans h.names h'.names, Nat.le_trans h.tys h'.tys⟩

/-- The names and type variables taken between `g` and `g'` are not yet defined. -/
structure Room (L : Nat) (g g' : Gen) (st : VSt) : Prop where
  limit : g'.names ≤ L
  names : ∀ n : Name, g.names ≤ n → n < g'.names → n ∉ st.defined
  tys : ∀ a : TyVar, g.tys ≤ a → a < g'.tys → a ∉ st.definedTy

/-- Only names and type variables taken between `g` and `g'` have been defined. -/
structure Used (g g' : Gen) (st st' : VSt) : Prop where
  names : ∀ n ∈ st'.defined, n ∈ st.defined ∨ (g.names ≤ n ∧ n < g'.names)
  tys : ∀ a ∈ st'.definedTy, a ∈ st.definedTy ∨ (g.tys ≤ a ∧ a < g'.tys)

theorem Used.refl (g : Gen) (st : VSt) : Used g g st st := ⟨fun _ h => .inl h, fun _ h => .inl h⟩

theorem Used.same {g g' st} : Used g g' st st := ⟨fun _ h => .inl h, fun _ h => .inl h⟩

theorem Used.trans {g g' g'' st st' st''} (l : Le g g') (l' : Le g' g'') (h : Used g g' st st') (h' : Used g' g'' st' st'') : Used g g'' st st'' := by
  constructor
  · intro n hn
    rcases h'.names n hn with hn | ⟨h1, h2⟩
    · rcases h.names n hn with hn | ⟨h1, h2⟩
      · exact .inl hn
      · exact .inr ⟨h1, Nat.lt_of_lt_of_le h2 l'.names⟩
    · exact .inr ⟨Nat.le_trans l.names h1, h2⟩
  · intro n hn
    rcases h'.tys n hn with hn | ⟨h1, h2⟩
    · rcases h.tys n hn with hn | ⟨h1, h2⟩
      · exact .inl hn
      · exact .inr ⟨h1, Nat.lt_of_lt_of_le h2 l'.tys⟩
    · exact .inr ⟨Nat.le_trans l.tys h1, h2⟩

theorem Used.wide {g0 g g' g1 st st'} (h : Used g g' st st') (l : Le g0 g) (l' : Le g' g1) : Used g0 g1 st st' :=
  ⟨fun n hn => (h.names n hn).imp_right fun ⟨h1, h2⟩ => ⟨Nat.le_trans l.names h1, Nat.lt_of_lt_of_le h2 l'.names⟩,
   fun n hn => (h.tys n hn).imp_right fun ⟨h1, h2⟩ => ⟨Nat.le_trans l.tys h1, Nat.lt_of_lt_of_le h2 l'.tys⟩⟩

theorem Room.left {L g g1 g' st} (h : Room L g g' st) (l : Le g1 g') : Room L g g1 st :=
  ⟨Nat.le_trans l.names h.limit, fun n h1 h2 => h.names n h1 (Nat.lt_of_lt_of_le h2 l.names), fun n h1 h2 => h.tys n h1 (Nat.lt_of_lt_of_le h2 l.tys)⟩

theorem Room.right {L g g1 g' st st1} (h : Room L g g' st) (l : Le g g1) (u : Used g g1 st st1) : Room L g1 g' st1 := by
  refine ⟨h.limit, fun n h1 h2 hn => ?_, fun n h1 h2 hn => ?_⟩
  · rcases u.names n hn with hn | ⟨h3, h4⟩
    · exact h.names n (Nat.le_trans l.names h1) h2 hn
    · exact Nat.not_le_of_lt h4 h1
  · rcases u.tys n hn with hn | ⟨h3, h4⟩
    · exact h.tys n (Nat.le_trans l.tys h1) h2 hn
    · exact Nat.not_le_of_lt h4 h1

/-! ### The counters only go up -/

theorem le_genName (g : Gen) (s : Symbol) : Le g (g.genName s).1 := ⟨Nat.le_succ _, Nat.le_refl _⟩
theorem le_fresh (g : Gen) : Le g g.fresh.1 := ⟨Nat.le_succ _, Nat.le_refl _⟩

theorem le_genNames : ∀ (ss : List Symbol) (g : Gen), Le g (g.genNames ss).1
  | [], g => .refl g
  | s :: ss, g => (le_genName g s).trans (le_genNames ss _)

theorem le_freshes : ∀ (n : Nat) (g : Gen), Le g (g.freshes n).1
  | 0, g => .refl g
  | n + 1, g => (le_fresh g).trans (le_freshes n _)

theorem le_freshInst : ∀ (ss : List Symbol) (g : Gen), Le g (g.freshInst ss)
  | [], g => .refl g
  | s :: ss, g => Le.trans (g' := { g with tys := g.tys + 1, tyVars := setAt g.tyVars s g.tys }) ⟨Nat.le_refl _, Nat.le_succ _⟩ (le_freshInst ss _)

theorem le_instTy {g g' vars t ty} (h : Gen.instTy g vars t = some (g', ty)) : Le g g' := by
  simp only [Gen.instTy, Option.bind_eq_some_iff, Option.map_eq_some_iff] at h
  obtain ⟨_, _, _, _, h⟩ := h
  cases h
  exact le_freshInst vars g

theorem le_foldBranches {fold args out} : ∀ {cs g g' bs}, foldBranches fold args out g cs = some (g', bs) → Le g g'
  | [], g, g', bs, h => by simp only [foldBranches] at h; cases h; exact .refl _
  | c :: cs, g, g', bs, h => by
    simp only [foldBranches, Option.bind_eq_some_iff, Option.map_eq_some_iff] at h
    obtain ⟨fs, -, r, hr, h⟩ := h
    cases h
    exact (le_freshes _ g).trans (le_foldBranches hr)

theorem le_foldParam {fold temp pty out g g' e} (h : foldParam fold temp pty out g = some (g', e)) : Le g g' := by
  unfold foldParam at h
  split at h
  · simp only [Option.bind_eq_some_iff, Option.map_eq_some_iff] at h
    obtain ⟨cs, -, r, hr, h⟩ := h
    cases h
    exact le_foldBranches hr
  · cases h; exact .refl _

mutual
theorem le_genExpr : ∀ (e : Ex IrTy) {g g' c}, genExpr g e = some (g', c) → Le g g'
  | .name s inst, g, g', c, h => by
    simp only [genExpr, Option.bind_eq_some_iff, Option.map_eq_some_iff] at h
    obtain ⟨_, _, _, _, h⟩ := h
    cases h
    exact .refl _
  | .apply f a, g, g', c, h => by
    simp only [genExpr, Option.bind_eq_some_iff, Option.map_eq_some_iff] at h
    obtain ⟨⟨g1, c1⟩, h1, ⟨g2, c2⟩, h2, h⟩ := h
    cases h
    exact (le_genExpr f h1).trans (le_genExpr a h2)
  | .binary o l r, g, g', c, h => by
    simp only [genExpr, Option.bind_eq_some_iff, Option.map_eq_some_iff] at h
    obtain ⟨⟨g1, c1⟩, h1, ⟨g2, c2⟩, h2, h⟩ := h
    cases h
    exact (le_genExpr l h1).trans (le_genExpr r h2)
  | .pipe l r, g, g', c, h => by
    simp only [genExpr, Option.bind_eq_some_iff, Option.map_eq_some_iff] at h
    obtain ⟨⟨g1, c1⟩, h1, ⟨g2, c2⟩, h2, h⟩ := h
    cases h
    exact (le_genExpr l h1).trans (le_genExpr r h2)
  | .let_ s vars ann ty v rest, g, g', c, h => by
    simp only [genExpr, Option.bind_eq_some_iff, Option.map_eq_some_iff] at h
    obtain ⟨⟨g1, c1⟩, h1, tvs, h2, ⟨g3, c3⟩, h3, h⟩ := h
    cases h
    exact ((le_genName g s).trans (le_freshInst vars _)).trans ((le_genExpr v h1).trans (le_genExpr rest h3))
  | .match_ d dty cases, g, g', c, h => by
    simp only [genExpr, Option.bind_eq_some_iff, Option.map_eq_some_iff] at h
    obtain ⟨⟨g1, c1⟩, h1, b, hb, ⟨g3, c3⟩, h3, h⟩ := h
    cases h
    exact (le_genExpr d h1).trans (le_genCases cases h3)
  | .ite a b e, g, g', c, h => by
    simp only [genExpr, Option.bind_eq_some_iff, Option.map_eq_some_iff] at h
    obtain ⟨⟨g1, c1⟩, h1, ⟨g2, c2⟩, h2, ⟨g3, c3⟩, h3, h⟩ := h
    cases h
    exact (le_genExpr a h1).trans ((le_genExpr b h2).trans (le_genExpr e h3))
  | .bool _, g, g', c, h | .number _, g, g', c, h | .str _, g, g', c, h => by simp only [genExpr] at h; cases h; exact .refl _
  | .lambda true p pty fty body, g, g', c, h => by
    simp only [genExpr, Option.bind_eq_some_iff] at h
    obtain ⟨foldTy, -, h⟩ := h
    split at h
    · simp only [Option.bind_eq_some_iff, Option.map_eq_some_iff] at h
      obtain ⟨⟨g1, c1⟩, h1, ⟨g2, c2⟩, h2, h⟩ := h
      cases h
      exact (((le_genName g p).trans (le_fresh _)).trans (le_fresh _)).trans ((le_genExpr body h1).trans (le_foldParam h2))
    · cases h
  | .lambda false p pty fty body, g, g', c, h => by
    simp only [genExpr, Option.bind_eq_some_iff, Option.map_eq_some_iff] at h
    obtain ⟨⟨g1, c1⟩, h1, ⟨g2, c2⟩, h2, h⟩ := h
    cases h
    exact (le_genName g p).trans ((le_genExpr body h1).trans (le_instTy h2))
  | .paren e, g, g', c, h => by simp only [genExpr] at h; exact le_genExpr e h
  | .hole text ty, g, g', c, h => by
    simp only [genExpr, Option.map_eq_some_iff] at h
    obtain ⟨_, _, h⟩ := h
    cases h
    exact .refl _
theorem le_genCases : ∀ (cs : List (Case IrTy)) {b g g' bs}, genCases b g cs = some (g', bs) → Le g g'
  | [], b, g, g', bs, h => by simp only [genCases] at h; cases h; exact .refl _
  | .mk c vars body :: cs, b, g, g', bs, h => by
    simp only [genCases, Option.bind_eq_some_iff, Option.map_eq_some_iff] at h
    obtain ⟨⟨g1, c1⟩, h1, cn, -, ⟨g3, c3⟩, h3, h⟩ := h
    cases h
    exact (le_genNames _ g).trans ((le_genExpr body h1).trans (le_genCases cs h3))
end

/-! ### What the verifier knows -/

/-- Type variables `ws` were generated for `vars` by an earlier state `h` of the generator, and their
scope is over.  `Δ₀` and `vs₀` are the types and type variables known then. -/
structure Entry (Δ : List TypeDecl) (vs : List Symbol) (g : Gen) (st : VSt) (vars : List Symbol) (ws : List TyVar) (h : Gen)
    (Δ₀ : List TypeDecl) (vs₀ : List Symbol) : Prop where
  sub : ∀ s d, declOf Δ₀ s = some d → declOf Δ s = some d
  subv : ∀ v ∈ vs₀, v ∈ vs
  older : Older Δ₀ vs₀ h g
  off : ∀ x ∈ vars, x ∉ vs₀ ∧ declOf Δ x = none
  vars : mapOpt h.tyVars vars = some ws
  nodup : ws.Nodup
  gone : ∀ w ∈ ws, w ∈ st.definedTy ∧ w ∉ st.inScopeTy

/-- The verifier has the type `T` for a name of the type `sch`. -/
def SchV (Δ : List TypeDecl) (vs : List Symbol) (g : Gen) (st : VSt) (sch : Scheme) (T : Ty) : Prop :=
  ∃ Δ₀ vs₀ h ws T₀, Entry Δ vs g st sch.vars ws h Δ₀ vs₀ ∧ WfTy Δ₀ (sch.vars ++ vs₀) sch.ty ∧ genTy h sch.ty = some T₀ ∧
    T = absTys ws T₀ ∧ (sch.vars = [] ∨ Plain sch.ty)

/-- The fields of a constructor are known types. -/
def FieldsV (Δ : List TypeDecl) (vars : List Symbol) (fs : List Field) : Prop := ∀ t, Field.ty t ∈ fs → Plain t ∧ WfTy Δ vars t

/-- The verifier knows both constructors generated for a constructor. -/
structure CtorV (Δ : List TypeDecl) (g : Gen) (st : VSt) (d : TypeDecl) (n m : Name) (fs : List Field) (k : Ctor) : Prop where
  regular : ∃ Δ₀ h ws ts, Entry Δ [] g st d.vars ws h Δ₀ [] ∧ FieldsV Δ₀ d.vars fs ∧ vget k.regular st.ctors = some ⟨n, ws, ts⟩ ∧
    mapOpt (genField h (.named n (ws.map .var))) fs = some ts
  folded : ∃ Δ₀ h ws r ts, Entry Δ [] g st d.vars ws h Δ₀ [] ∧ FieldsV Δ₀ d.vars fs ∧ r ∉ ws ∧ (r ∈ st.definedTy ∧ r ∉ st.inScopeTy) ∧
    vget k.folded st.ctors = some ⟨m, ws ++ [r], ts⟩ ∧ mapOpt (genField h (.var r)) fs = some ts

/-- The verifier knows a declared type. -/
structure DeclV (Δ : List TypeDecl) (g : Gen) (st : VSt) (d : TypeDecl) (n m : Name) : Prop where
  name : g.symNames d.sym = some n
  folded : g.foldedNames d.sym = some m
  scope : n ∈ st.inScope ∧ m ∈ st.inScope
  kind : vget n st.kinds = some d.vars.length
  kindF : vget m st.kinds = some (d.vars.length + 1)
  ne : d.ctors ≠ []
  ctors : ∀ c ∈ d.ctors, ∃ k, g.ctors c.1 = some k ∧ CtorV Δ g st d n m c.2 k

/-- The verifier knows everything in scope. -/
structure VScope (Δ : List TypeDecl) (vs : List Symbol) (Γ : Ctx) (g : Gen) (st : VSt) : Prop where
  pre : Pre st
  gen : GenOK Δ g
  vars : ∀ v ∈ vs, declOf Δ v = none ∧ ∃ w, g.tyVars v = some w ∧ w ∈ st.inScopeTy
  decl : ∀ s d, declOf Δ s = some d → ∃ n m, DeclV Δ g st d n m
  ctx : ∀ s sch, Γ.find s = some sch → ∃ n T, g.symNames s = some n ∧ n ∈ st.inScope ∧ vget n st.types = some T ∧ SchV Δ vs g st sch T

theorem VScope.scope {Δ vs Γ g st} (h : VScope Δ vs Γ g st) : ScopeOK Δ vs Γ g :=
  ⟨h.gen, fun s sch hs => by obtain ⟨n, -, hn, -⟩ := h.ctx s sch hs; simp [hn],
    fun v hv => by obtain ⟨h1, w, h2, -⟩ := h.vars v hv; exact ⟨by simp [h2], h1⟩⟩

theorem Older.refl {Δ : List TypeDecl} {vs : List Symbol} {g : Gen} (h : GenOK Δ g) (hv : ∀ v ∈ vs, (g.tyVars v).isSome) : Older Δ vs g g :=
  ⟨fun v hvs => ⟨rfl, hv v hvs⟩, fun s d hd => ⟨h.notVar s d hd, h.notVar s d hd, rfl, rfl⟩⟩

theorem Older.trans {Δ : List TypeDecl} {vs : List Symbol} {g g' g'' : Gen} (h : Older Δ vs g g') (h' : Older Δ vs g' g'') : Older Δ vs g g'' :=
  ⟨fun v hv => ⟨(h.ty v hv).1.trans (h'.ty v hv).1, (h'.ty v hv).2⟩,
   fun s d hd => ⟨(h.decl s d hd).1, (h'.decl s d hd).2.1, (h.decl s d hd).2.2.1.trans (h'.decl s d hd).2.2.1, (h.decl s d hd).2.2.2.trans (h'.decl s d hd).2.2.2⟩⟩

theorem Older.sub {Δ Δ₀ : List TypeDecl} {vs vs₀ : List Symbol} {g g' : Gen} (h : Older Δ vs g g') (hd : ∀ s d, declOf Δ₀ s = some d → declOf Δ s = some d)
    (hv : ∀ v ∈ vs₀, v ∈ vs) : Older Δ₀ vs₀ g g' :=
  ⟨fun v hvs => h.ty v (hv v hvs), fun s d hs => h.decl s d (hd s d hs)⟩

theorem Older.ext {Δ : List TypeDecl} {vs bs : List Symbol} {g g' : Gen} (hg : GenOK Δ g) (hv : ∀ v ∈ vs, (g.tyVars v).isSome) (he : Ext bs g g')
    (hb : ∀ b ∈ bs, declOf Δ b = none ∧ b ∉ vs) : Older Δ vs g g' := by
  refine ⟨fun v hvs => ?_, fun s d hd => ?_⟩
  · have e := he.ty v fun h => (hb v h).2 hvs
    exact ⟨e.symm, by rw [e]; exact hv v hvs⟩
  · have hs : s ∉ bs := fun h => by rw [(hb s h).1] at hd; cases hd
    refine ⟨hg.notVar s d hd, ?_, (he.sym s hs).symm, by rw [he.folded]⟩
    rw [he.ty s hs]; exact hg.notVar s d hd

theorem Entry.move {Δ vs g st vars ws h Δ₀ vs₀ vs' g' st'} (he : Entry Δ vs g st vars ws h Δ₀ vs₀) (ho : Older Δ vs g g') (hv : ∀ v ∈ vs, v ∈ vs') (hm : SMove st st') :
    Entry Δ vs' g' st' vars ws h Δ₀ vs₀ :=
  ⟨he.sub, fun v hvs => hv v (he.subv v hvs), he.older.trans (ho.sub he.sub he.subv), he.off, he.vars, he.nodup,
   fun w hw => ⟨hm.tys w (he.gone w hw).1, fun hx => (he.gone w hw).2 (hm.back w (he.gone w hw).1 hx)⟩⟩

theorem SchV.move {Δ vs g st sch T vs' g' st'} (hs : SchV Δ vs g st sch T) (ho : Older Δ vs g g') (hv : ∀ v ∈ vs, v ∈ vs') (hm : SMove st st') :
    SchV Δ vs' g' st' sch T := by
  obtain ⟨Δ₀, vs₀, h, ws, T₀, h1, h2⟩ := hs
  exact ⟨Δ₀, vs₀, h, ws, T₀, h1.move ho hv hm, h2⟩

theorem CtorV.move {Δ g st d n m fs k g' st'} (hc : CtorV Δ g st d n m fs k) (ho : Older Δ [] g g') (hm : SMove st st') : CtorV Δ g' st' d n m fs k := by
  obtain ⟨Δ₀, h, ws, ts, h1, h2, h3, h4⟩ := hc.regular
  obtain ⟨Δ₁, h', ws', r, ts', e1, e2, e3, e4, e5, e6⟩ := hc.folded
  exact ⟨⟨Δ₀, h, ws, ts, h1.move ho (by simp) hm, h2, hm.ctors _ _ h3, h4⟩,
    ⟨Δ₁, h', ws', r, ts', e1.move ho (by simp) hm, e2, e3, ⟨hm.tys _ e4.1, fun hx => e4.2 (hm.back _ e4.1 hx)⟩, hm.ctors _ _ e5, e6⟩⟩

theorem DeclV.move {Δ g st d n m g' st'} (h : DeclV Δ g st d n m) (hd : declOf Δ d.sym = some d) (ho : Older Δ [] g g') (hc : ∀ c ∈ d.ctors, g'.ctors c.1 = g.ctors c.1)
    (hm : SMove st st') : DeclV Δ g' st' d n m := by
  obtain ⟨-, -, e1, e2⟩ := ho.decl _ d hd
  refine ⟨e1 ▸ h.name, e2 ▸ h.folded, ⟨hm.scope _ h.scope.1, hm.scope _ h.scope.2⟩, hm.kinds _ _ h.kind, hm.kinds _ _ h.kindF, h.ne, fun c hcs => ?_⟩
  obtain ⟨k, h1, h2⟩ := h.ctors c hcs
  exact ⟨k, by rw [hc c hcs]; exact h1, h2.move ho hm⟩

theorem VScope.move {Δ vs Γ g st bs g' st'} (h : VScope Δ vs Γ g st) (he : Ext bs g g') (hb : ∀ b ∈ bs, Γ.find b = none ∧ declOf Δ b = none ∧ b ∉ vs)
    (hm : SMove st st') (hp : Pre st') : VScope Δ vs Γ g' st' := by
  have ho : Older Δ vs g g' := .ext h.gen (fun v hv => (h.scope.vars v hv).1) he fun b hbs => (hb b hbs).2
  refine ⟨hp, h.gen.ext he fun b hbs => (hb b hbs).2.1, fun v hv => ?_, fun s d hd => ?_, fun s sch hs => ?_⟩
  · obtain ⟨h1, w, h2, h3⟩ := h.vars v hv
    exact ⟨h1, w, by rw [← (ho.ty v hv).1]; exact h2, hm.scopeTy w h3⟩
  · obtain ⟨n, m, h1⟩ := h.decl s d hd
    exact ⟨n, m, h1.move (by rw [declOf_sym hd]; exact hd) (ho.sub (fun _ _ h => h) (by simp)) (fun c _ => by rw [he.ctors]) hm⟩
  · obtain ⟨n, T, h1, h2, h3, h4⟩ := h.ctx s sch hs
    refine ⟨n, T, ?_, hm.scope n h2, by rw [hm.types n (h.pre.sub n h2)]; exact h3, h4.move ho (fun _ h => h) hm⟩
    rw [he.sym s fun hx => by rw [(hb s hx).1] at hs; cases hs]
    exact h1

end Tic.Front
