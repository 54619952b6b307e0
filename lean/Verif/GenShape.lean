import Verif.PropVerified
/-
The shape of generated definitions: recursive definitions are functions, and no match has two branches
for one constructor.  The verifier does not look at either, the optimizer relies on both.
-/
namespace Tic.Front
open Tic.Unify (Symbol IrTy)
open Tic.Core

/-- A recursive definition is a function, literally; the branches of a match are for different
constructors. -/
def NodeLit : Expr → Prop
  | .letrec _ _ v _ => ∃ ps b, v = .lam ps b
  | .mtch _ bs => (bs.map Branch.ctor).Nodup
  | _ => True

/-- ... everywhere inside `e`. -/
def Shaped (e : Expr) : Prop := ∀ e', SubE e' e → NodeLit e'

theorem shaped_iff {e : Expr} : Shaped e ↔ NodeLit e ∧ ∀ c ∈ children e, Shaped c.2 := by
  constructor
  · intro h
    exact ⟨h e .refl, fun c hc e' hs => h e' (.step hc hs)⟩
  · rintro ⟨h1, h2⟩ e' hs
    rcases SubE.cases_iff.1 hs with rfl | ⟨c, hc, hs⟩
    · exact h1
    · exact h2 c hc e' hs

theorem NodeLit.ok {e : Expr} (h : NodeLit e) : Core.NodeOK e := by
  cases e <;> simp only [NodeLit, Core.NodeOK] at h ⊢
  · exact h
  · obtain ⟨ps, b, rfl⟩ := h
    simp [recLam, stripPis]

theorem Shaped.wellShaped {e : Expr} (h : Shaped e) : WellShaped e := fun e' hs => (h e' hs).ok

mutual
/-- No match has two cases for one constructor. -/
def Once : Ex IrTy → Prop
  | .name .. => True
  | .apply f a => Once f ∧ Once a
  | .binary _ f a => Once f ∧ Once a
  | .pipe f a => Once f ∧ Once a
  | .let_ _ _ _ _ v rest => Once v ∧ Once rest
  | .match_ d _ cases => (cases.map (·.ctor)).Nodup ∧ Once d ∧ Onces cases
  | .ite c a b => Once c ∧ Once a ∧ Once b
  | .bool _ => True
  | .number _ => True
  | .str _ => True
  | .lambda _ _ _ _ body => Once body
  | .paren e => Once e
  | .hole .. => True
/-- ... in the cases of a match. -/
def Onces : List (Case IrTy) → Prop
  | [] => True
  | .mk _ _ body :: cs => Once body ∧ Onces cs
end

theorem count_map_some {l : List Nat} {c : Nat} : (l.map some).count (some c) = l.count c := by
  induction l with
  | nil => rfl
  | cons a l ih => simp only [List.map_cons, List.count_cons, ih]; simp

theorem hasCases_mem {Δ : List TypeDecl} : ∀ {cs : List (Case IrTy)} {vs Γ decl args recTy t}, HasCases Δ vs Γ decl args recTy cs t → ∀ c ∈ cs.map (·.ctor), c ∈ decl.ctors.map (·.1)
  | [], _, _, _, _, _, _, _, c, hc => by simp at hc
  | .mk c0 pvs body :: cs, vs, Γ, decl, args, recTy, t, h, c, hc => by
    simp only [HasCases] at h
    obtain ⟨⟨fs, h1, -⟩, -, h3⟩ := h
    rcases List.mem_cons.1 hc with rfl | hc
    · exact List.mem_map.2 ⟨_, h1, rfl⟩
    · exact hasCases_mem h3 c hc

theorem once_match {Δ : List TypeDecl} {vs Γ dty args recTy t} {decl : TypeDecl} {cases : List (Case IrTy)} (hd : declOf Δ decl.sym = some decl)
    (hdty : fill dty = .named decl.sym args ∨ fill dty = .folded (.named decl.sym args) recTy)
    (hc : HasCases Δ vs Γ decl args recTy (casesMap fill cases) t)
    (h : (Matchck.check (scrutinee Δ dty) (cases.map fun c => some c.ctor)).1 = []) : (cases.map (·.ctor)).Nodup := by
  have hs : scrutinee Δ dty = .named (.list (decl.ctors.map (·.1))) := by
    rcases hdty with hdty | hdty
    · cases dty <;> simp only [fill, reduceCtorEq, IrTy.named.injEq] at hdty
      obtain ⟨rfl, -⟩ := hdty
      simp only [scrutinee, hd]
    · cases dty <;> simp only [fill, reduceCtorEq, IrTy.folded.injEq] at hdty
      rename_i a b
      cases a <;> simp only [fill, reduceCtorEq, IrTy.named.injEq, false_and] at hdty
      obtain ⟨⟨rfl, -⟩, -⟩ := hdty
      simp only [scrutinee, hd]
  have hm : (cases.map fun c => some c.ctor) = (cases.map (·.ctor)).map some := by simp
  rw [hs, hm, Matchck.accepted_iff_each_once] at h
  refine List.nodup_iff_count.2 fun c => ?_
  by_cases hin : c ∈ cases.map (·.ctor)
  · have := hasCases_mem hc c (by rw [casesMap_ctor]; exact hin)
    exact Nat.le_of_eq (h c this)
  · rw [List.count_eq_zero.2 hin]; exact Nat.zero_le _

mutual
/-- The match checker lets no constructor appear twice. -/
theorem once_of {Δ : List TypeDecl} : ∀ (e : Ex IrTy) {vs ws Γ t}, HasTy Δ vs Γ (e.map fill) t →
    (∀ p ∈ nodes ws e, ∀ d dty cases, p.2 = .match_ d dty cases → (Matchck.check (scrutinee Δ dty) (cases.map fun c => some c.ctor)).1 = []) → Once e
  | .name .., _, _, _, _, _, _ => by simp only [Once]
  | .apply f a, vs, ws, Γ, t, h, hn => by
    simp only [Ex.map, HasTy] at h
    obtain ⟨u, h1, h2⟩ := h
    simp only [Once]
    exact ⟨once_of f (ws := ws) h1 fun p hp => hn p (by simp [nodes, hp]), once_of a (ws := ws) h2 fun p hp => hn p (by simp [nodes, hp])⟩
  | .binary o f a, vs, ws, Γ, t, h, hn => by
    simp only [Ex.map, HasTy] at h
    obtain ⟨h1, h2, -⟩ := h
    simp only [Once]
    exact ⟨once_of f (ws := ws) h1 fun p hp => hn p (by simp [nodes, hp]), once_of a (ws := ws) h2 fun p hp => hn p (by simp [nodes, hp])⟩
  | .pipe f a, vs, ws, Γ, t, h, hn => by
    simp only [Ex.map, HasTy] at h
    obtain ⟨u, h1, h2⟩ := h
    simp only [Once]
    exact ⟨once_of f (ws := ws) h1 fun p hp => hn p (by simp [nodes, hp]), once_of a (ws := ws) h2 fun p hp => hn p (by simp [nodes, hp])⟩
  | .let_ s vars ann ty v rest, vs, ws, Γ, t, h, hn => by
    simp only [Ex.map, HasTy] at h
    obtain ⟨-, -, -, -, h1, h2⟩ := h
    simp only [Once]
    exact ⟨once_of v (ws := vars ++ ws) h1 fun p hp => hn p (by simp [nodes, hp]), once_of rest (ws := ws) h2 fun p hp => hn p (by simp [nodes, hp])⟩
  | .match_ d dty cases, vs, ws, Γ, t, h, hn => by
    simp only [Ex.map, HasTy] at h
    obtain ⟨h1, -, decl, args, recTy, h2, -, h3, -, h4⟩ := h
    simp only [Once]
    refine ⟨once_match h2 (h3.imp_left (·.1)) h4 (hn (ws, .match_ d dty cases) (by simp [nodes]) d dty cases rfl), once_of d (ws := ws) h1 fun p hp => hn p (by simp [nodes, hp]), onces_of cases (ws := ws) h4 fun p hp => hn p (by simp [nodes, hp])⟩
  | .ite c a b, vs, ws, Γ, t, h, hn => by
    simp only [Ex.map, HasTy] at h
    obtain ⟨h1, h2, h3⟩ := h
    simp only [Once]
    exact ⟨once_of c (ws := ws) h1 fun p hp => hn p (by simp [nodes, hp]), once_of a (ws := ws) h2 fun p hp => hn p (by simp [nodes, hp]), once_of b (ws := ws) h3 fun p hp => hn p (by simp [nodes, hp])⟩
  | .bool _, _, _, _, _, _, _ | .number _, _, _, _, _, _, _ | .str _, _, _, _, _, _, _ => by simp only [Once]
  | .lambda true p pty fty body, vs, ws, Γ, t, h, hn => by
    simp only [Ex.map, HasTy] at h
    obtain ⟨-, -, a, b, -, -, -, h1⟩ := h
    simp only [Once]
    exact once_of body (ws := ws) h1 fun p hp => hn p (by simp [nodes, hp])
  | .lambda false p pty fty body, vs, ws, Γ, t, h, hn => by
    simp only [Ex.map, HasTy] at h
    obtain ⟨-, -, b, -, h1⟩ := h
    simp only [Once]
    exact once_of body (ws := ws) h1 fun p hp => hn p (by simp [nodes, hp])
  | .paren e, vs, ws, Γ, t, h, hn => by
    simp only [Ex.map, HasTy] at h
    simp only [Once]
    exact once_of e (ws := ws) h fun p hp => hn p (by simp [nodes, hp])
  | .hole .., _, _, _, _, _, _ => by simp only [Once]
theorem onces_of {Δ : List TypeDecl} : ∀ (cs : List (Case IrTy)) {vs ws Γ decl args recTy t}, HasCases Δ vs Γ decl args recTy (casesMap fill cs) t →
    (∀ p ∈ caseNodes ws cs, ∀ d dty cases, p.2 = .match_ d dty cases → (Matchck.check (scrutinee Δ dty) (cases.map fun c => some c.ctor)).1 = []) → Onces cs
  | [], _, _, _, _, _, _, _, _, _ => by simp only [Onces]
  | .mk c pvs body :: cs, vs, ws, Γ, decl, args, recTy, t, h, hn => by
    simp only [casesMap, HasCases] at h
    obtain ⟨-, h1, h2⟩ := h
    simp only [Onces]
    exact ⟨once_of body (ws := ws) h1 fun p hp => hn p (by simp [caseNodes, hp]), onces_of cs (ws := ws) h2 fun p hp => hn p (by simp [caseNodes, hp])⟩
end

mutual
theorem once_map (f : IrTy → IrTy) : ∀ e : Ex IrTy, Once e → Once (e.map f)
  | .name .., _ => by simp only [Ex.map, Once]
  | .apply g a, h | .binary _ g a, h | .pipe g a, h => by
    simp only [Ex.map, Once] at h ⊢
    exact ⟨once_map f g h.1, once_map f a h.2⟩
  | .let_ _ _ _ _ v rest, h => by
    simp only [Ex.map, Once] at h ⊢
    exact ⟨once_map f v h.1, once_map f rest h.2⟩
  | .match_ d _ cases, h => by
    simp only [Ex.map, Once, casesMap_ctor] at h ⊢
    exact ⟨h.1, once_map f d h.2.1, onces_map f cases h.2.2⟩
  | .ite c a b, h => by
    simp only [Ex.map, Once] at h ⊢
    exact ⟨once_map f c h.1, once_map f a h.2.1, once_map f b h.2.2⟩
  | .bool _, _ | .number _, _ | .str _, _ | .hole .., _ => by simp only [Ex.map, Once]
  | .lambda _ _ _ _ body, h => by
    simp only [Ex.map, Once] at h ⊢
    exact once_map f body h
  | .paren e, h => by
    simp only [Ex.map, Once] at h ⊢
    exact once_map f e h
theorem onces_map (f : IrTy → IrTy) : ∀ cs : List (Case IrTy), Onces cs → Onces (casesMap f cs)
  | [], _ => by simp only [casesMap, Onces]
  | .mk _ _ body :: cs, h => by
    simp only [casesMap, Onces] at h ⊢
    exact ⟨once_map f body h.1, onces_map f cs h.2⟩
end

/-! ### Generated expressions -/

theorem mapOpt_back {α β : Type} {f : α → Option β} : ∀ {xs : List α} {ys : List β}, mapOpt f xs = some ys → ∀ y ∈ ys, ∃ x ∈ xs, f x = some y
  | [], ys, h, y, hy => by
    simp only [mapOpt, Option.some.injEq] at h
    subst h; simp at hy
  | x :: xs, ys, h, y, hy => by
    simp only [mapOpt, Option.bind_eq_some_iff, Option.map_eq_some_iff] at h
    obtain ⟨z, h1, zs, h2, rfl⟩ := h
    rcases List.mem_cons.1 hy with rfl | hy
    · exact ⟨x, by simp, h1⟩
    · obtain ⟨x', hx', e⟩ := mapOpt_back h2 y hy
      exact ⟨x', by simp [hx'], e⟩

theorem mapOpt_nodup {α β : Type} {f : α → Option β} (hf : ∀ a a' b, f a = some b → f a' = some b → a = a') : ∀ {xs : List α} {ys : List β},
    xs.Nodup → mapOpt f xs = some ys → ys.Nodup
  | [], ys, _, h => by
    simp only [mapOpt, Option.some.injEq] at h
    subst h; simp
  | x :: xs, ys, hn, h => by
    have hn' := List.nodup_cons.1 hn
    simp only [mapOpt, Option.bind_eq_some_iff, Option.map_eq_some_iff] at h
    obtain ⟨y, h1, zs, h2, rfl⟩ := h
    refine List.nodup_cons.2 ⟨fun hy => ?_, mapOpt_nodup hf hn'.2 h2⟩
    obtain ⟨x', hx', e⟩ := mapOpt_back h2 y hy
    exact hn'.1 (hf _ _ _ h1 e ▸ hx')

/-- Different constructors have different names. -/
def CtorInj (g : Gen) : Prop := ∀ c c' k k', g.ctors c = some k → g.ctors c' = some k' →
  (k.regular = k'.regular ∨ k.folded = k'.folded ∨ k.regular = k'.folded) → c = c'

theorem CtorInj.ext {bs g g'} (h : CtorInj g) (e : Ext bs g g') : CtorInj g' := by
  unfold CtorInj; rw [e.ctors]; exact h

theorem caseName_inj {g : Gen} (h : CtorInj g) {b : Bool} (c c' : Symbol) (n : Name) (h1 : g.caseName b c = some n) (h2 : g.caseName b c' = some n) : c = c' := by
  simp only [Gen.caseName, Option.map_eq_some_iff] at h1 h2
  obtain ⟨k, h1, e1⟩ := h1
  obtain ⟨k', h2, e2⟩ := h2
  refine h c c' k k' h1 h2 ?_
  cases b <;> simp at e1 e2
  · exact .inl (e1.trans e2.symm)
  · exact .inr (.inl (e1.trans e2.symm))

theorem genCases_ctors : ∀ {cs : List (Case IrTy)} {b g g' bs}, genCases b g cs = some (g', bs) → mapOpt (g.caseName b) (cs.map (·.ctor)) = some (bs.map Branch.ctor)
  | [], b, g, g', bs, h => by
    simp only [genCases, Option.some.injEq, Prod.mk.injEq] at h
    rw [← h.2]; rfl
  | .mk c vars body :: cs, b, g, g', bs, h => by
    simp only [genCases, Option.bind_eq_some_iff, Option.map_eq_some_iff] at h
    obtain ⟨⟨g1, c1⟩, h1, n, h2, ⟨g2, c2⟩, h3, h⟩ := h
    cases h
    have e := (ext_genNames (vars.map (·.1)) g).trans (ext_genExpr body h1)
    have := genCases_ctors h3
    have hg : g1.caseName b = g.caseName b := by
      funext s; simp only [Gen.caseName]; rw [show g1.ctors = g.ctors from e.ctors]
    rw [hg] at this h2
    show mapOpt (g.caseName b) (c :: cs.map (·.ctor)) = some (n :: c2.map Branch.ctor)
    simp only [mapOpt, h2, this, Option.bind_some, Option.map_some]

theorem foldBranches_ctors {fold args out} : ∀ {cs : List Ctor} {g g' bs}, foldBranches fold args out g cs = some (g', bs) → bs.map Branch.ctor = cs.map (·.regular)
  | [], g, g', bs, h => by
    simp only [foldBranches, Option.some.injEq, Prod.mk.injEq] at h
    rw [← h.2]; rfl
  | c :: cs, g, g', bs, h => by
    simp only [foldBranches, Option.bind_eq_some_iff, Option.map_eq_some_iff] at h
    obtain ⟨fs, -, ⟨g1, b1⟩, h1, h⟩ := h
    cases h
    simp only [List.map_cons, Branch.ctor, foldBranches_ctors h1]

theorem shaped_name (n : Name) : Shaped (.name n) := by rw [shaped_iff]; simp [NodeLit, children]

theorem foldBranches_shaped {fold args out} : ∀ {cs : List Ctor} {g g' bs}, foldBranches fold args out g cs = some (g', bs) → ∀ b ∈ bs, Shaped b.body
  | [], g, g', bs, h => by
    simp only [foldBranches, Option.some.injEq, Prod.mk.injEq] at h
    rw [← h.2]; simp
  | c :: cs, g, g', bs, h => by
    simp only [foldBranches, Option.bind_eq_some_iff, Option.map_eq_some_iff] at h
    obtain ⟨fs, -, ⟨g1, b1⟩, h1, h⟩ := h
    cases h
    intro b hb
    rcases List.mem_cons.1 hb with rfl | hb
    · rw [shaped_iff]
      refine ⟨trivial, fun x hx => ?_⟩
      simp only [Branch.body, children, List.mem_map] at hx
      obtain ⟨e, ⟨p, -, rfl⟩, rfl⟩ := hx
      unfold foldField
      split
      · rw [shaped_iff]
        simp [NodeLit, children, shaped_name]
      · exact shaped_name _
    · exact foldBranches_shaped h1 b hb

theorem shaped_mtch {d : Expr} {bs : List Branch} : Shaped (.mtch d bs) ↔ (bs.map Branch.ctor).Nodup ∧ Shaped d ∧ ∀ b ∈ bs, Shaped b.body := by
  rw [shaped_iff]
  simp [NodeLit, children]

theorem foldParam_shaped {fold temp pty out g g' e} (h : foldParam fold temp pty out g = some (g', e))
    (ht : ∀ n args cs, pty = .named n args → g.typeCtors n = some cs → (cs.map (·.regular)).Nodup) : Shaped e := by
  unfold foldParam at h
  split at h
  · simp only [Option.bind_eq_some_iff, Option.map_eq_some_iff] at h
    obtain ⟨cs, h1, ⟨g1, bs⟩, h2, h⟩ := h
    cases h
    rw [shaped_mtch, foldBranches_ctors h2]
    exact ⟨ht _ _ cs rfl h1, shaped_name _, foldBranches_shaped h2⟩
  · cases h
    exact shaped_name _

theorem shaped_piApps : ∀ (ts : List Ty) (e : Expr), Shaped e → Shaped (piApps e ts)
  | [], _, h => h
  | t :: ts, e, h => shaped_piApps ts _ (by rw [shaped_iff]; simpa [NodeLit, children] using h)

theorem shaped_pis : ∀ (vs : List TyVar) {e : Expr}, Shaped e → Shaped (pis vs e)
  | [], _, h => h
  | v :: vs, e, h => by
    show Shaped (.pi v (pis vs e))
    rw [shaped_iff]
    simpa [NodeLit, children] using shaped_pis vs h
/-- What the shape of generated code depends on. -/
structure ShapeCx (Δ : List TypeDecl) (vs : List Symbol) (g : Gen) : Prop where
  decls : DeclsOK Δ
  gen : GenOK Δ g
  inj : CtorInj g
  vars : ∀ v ∈ vs, (g.tyVars v).isSome

theorem ShapeCx.ext {Δ : List TypeDecl} {vs bs g g'} (h : ShapeCx Δ vs g) (e : Ext bs g g') (hb : ∀ b ∈ bs, declOf Δ b = none) : ShapeCx Δ vs g' :=
  ⟨h.decls, h.gen.ext e hb, h.inj.ext e, fun v hv => e.isSome v (h.vars v hv)⟩

theorem ctors_nodup : ∀ {Δ : List TypeDecl}, DeclsOK Δ → ∀ {s d}, declOf Δ s = some d → (d.ctors.map (·.1)).Nodup
  | [], _, s, d, h => by simp [declOf] at h
  | d0 :: Δ, hD, s, d, h => by
    simp only [DeclsOK] at hD
    rw [declOf_cons] at h
    split at h
    · cases h; exact hD.2.1
    · exact ctors_nodup hD.2.2.2 h

/-- The constructors a fold rebuilds are different. -/
theorem ShapeCx.fold {Δ : List TypeDecl} {vs g} (h : ShapeCx Δ vs g) {a : IrTy} {n args cs} (ha : WfTy Δ vs a) (hf : IrTy.isFolded a = false)
    (hg : genTy g a = some (.named n args)) (hc : g.typeCtors n = some cs) : (cs.map (·.regular)).Nodup := by
  cases a <;> try simp only [genTy, reduceCtorEq, Option.some.injEq, Option.bind_eq_some_iff, Option.map_eq_some_iff] at hg
  case named s xs =>
    have hw := ha
    simp only [WfTy] at hw
    cases htv : g.tyVars s with
    | some v => rw [htv] at hg; simp at hg
    | none =>
      rw [htv] at hg
      simp only [Option.bind_eq_some_iff, Option.map_eq_some_iff] at hg
      obtain ⟨n', h1, ts, -, e⟩ := hg
      cases e
      have hd : ∃ d, declOf Δ s = some d := by
        cases hd : declOf Δ s with
        | some d => exact ⟨d, rfl⟩
        | none =>
          exfalso
          have : s ∈ vs := by
            rcases hw with hw | hw
            · exact hw
            · simp [arity, hd] at hw
          have := h.vars s this
          rw [htv] at this
          cases this
      obtain ⟨d, hd⟩ := hd
      obtain ⟨n2, cs2, e1, e2, e3⟩ := h.gen.name s d hd
      rw [h1] at e1; cases e1
      rw [hc] at e2; cases e2
      have hn := ctors_nodup h.decls hd
      have : mapOpt (fun c => (g.ctors c).map (·.regular)) (d.ctors.map (·.1)) = some (cs.map (·.regular)) := by
        have gen : ∀ {xs : List Symbol} {ys : List Ctor}, mapOpt g.ctors xs = some ys → mapOpt (fun c => (g.ctors c).map (·.regular)) xs = some (ys.map (·.regular)) := by
          intro xs
          induction xs with
          | nil => intro ys h; simp only [mapOpt, Option.some.injEq] at h ⊢; subst h; rfl
          | cons x xs ih =>
            intro ys h
            simp only [mapOpt, Option.bind_eq_some_iff, Option.map_eq_some_iff] at h
            obtain ⟨y, h1, zs, h2, rfl⟩ := h
            simp [mapOpt, h1, ih h2]
        exact gen e3
      refine mapOpt_nodup (fun c c' n h1 h2 => ?_) hn this
      exact caseName_inj h.inj (b := false) c c' n (by simpa [Gen.caseName] using h1) (by simpa [Gen.caseName] using h2)
  case fn a b =>
    obtain ⟨_, _, _, _, e⟩ := hg
    cases e
  case folded a b => cases hf

mutual
/-- Generated code has the right shape. -/
theorem shaped_gen {Δ : List TypeDecl} : ∀ (e : Ex IrTy) {vs Γ t g g' c}, ShapeCx Δ vs g → (∀ b ∈ binderSyms e, declOf Δ b = none) →
    HasTy Δ vs Γ e t → Once e → genExpr g e = some (g', c) → Shaped c
  | .name s inst, vs, Γ, t, g, g', c, hs, hb, ht, ho, h => by
    simp only [genExpr, Option.bind_eq_some_iff, Option.map_eq_some_iff] at h
    obtain ⟨_, -, _, -, h⟩ := h
    cases h
    exact shaped_piApps _ _ (shaped_name _)
  | .apply f a, vs, Γ, t, g, g', c, hs, hb, ht, ho, h => by
    simp only [genExpr, Option.bind_eq_some_iff, Option.map_eq_some_iff] at h
    obtain ⟨⟨g1, c1⟩, h1, ⟨g2, c2⟩, h2, h⟩ := h
    cases h
    simp only [HasTy] at ht
    obtain ⟨u, t1, t2⟩ := ht
    simp only [Once] at ho
    simp only [binderSyms, List.mem_append] at hb
    have s1 := shaped_gen f hs (fun b h => hb b (.inl h)) t1 ho.1 h1
    have s2 := shaped_gen a (hs.ext (ext_genExpr f h1) fun b h => hb b (.inl h)) (fun b h => hb b (.inr h)) t2 ho.2 h2
    rw [shaped_iff]
    simp [NodeLit, children, s1, s2]
  | .binary o f a, vs, Γ, t, g, g', c, hs, hb, ht, ho, h => by
    simp only [genExpr, Option.bind_eq_some_iff, Option.map_eq_some_iff] at h
    obtain ⟨⟨g1, c1⟩, h1, ⟨g2, c2⟩, h2, h⟩ := h
    cases h
    simp only [HasTy] at ht
    obtain ⟨t1, t2, -⟩ := ht
    simp only [Once] at ho
    simp only [binderSyms, List.mem_append] at hb
    have s1 := shaped_gen f hs (fun b h => hb b (.inl h)) t1 ho.1 h1
    have s2 := shaped_gen a (hs.ext (ext_genExpr f h1) fun b h => hb b (.inl h)) (fun b h => hb b (.inr h)) t2 ho.2 h2
    rw [shaped_iff]
    simp [NodeLit, children, s1, s2]
  | .pipe f a, vs, Γ, t, g, g', c, hs, hb, ht, ho, h => by
    simp only [genExpr, Option.bind_eq_some_iff, Option.map_eq_some_iff] at h
    obtain ⟨⟨g1, c1⟩, h1, ⟨g2, c2⟩, h2, h⟩ := h
    cases h
    simp only [HasTy] at ht
    obtain ⟨u, t1, t2⟩ := ht
    simp only [Once] at ho
    simp only [binderSyms, List.mem_append] at hb
    have s1 := shaped_gen f hs (fun b h => hb b (.inl h)) t1 ho.1 h1
    have s2 := shaped_gen a (hs.ext (ext_genExpr f h1) fun b h => hb b (.inl h)) (fun b h => hb b (.inr h)) t2 ho.2 h2
    rw [shaped_iff]
    simp [NodeLit, children, s1, s2]
  | .let_ s vars ann ty v rest, vs, Γ, t, g, g', c, hs, hb, ht, ho, h => by
    simp only [genExpr, Option.bind_eq_some_iff, Option.map_eq_some_iff] at h
    obtain ⟨⟨g1, c1⟩, h1, vs', -, ⟨g2, c2⟩, h2, h⟩ := h
    cases h
    simp only [HasTy] at ht
    obtain ⟨-, -, -, -, t1, t2⟩ := ht
    simp only [Once] at ho
    simp only [binderSyms, List.mem_append, List.mem_cons] at hb
    have e1 := (ext_genName g s).trans (ext_freshInst vars _)
    have e1b : ∀ b ∈ [s] ++ vars, declOf Δ b = none := fun b h => by
      simp only [List.mem_append, List.mem_singleton] at h
      rcases h with h | h
      · exact hb b (.inl h)
      · exact hb b (.inr (.inl h))
    have q1 := hs.ext e1 e1b
    have q1' : ShapeCx Δ (vars ++ vs) ((g.genName s).1.freshInst vars) := ⟨q1.decls, q1.gen, q1.inj, fun x hx => by
      rcases List.mem_append.1 hx with hx | hx
      · exact freshInst_some hx
      · exact q1.vars x hx⟩
    have s1 := shaped_gen v q1' (fun b h => hb b (.inr (.inr (.inl h)))) t1 ho.1 h1
    have s2 := shaped_gen rest (q1.ext (ext_genExpr v h1) fun b h => hb b (.inr (.inr (.inl h)))) (fun b h => hb b (.inr (.inr (.inr h)))) t2 ho.2 h2
    have := shaped_pis vs' s1
    rw [shaped_iff]
    simp [NodeLit, children, s2, this]
  | .match_ d dty cases, vs, Γ, t, g, g', c, hs, hb, ht, ho, h => by
    simp only [genExpr, Option.bind_eq_some_iff, Option.map_eq_some_iff] at h
    obtain ⟨⟨g1, c1⟩, h1, b, -, ⟨g2, c2⟩, h2, h⟩ := h
    cases h
    simp only [HasTy] at ht
    obtain ⟨t1, -, decl, args, recTy, -, -, -, -, t2⟩ := ht
    simp only [Once] at ho
    simp only [binderSyms, List.mem_append] at hb
    have s1 := shaped_gen d hs (fun b h => hb b (.inl h)) t1 ho.2.1 h1
    have q := hs.ext (ext_genExpr d h1) fun b h => hb b (.inl h)
    have s2 := shaped_cases cases q (fun b h => hb b (.inr h)) t2 ho.2.2 h2
    rw [shaped_mtch]
    exact ⟨mapOpt_nodup (caseName_inj q.inj) ho.1 (genCases_ctors h2), s1, s2⟩
  | .ite a b e, vs, Γ, t, g, g', c, hs, hb, ht, ho, h => by
    simp only [genExpr, Option.bind_eq_some_iff, Option.map_eq_some_iff] at h
    obtain ⟨⟨g1, c1⟩, h1, ⟨g2, c2⟩, h2, ⟨g3, c3⟩, h3, h⟩ := h
    cases h
    simp only [HasTy] at ht
    obtain ⟨t1, t2, t3⟩ := ht
    simp only [Once] at ho
    simp only [binderSyms, List.mem_append] at hb
    have s1 := shaped_gen a hs (fun b h => hb b (.inl h)) t1 ho.1 h1
    have q1 := hs.ext (ext_genExpr a h1) fun b h => hb b (.inl h)
    have s2 := shaped_gen b q1 (fun b h => hb b (.inr (.inl h))) t2 ho.2.1 h2
    have s3 := shaped_gen e (q1.ext (ext_genExpr b h2) fun b h => hb b (.inr (.inl h))) (fun b h => hb b (.inr (.inr h))) t3 ho.2.2 h3
    rw [shaped_iff]
    simp [NodeLit, children, s1, s2, s3]
  | .bool _, vs, Γ, t, g, g', c, hs, hb, ht, ho, h | .number _, vs, Γ, t, g, g', c, hs, hb, ht, ho, h | .str _, vs, Γ, t, g, g', c, hs, hb, ht, ho, h => by
    simp only [genExpr, Option.some.injEq, Prod.mk.injEq] at h
    rw [← h.2, shaped_iff]
    simp [NodeLit, children]
  | .lambda true p pty fty body, vs, Γ, t, g, g', c, hs, hb, ht, ho, h => by
    simp only [genExpr, Option.bind_eq_some_iff] at h
    obtain ⟨ft, hft, h⟩ := h
    split at h
    · simp only [Option.bind_eq_some_iff, Option.map_eq_some_iff] at h
      obtain ⟨⟨g1, c1⟩, h1, ⟨g2, c2⟩, h2, h⟩ := h
      cases h
      simp only [HasTy] at ht
      obtain ⟨rfl, w1, a, b, rfl, hfold, rfl, t1⟩ := ht
      simp only [Once] at ho
      simp only [binderSyms, List.mem_cons] at hb
      have q1 := hs.ext ((ext_genName g p).trans ((ext_fresh _).trans (ext_fresh _))) (fun b h => hb b (.inl (by simpa using h)))
      have s1 := shaped_gen body q1 (fun b h => hb b (.inr h)) t1 ho h1
      have e1 := ext_genExpr body h1
      have hw : WfTy Δ vs a := by simp only [WfTy] at w1; exact w1.1
      simp only [genTy, Option.bind_eq_some_iff, Option.map_eq_some_iff] at hft
      obtain ⟨a', ha, b', -, e⟩ := hft
      cases e
      have s2 := foldParam_shaped h2 fun n args cs hn hc => by
        subst hn
        refine hs.fold hw hfold ha ?_
        rw [e1.typeCtors] at hc
        exact hc
      rw [shaped_iff]
      refine ⟨⟨_, _, rfl⟩, fun x hx => ?_⟩
      simp only [children, List.mem_cons, List.not_mem_nil, or_false] at hx
      rcases hx with rfl | rfl
      · rw [shaped_iff]
        refine ⟨trivial, fun x hx => ?_⟩
        simp only [children, List.mem_singleton] at hx
        subst hx
        rw [shaped_iff]
        simp [NodeLit, children, s1, s2]
      · exact shaped_name _
    · cases h
  | .lambda false p pty fty body, vs, Γ, t, g, g', c, hs, hb, ht, ho, h => by
    simp only [genExpr, Option.bind_eq_some_iff, Option.map_eq_some_iff] at h
    obtain ⟨⟨g1, c1⟩, h1, ⟨g2, c2⟩, h2, h⟩ := h
    cases h
    simp only [HasTy] at ht
    obtain ⟨-, -, b, -, t1⟩ := ht
    simp only [Once] at ho
    simp only [binderSyms, List.mem_cons] at hb
    have s1 := shaped_gen body (hs.ext (ext_genName g p) fun b h => hb b (.inl (by simpa using h))) (fun b h => hb b (.inr h)) t1 ho h1
    rw [shaped_iff]
    simp [NodeLit, children, s1]
  | .paren e, vs, Γ, t, g, g', c, hs, hb, ht, ho, h => by
    simp only [HasTy] at ht
    simp only [Once] at ho
    simp only [binderSyms] at hb
    exact shaped_gen e hs hb ht ho (by simpa only [genExpr] using h)
  | .hole _ _, vs, Γ, t, g, g', c, hs, hb, ht, ho, h => by
    simp only [genExpr, Option.map_eq_some_iff] at h
    obtain ⟨_, -, h⟩ := h
    cases h
    rw [shaped_iff]
    simp [NodeLit, children]
theorem shaped_cases {Δ : List TypeDecl} : ∀ (cs : List (Case IrTy)) {vs Γ decl args recTy t b g g' bs}, ShapeCx Δ vs g → (∀ b ∈ casesBinderSyms cs, declOf Δ b = none) →
    HasCases Δ vs Γ decl args recTy cs t → Onces cs → genCases b g cs = some (g', bs) → ∀ x ∈ bs, Shaped x.body
  | [], vs, Γ, decl, args, recTy, t, b, g, g', bs, hs, hb, ht, ho, h => by
    simp only [genCases, Option.some.injEq, Prod.mk.injEq] at h
    rw [← h.2]; simp
  | .mk c vars body :: cs, vs, Γ, decl, args, recTy, t, b, g, g', bs, hs, hb, ht, ho, h => by
    simp only [genCases, Option.bind_eq_some_iff, Option.map_eq_some_iff] at h
    obtain ⟨⟨g1, c1⟩, h1, n, -, ⟨g2, c2⟩, h2, h⟩ := h
    cases h
    simp only [HasCases] at ht
    obtain ⟨-, t1, t2⟩ := ht
    simp only [Onces] at ho
    simp only [casesBinderSyms, List.mem_append] at hb
    have q1 := hs.ext (ext_genNames (vars.map (·.1)) g) fun b h => hb b (.inl h)
    have s1 := shaped_gen body q1 (fun b h => hb b (.inr (.inl h))) t1 ho.1 h1
    have s2 := shaped_cases cs (q1.ext (ext_genExpr body h1) fun b h => hb b (.inr (.inl h))) (fun b h => hb b (.inr (.inr h))) t2 ho.2 h2
    intro x hx
    rcases List.mem_cons.1 hx with rfl | hx
    · exact s1
    · exact s2 x hx
end
/-! ### Generated definitions -/

theorem shaped_con {n : Name} {ts : List Ty} {xs : List Name} : Shaped (.con n ts (xs.map .name)) := by
  rw [shaped_iff]
  refine ⟨trivial, fun c hc => ?_⟩
  simp only [children, List.mem_map] at hc
  obtain ⟨_, ⟨x, -, rfl⟩, rfl⟩ := hc
  exact shaped_name x

theorem shaped_intr {i : Core.Intrinsic} {xs : List Name} : Shaped (.intr i (xs.map .name)) := by
  rw [shaped_iff]
  refine ⟨trivial, fun c hc => ?_⟩
  simp only [children, List.mem_map] at hc
  obtain ⟨_, ⟨x, -, rfl⟩, rfl⟩ := hc
  exact shaped_name x

theorem shaped_lams : ∀ (ps : List (Name × Ty)) {e : Expr}, Shaped e → Shaped (ps.foldr (fun p e => .lam [p] e) e)
  | [], _, h => h
  | p :: ps, e, h => by
    rw [List.foldr_cons, shaped_iff]
    simpa [NodeLit, children] using shaped_lams ps h

/-- All definitions so far have the right shape. -/
def DefsShaped (g : Gen) : Prop := ∀ d ∈ g.defs, Shaped d.value

theorem shaped_builtin (g : Gen) (b : Builtin) : Shaped (genBuiltin g b).2 := by
  have hi : ∀ i tys, Shaped (intrFn g i tys).2 := fun i tys => shaped_lams _ shaped_intr
  cases b <;> try exact hi _ _
  simp only [genBuiltin, iterateFn]
  repeat (rw [shaped_iff]; simp [NodeLit, children])

theorem defs_freshInst : ∀ (ss : List Symbol) (g : Gen), (g.freshInst ss).defs = g.defs
  | [], _ => rfl
  | _ :: ss, g => defs_freshInst ss _

theorem defs_freshes : ∀ (n : Nat) (g : Gen), (g.freshes n).1.defs = g.defs
  | 0, _ => rfl
  | n + 1, g => defs_freshes n _

theorem defs_foldedInst (g : Gen) (b : Bool) : (g.foldedInst b).1.defs = g.defs := by
  cases b <;> rfl

theorem shaped_genCtorFn {functor tyName vars g c cn g'} (h : genCtorFn functor tyName vars g c cn = some g') (hg : DefsShaped g) : DefsShaped g' := by
  simp only [genCtorFn, Option.bind_eq_some_iff, Option.map_eq_some_iff] at h
  obtain ⟨fields, -, vs, -, ts, -, vs', -, ts', -, rfl⟩ := h
  intro d hd
  have hn : (if functor = true then g.fresh else g.genName c).1.defs = g.defs := by cases functor <;> rfl
  simp only [defs_freshInst, defs_foldedInst, defs_freshes, hn] at hd
  cases functor
  · simp only [Bool.false_eq_true, if_false, List.mem_append, List.mem_singleton] at hd
    rcases hd with hd | rfl
    · exact hg d hd
    · exact shaped_pis _ (shaped_lams _ shaped_con)
  · exact hg d hd

theorem shaped_genCtorFns {functor tyName vars} : ∀ {ps : List (Symbol × Name)} {g g'}, genCtorFns functor tyName vars g ps = some g' → DefsShaped g → DefsShaped g'
  | [], g, g', h, hg => by
    simp only [genCtorFns, Option.some.injEq] at h
    exact h ▸ hg
  | p :: ps, g, g', h, hg => by
    simp only [genCtorFns, Option.bind_eq_some_iff] at h
    obtain ⟨g1, h1, h2⟩ := h
    exact shaped_genCtorFns h2 (shaped_genCtorFn h1 hg)

theorem defs_genTyCases {recTy} : ∀ {cs : List Symbol} {g g' ts}, genTyCases recTy g cs = some (g', ts) → g'.defs = g.defs
  | [], g, g', ts, h => by
    simp only [genTyCases, Option.some.injEq, Prod.mk.injEq] at h
    rw [← h.1]
  | c :: cs, g, g', ts, h => by
    simp only [genTyCases, Option.bind_eq_some_iff, Option.map_eq_some_iff] at h
    obtain ⟨fields, -, us, -, ⟨g1, ts1⟩, h1, h⟩ := h
    cases h
    exact (defs_genTyCases h1).trans rfl

theorem shaped_genTypeItem {functor g d g'} (h : genTypeItem functor g d = some g') (hg : DefsShaped g) : DefsShaped g' := by
  simp only [genTypeItem, Option.bind_eq_some_iff, Option.map_eq_some_iff] at h
  obtain ⟨vs, -, ⟨g1, ts⟩, h1, g2, h2, cs, -, rfl⟩ := h
  have hd := defs_genTyCases h1
  rw [defs_foldedInst, defs_freshInst] at hd
  have : g1.defs = g.defs := by rw [hd]; cases functor <;> rfl
  have s1 : DefsShaped g1 := by unfold DefsShaped; rw [this]; exact hg
  have s2 : DefsShaped g2 := shaped_genCtorFns h2 s1
  exact s2

mutual
theorem item_shaped {I : Symbol → Option Builtin} : ∀ (i : Item) {ee : Bool} {w : World} {g g' : Gen} {ks}, Inv w g → Accepted I w i →
    emitItem I ee (w.done, g) i = some (ks, g') → DefsShaped g → DefsShaped g'
  | .value s ex sch body, ee, w, g, g', ks, hi, ha, h, hg => by
    simp only [Accepted] at ha
    simp only [emitItem, Option.map_eq_some_iff] at h
    obtain ⟨g1, h1, h⟩ := h
    cases h
    have hv := accepted_value_ok ha
    obtain ⟨hnd, hnu⟩ := hv.new
    obtain ⟨ty, tvs, g4, c, h2, h3, h4, rfl⟩ := genValueItem_inv h1
    obtain ⟨e34, -⟩ := genItemValue_ext h4
    have e03 := ((ext_genName g s).trans (ext_freshInst sch.vars _)).trans (ext_freshInst sch.vars _)
    intro d hd
    have hdefs : g4.defs = g.defs := (e03.trans e34).defs
    simp only [hdefs, List.mem_append, List.mem_singleton] at hd
    rcases hd with hd | rfl
    · exact hg d hd
    · show Shaped c
      unfold genItemValue at h4
      cases hI : I s with
      | some b =>
        rw [hI] at h4
        have e : (genBuiltin _ b).2 = c := congrArg Prod.snd (Option.some.inj h4)
        rw [← e]
        exact shaped_builtin _ b
      | none =>
        rw [hI] at h4
        simp only [Option.bind_eq_some_iff, Option.map_eq_some_iff] at h4
        obtain ⟨⟨g5, c5⟩, h5, vs, -, e⟩ := h4
        cases e
        obtain ⟨Γ, -, hT⟩ := hv.typed hI
        have ho := once_of body (ws := []) hT (ha.matches_ hI)
        rw [← genExpr_fill] at h5
        have none_of : ∀ x ∈ s :: (sch.vars ++ binderSyms body), declOf w.decls x = none := fun x hx => (hi.away hnu).none x hx
        have q : ShapeCx w.decls [] g := ⟨hi.decls, hi.gen.ok, hi.inj, by simp⟩
        have q3 := q.ext e03 (fun b hb => none_of b (by simp only [List.mem_append, List.mem_cons, List.not_mem_nil, or_false] at hb ⊢; grind))
        refine shaped_pis _ (shaped_gen (vs := sch.vars) (body.map fill) ⟨q3.decls, q3.gen, q3.inj, fun v hv => freshInst_some hv⟩ (fun b hb => none_of b ?_) hT (once_map fill body ho) h5)
        rw [binderSyms_map] at hb
        simp [hb]
  | .type d, ee, w, g, g', ks, hi, ha, h, hg => by
    simp only [emitItem, Option.bind_eq_some_iff, Option.map_eq_some_iff] at h
    obtain ⟨g1, h1, g2, h2, h⟩ := h
    cases h
    exact shaped_genTypeItem h2 (shaped_genTypeItem h1 hg)
  | .imports key items, ee, w, g, g', ks, hi, ha, h, hg => by
    simp only [Accepted] at ha
    simp only [emitItem] at h
    split at h
    · cases h; exact hg
    · rename_i hk
      exact items_shaped items (w := { w with done := key :: w.done }) 
        ⟨hi.gen, hi.decls, hi.used, hi.vars, hi.wf, hi.ctx, hi.tyVars, hi.folded, hi.ctors, hi.inj, hi.types⟩ (ha.resolve_left hk) h hg
theorem items_shaped {I : Symbol → Option Builtin} : ∀ (is : List Item) {ee : Bool} {w : World} {g g' : Gen} {ks}, Inv w g → Accepteds I w is →
    emitItems I ee (w.done, g) is = some (ks, g') → DefsShaped g → DefsShaped g'
  | [], ee, w, g, g', ks, hi, ha, h, hg => by
    simp only [emitItems, Option.some.injEq, Prod.mk.injEq] at h
    exact h.2 ▸ hg
  | i :: is, ee, w, g, g', ks, hi, ha, h, hg => by
    simp only [Accepteds] at ha
    obtain ⟨g1, h1, s1⟩ := item_step (ee := ee) i hi (accepted_ok i ha.1)
    simp only [emitItems, h1, Option.bind_some] at h
    exact items_shaped is s1.inv ha.2 h (item_shaped i hi ha.1 h1 hg)
end

/-- In the program generated from accepted items every recursive definition is a function, and no match
has two branches for one constructor. -/
theorem accepted_program_shaped {I : Symbol → Option Builtin} {items : List Item} (h : Accepteds I {} items) {p : Program} (hp : generateCore I items = some p) :
    ∀ d ∈ p.defs, Shaped d.value := by
  simp only [generateCore, Option.map_eq_some_iff] at hp
  obtain ⟨⟨ks, g⟩, h1, rfl⟩ := hp
  exact items_shaped items inv_empty h h1 (by simp [DefsShaped])

end Tic.Front
