import Verif.Logic
/-
What generating code for an expression leaves unchanged.
-/
namespace Tic.Front
open Tic.Unify (Symbol IrTy)
open Tic.Core (Name TyVar Ty Expr Branch)

/-- Only the names and type variables of the symbols `bs` change. -/
structure Ext (bs : List Symbol) (g g' : Gen) : Prop where
  names : g.names ≤ g'.names
  sym : ∀ s, s ∉ bs → g'.symNames s = g.symNames s
  ty : ∀ s, s ∉ bs → g'.tyVars s = g.tyVars s
  isSome : ∀ s, (g.tyVars s).isSome → (g'.tyVars s).isSome
  folded : g'.foldedNames = g.foldedNames
  fields : g'.ctorFields = g.ctorFields
  ctors : g'.ctors = g.ctors
  typeCtors : g'.typeCtors = g.typeCtors
  types : g'.types = g.types
  defs : g'.defs = g.defs

theorem Ext.refl (bs : List Symbol) (g : Gen) : Ext bs g g := ⟨Nat.le_refl _, fun _ _ => rfl, fun _ _ => rfl, fun _ h => h, rfl, rfl, rfl, rfl, rfl, rfl⟩

theorem Ext.trans {bs cs g g' g''} (h : Ext bs g g') (h' : Ext cs g' g'') : Ext (bs ++ cs) g g'' where
  names := Nat.le_trans h.names h'.names
  sym s hs := by simp only [List.mem_append, not_or] at hs; rw [h'.sym s hs.2, h.sym s hs.1]
  ty s hs := by simp only [List.mem_append, not_or] at hs; rw [h'.ty s hs.2, h.ty s hs.1]
  isSome s hs := h'.isSome s (h.isSome s hs)
  folded := h'.folded.trans h.folded
  fields := h'.fields.trans h.fields
  ctors := h'.ctors.trans h.ctors
  typeCtors := h'.typeCtors.trans h.typeCtors
  types := h'.types.trans h.types
  defs := h'.defs.trans h.defs

theorem Ext.weaken {bs cs g g'} (h : Ext bs g g') (hs : ∀ s ∈ bs, s ∈ cs) : Ext cs g g' :=
  { h with
    sym := fun s hn => h.sym s fun hb => hn (hs s hb)
    ty := fun s hn => h.ty s fun hb => hn (hs s hb) }

theorem setAt_ne {α : Type} {f : Symbol → Option α} {s a k} (h : k ≠ s) : setAt f s a k = f k := by simp [setAt, h]
@[simp] theorem setAt_eq {α : Type} {f : Symbol → Option α} {s a} : setAt f s a s = some a := by simp [setAt]

theorem ext_fresh (g : Gen) : Ext [] g g.fresh.1 := ⟨Nat.le_succ _, fun _ _ => rfl, fun _ _ => rfl, fun _ h => h, rfl, rfl, rfl, rfl, rfl, rfl⟩

theorem ext_genName (g : Gen) (s : Symbol) : Ext [s] g (g.genName s).1 :=
  ⟨Nat.le_succ _, fun k hk => setAt_ne (by simpa using hk), fun _ _ => rfl, fun _ h => h, rfl, rfl, rfl, rfl, rfl, rfl⟩

theorem ext_genNames : ∀ (ss : List Symbol) (g : Gen), Ext ss g (g.genNames ss).1
  | [], g => Ext.refl _ g
  | s :: ss, g => (ext_genName g s).trans (ext_genNames ss _)

theorem ext_freshes : ∀ (n : Nat) (g : Gen), Ext [] g (g.freshes n).1
  | 0, g => Ext.refl _ g
  | n + 1, g => (ext_fresh g).trans (ext_freshes n _)

theorem ext_freshInst : ∀ (ss : List Symbol) (g : Gen), Ext ss g (g.freshInst ss)
  | [], g => Ext.refl _ g
  | s :: ss, g => by
    have h1 : Ext [s] g { g with tys := g.tys + 1, tyVars := setAt g.tyVars s g.tys } :=
      ⟨Nat.le_refl _, fun _ _ => rfl, fun k hk => setAt_ne (by simpa using hk), fun k hk => by
        simp only [setAt]
        split
        · rfl
        · exact hk, rfl, rfl, rfl, rfl, rfl, rfl⟩
    exact h1.trans (ext_freshInst ss _)

theorem freshInst_some : ∀ {ss : List Symbol} {g : Gen} {s}, s ∈ ss → ((g.freshInst ss).tyVars s).isSome
  | t :: ss, g, s, h => by
    simp only [Gen.freshInst]
    rcases List.mem_cons.mp h with rfl | h
    · exact (ext_freshInst ss _).isSome s (by simp [setAt])
    · exact freshInst_some h

theorem freshInst_names : ∀ {ss : List Symbol} {g : Gen}, (g.freshInst ss).names = g.names
  | [], g => rfl
  | s :: ss, g => by simp only [Gen.freshInst]; rw [freshInst_names]

theorem freshInst_sym : ∀ {ss : List Symbol} {g : Gen}, (g.freshInst ss).symNames = g.symNames
  | [], g => rfl
  | s :: ss, g => by simp only [Gen.freshInst]; rw [freshInst_sym]

theorem mapOpt_isSome {α β : Type} {f : α → Option β} : ∀ {xs : List α}, (∀ x ∈ xs, (f x).isSome) → ∃ ys, mapOpt f xs = some ys ∧ ys.length = xs.length
  | [], _ => ⟨[], rfl, rfl⟩
  | x :: xs, h => by
    obtain ⟨y, hy⟩ := Option.isSome_iff_exists.mp (h x (by simp))
    obtain ⟨ys, hys, hl⟩ := mapOpt_isSome (f := f) (xs := xs) (fun z hz => h z (by simp [hz]))
    exact ⟨y :: ys, by simp [mapOpt, hy, hys], by simp [hl]⟩

theorem ext_instTy {g g' vars t ty} (h : Gen.instTy g vars t = some (g', ty)) : Ext vars g g' := by
  simp only [Gen.instTy, Option.bind_eq_some_iff, Option.map_eq_some_iff] at h
  obtain ⟨_, -, _, -, h⟩ := h
  cases h
  exact ext_freshInst _ _

theorem ext_foldBranches {fold args out} : ∀ {cs g g' bs}, foldBranches fold args out g cs = some (g', bs) → Ext [] g g'
  | [], g, g', bs, h => by
    cases h
    exact Ext.refl _ _
  | c :: cs, g, g', bs, h => by
    simp only [foldBranches, Option.bind_eq_some_iff, Option.map_eq_some_iff] at h
    obtain ⟨fields, -, ⟨g2, bs2⟩, h2, h⟩ := h
    cases h
    exact (ext_freshes _ _).trans (ext_foldBranches h2)

theorem ext_foldParam {fold temp pty out g g' e} (h : foldParam fold temp pty out g = some (g', e)) : Ext [] g g' := by
  unfold foldParam at h
  split at h
  · simp only [Option.bind_eq_some_iff, Option.map_eq_some_iff] at h
    obtain ⟨cs, -, ⟨g2, bs2⟩, h2, h⟩ := h
    cases h
    exact ext_foldBranches h2
  · cases h
    exact Ext.refl _ _

mutual
theorem ext_genExpr : ∀ (e : Ex IrTy) {g g' c}, genExpr g e = some (g', c) → Ext (binderSyms e) g g'
  | .name s inst, g, g', c, h => by
    simp only [genExpr, Option.bind_eq_some_iff, Option.map_eq_some_iff] at h
    obtain ⟨_, -, _, -, h⟩ := h
    cases h
    exact Ext.refl _ _
  | .apply f a, g, g', c, h => by
    simp only [genExpr, Option.bind_eq_some_iff, Option.map_eq_some_iff] at h
    obtain ⟨⟨g1, c1⟩, h1, ⟨g2, c2⟩, h2, h⟩ := h
    cases h
    exact (ext_genExpr f h1).trans (ext_genExpr a h2)
  | .binary o l r, g, g', c, h => by
    simp only [genExpr, Option.bind_eq_some_iff, Option.map_eq_some_iff] at h
    obtain ⟨⟨g1, c1⟩, h1, ⟨g2, c2⟩, h2, h⟩ := h
    cases h
    exact (ext_genExpr l h1).trans (ext_genExpr r h2)
  | .pipe l r, g, g', c, h => by
    simp only [genExpr, Option.bind_eq_some_iff, Option.map_eq_some_iff] at h
    obtain ⟨⟨g1, c1⟩, h1, ⟨g2, c2⟩, h2, h⟩ := h
    cases h
    exact (ext_genExpr l h1).trans (ext_genExpr r h2)
  | .let_ s vars _ _ v rest, g, g', c, h => by
    simp only [genExpr, Option.bind_eq_some_iff, Option.map_eq_some_iff] at h
    obtain ⟨⟨g1, c1⟩, h1, vs, -, ⟨g2, c2⟩, h2, h⟩ := h
    cases h
    exact (ext_genName g s).trans ((ext_freshInst vars _).trans ((ext_genExpr v h1).trans (ext_genExpr rest h2)))
  | .match_ d dty cases, g, g', c, h => by
    simp only [genExpr, Option.bind_eq_some_iff, Option.map_eq_some_iff] at h
    obtain ⟨⟨g1, c1⟩, h1, b, -, ⟨g2, c2⟩, h2, h⟩ := h
    cases h
    exact (ext_genExpr d h1).trans (ext_genCases cases h2)
  | .ite a b e, g, g', c, h => by
    simp only [genExpr, Option.bind_eq_some_iff, Option.map_eq_some_iff] at h
    obtain ⟨⟨g1, c1⟩, h1, ⟨g2, c2⟩, h2, ⟨g3, c3⟩, h3, h⟩ := h
    cases h
    exact (ext_genExpr a h1).trans ((ext_genExpr b h2).trans (ext_genExpr e h3))
  | .bool _, g, g', c, h | .number _, g, g', c, h | .str _, g, g', c, h => by
    simp only [genExpr, Option.some.injEq, Prod.mk.injEq] at h
    rw [← h.1]
    exact Ext.refl _ _
  | .lambda true p pty fty body, g, g', c, h => by
    simp only [genExpr, Option.bind_eq_some_iff] at h
    obtain ⟨ft, -, h⟩ := h
    split at h
    · simp only [Option.bind_eq_some_iff, Option.map_eq_some_iff] at h
      obtain ⟨⟨g1, c1⟩, h1, ⟨g2, c2⟩, h2, h⟩ := h
      cases h
      refine (((ext_genName g p).trans ((ext_fresh _).trans (ext_fresh _))).trans ((ext_genExpr body h1).trans (ext_foldParam h2))).weaken ?_
      simp [binderSyms]
    · cases h
  | .lambda false p pty fty body, g, g', c, h => by
    simp only [genExpr, Option.bind_eq_some_iff, Option.map_eq_some_iff] at h
    obtain ⟨⟨g1, c1⟩, h1, ⟨g2, c2⟩, h2, h⟩ := h
    cases h
    refine ((ext_genName g p).trans ((ext_genExpr body h1).trans (ext_instTy h2))).weaken ?_
    simp [binderSyms]
  | .paren e, g, g', c, h => ext_genExpr e (by simpa only [genExpr] using h)
  | .hole _ _, g, g', c, h => by
    simp only [genExpr, Option.map_eq_some_iff] at h
    obtain ⟨_, -, h⟩ := h
    cases h
    exact Ext.refl _ _
theorem ext_genCases : ∀ (cs : List (Case IrTy)) {b g g' bs}, genCases b g cs = some (g', bs) → Ext (casesBinderSyms cs) g g'
  | [], b, g, g', bs, h => by
    simp only [genCases, Option.some.injEq, Prod.mk.injEq] at h
    rw [← h.1]
    exact Ext.refl _ _
  | .mk c vars body :: cs, b, g, g', bs, h => by
    simp only [genCases, Option.bind_eq_some_iff, Option.map_eq_some_iff] at h
    obtain ⟨⟨g1, c1⟩, h1, n, -, ⟨g2, c2⟩, h2, h⟩ := h
    cases h
    exact (ext_genNames _ g).trans ((ext_genExpr body h1).trans (ext_genCases cs h2))
end

/-! ### Types left open -/

mutual
theorem genTy_fill (g : Gen) : ∀ t, genTy g (fill t) = genTy g t
  | .int | .bool | .str | .error | .infer => by simp only [fill, genTy]
  | .named s args => by simp only [fill, genTy, genTys_fill g args, fills_isEmpty]
  | .fn a b => by simp only [fill, genTy, genTy_fill g a, genTy_fill g b]
  | .folded (.named s args) b => by simp only [fill, genTy, genTy_fill g b, genTys_fill g args, fills_isEmpty]
  | .folded .int b | .folded .bool b | .folded .str b | .folded .error b | .folded .infer b => by simp only [fill, genTy]
  | .folded (.fn a b) c => by
    have := genTy_fill g (.fn a b)
    simpa only [fill, genTy] using this
  | .folded (.folded a b) c => by
    have := genTy_fill g (.folded a b)
    simp only [fill] at this
    simpa only [fill, genTy] using this
theorem genTys_fill (g : Gen) : ∀ ts, genTys g (fills ts) = genTys g ts
  | [] => by simp only [fills]
  | t :: ts => by simp only [fills, genTys, genTy_fill g t, genTys_fill g ts]
theorem fills_isEmpty : ∀ ts, (fills ts).isEmpty = ts.isEmpty
  | [] => by simp only [fills]
  | t :: ts => by simp only [fills, List.isEmpty_cons]
end

theorem fills_map : ∀ ts, fills ts = ts.map fill
  | [] => by simp only [fills, List.map_nil]
  | t :: ts => by simp only [fills, List.map_cons, fills_map ts]

theorem foldedMatch_fill (t : IrTy) : foldedMatch (fill t) = foldedMatch t := by
  cases t <;> simp only [fill, foldedMatch]

mutual
/-- Open types are generated as `Int`. -/
theorem genExpr_fill : ∀ (e : Ex IrTy) (g : Gen), genExpr g (e.map fill) = genExpr g e
  | .name s inst, g => by simp only [Ex.map, genExpr, ← fills_map, genTys_fill]
  | .apply f a, g => by simp only [Ex.map, genExpr, genExpr_fill f, genExpr_fill a]
  | .binary o l r, g => by simp only [Ex.map, genExpr, genExpr_fill l, genExpr_fill r]
  | .pipe l r, g => by simp only [Ex.map, genExpr, genExpr_fill l, genExpr_fill r]
  | .let_ s vars _ _ v rest, g => by simp only [Ex.map, genExpr, genExpr_fill v, genExpr_fill rest]
  | .match_ d dty cases, g => by simp only [Ex.map, genExpr, genExpr_fill d, foldedMatch_fill, genCases_fill cases]
  | .ite a b e, g => by simp only [Ex.map, genExpr, genExpr_fill a, genExpr_fill b, genExpr_fill e]
  | .bool _, g | .number _, g | .str _, g => by simp only [Ex.map, genExpr]
  | .lambda true p pty fty body, g => by simp only [Ex.map, genExpr, genTy_fill, genExpr_fill body]
  | .lambda false p pty fty body, g => by simp only [Ex.map, genExpr, Gen.instTy, genTy_fill, genExpr_fill body]
  | .paren e, g => by simp only [Ex.map, genExpr, genExpr_fill e]
  | .hole _ _, g => by simp only [Ex.map, genExpr, genTy_fill]
theorem genCases_fill : ∀ (cs : List (Case IrTy)) (b : Bool) (g : Gen), genCases b g (casesMap fill cs) = genCases b g cs
  | [], b, g => by simp only [casesMap]
  | .mk c vars body :: cs, b, g => by
    simp only [casesMap, genCases, List.map_map, genExpr_fill body, genCases_fill cs]
    rfl
end

mutual
theorem binderSyms_map {α β : Type} (f : α → β) : ∀ e : Ex α, binderSyms (e.map f) = binderSyms e
  | .name .. | .bool _ | .number _ | .str _ | .hole .. => by simp only [Ex.map, binderSyms]
  | .apply g a => by simp only [Ex.map, binderSyms, binderSyms_map f g, binderSyms_map f a]
  | .binary _ l r => by simp only [Ex.map, binderSyms, binderSyms_map f l, binderSyms_map f r]
  | .pipe l r => by simp only [Ex.map, binderSyms, binderSyms_map f l, binderSyms_map f r]
  | .let_ _ _ _ _ v r => by simp only [Ex.map, binderSyms, binderSyms_map f v, binderSyms_map f r]
  | .match_ d _ cs => by simp only [Ex.map, binderSyms, binderSyms_map f d, casesBinderSyms_map f cs]
  | .ite c t e => by simp only [Ex.map, binderSyms, binderSyms_map f c, binderSyms_map f t, binderSyms_map f e]
  | .lambda _ _ _ _ b => by simp only [Ex.map, binderSyms, binderSyms_map f b]
  | .paren e => by simp only [Ex.map, binderSyms, binderSyms_map f e]
theorem casesBinderSyms_map {α β : Type} (f : α → β) : ∀ cs : List (Case α), casesBinderSyms (casesMap f cs) = casesBinderSyms cs
  | [] => rfl
  | .mk c vs b :: cs => by
    simp only [casesMap, casesBinderSyms, binderSyms_map f b, casesBinderSyms_map f cs, List.map_map]
    rfl
end

mutual
theorem plainLets_map {α β : Type} (f : α → β) : ∀ e : Ex α, PlainLets (e.map f) ↔ PlainLets e
  | .name .. | .bool _ | .number _ | .str _ | .hole .. => by simp only [Ex.map, PlainLets]
  | .apply g a => by simp only [Ex.map, PlainLets, plainLets_map f g, plainLets_map f a]
  | .binary _ l r => by simp only [Ex.map, PlainLets, plainLets_map f l, plainLets_map f r]
  | .pipe l r => by simp only [Ex.map, PlainLets, plainLets_map f l, plainLets_map f r]
  | .let_ _ _ _ _ v r => by simp only [Ex.map, PlainLets, plainLets_map f v, plainLets_map f r]
  | .match_ d _ cs => by simp only [Ex.map, PlainLets, plainLets_map f d, plainLetsCases_map f cs]
  | .ite c t e => by simp only [Ex.map, PlainLets, plainLets_map f c, plainLets_map f t, plainLets_map f e]
  | .lambda _ _ _ _ b => by simp only [Ex.map, PlainLets, plainLets_map f b]
  | .paren e => by simp only [Ex.map, PlainLets, plainLets_map f e]
theorem plainLetsCases_map {α β : Type} (f : α → β) : ∀ cs : List (Case α), PlainLetsCases (casesMap f cs) ↔ PlainLetsCases cs
  | [] => Iff.rfl
  | .mk c vs b :: cs => by simp only [casesMap, PlainLetsCases, plainLets_map f b, plainLetsCases_map f cs]
end

mutual
theorem holes_map {α β : Type} (f : α → β) : ∀ e : Ex α, holes (e.map f) = holes e
  | .name .. | .bool _ | .number _ | .str _ | .hole .. => by simp only [Ex.map, holes]
  | .apply g a => by simp only [Ex.map, holes, holes_map f g, holes_map f a]
  | .binary _ l r => by simp only [Ex.map, holes, holes_map f l, holes_map f r]
  | .pipe l r => by simp only [Ex.map, holes, holes_map f l, holes_map f r]
  | .let_ _ _ _ _ v r => by simp only [Ex.map, holes, holes_map f v, holes_map f r]
  | .match_ d _ cs => by simp only [Ex.map, holes, holes_map f d, holesCases_map f cs]
  | .ite c t e => by simp only [Ex.map, holes, holes_map f c, holes_map f t, holes_map f e]
  | .lambda _ _ _ _ b => by simp only [Ex.map, holes, holes_map f b]
  | .paren e => by simp only [Ex.map, holes, holes_map f e]
theorem holesCases_map {α β : Type} (f : α → β) : ∀ cs : List (Case α), holesCases (casesMap f cs) = holesCases cs
  | [] => rfl
  | .mk c vs b :: cs => by simp only [casesMap, holesCases, holes_map f b, holesCases_map f cs]
end

end Tic.Front
