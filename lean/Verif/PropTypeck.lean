import Verif.TypeckSound
import Verif.Scoped
/-
C37: the type checker is sound and terminates.
-/
namespace Tic.Front
open Tic.Unify

/-! ### The tables -/

/-- What the loop over the references guarantees. -/
structure RefsInv (Δ : List TypeDecl) (D : Symbol → Option DefKind) (done : List Symbol) (p : Tables × TcSt) (ar : Nat → Nat) : Prop where
  good : Good (arity Δ) p.2.u ar
  quiet : p.2.diags = []
  infer : InferOK p.1 p.2.u ar
  names : ∀ s, p.1.names s = none ∨ match D s with
    | some (.value sch) => (sch.ty = .infer → ∃ i, p.1.names s = some (.infer i)) ∧ (sch.ty ≠ .infer → p.1.names s = some (.inst sch))
    | some (.ctor d f) => p.1.names s = some (.inst ⟨d.vars, f⟩)
    | none => False
  ctors : ∀ s d, p.1.ctors s = some d → ∃ f, D s = some (.ctor d f)
  seen : ∀ s ∈ done, (D s).isSome → p.1.names s ≠ none
  seenC : ∀ s ∈ done, ∀ d f, D s = some (.ctor d f) → p.1.ctors s = some d

theorem addRef_infer {D : Symbol → Option DefKind} {p s vars} (h : D s = some (.value ⟨vars, .infer⟩)) :
    addRef D p s = p ∧ (∃ i, p.1.names s = some (.infer i)) ∨
    addRef D p s = ({ p.1 with names := setAt p.1.names s (.infer p.2.fresh.2) }, p.2.fresh.1) := by
  unfold addRef
  rw [h]
  dsimp only
  split
  · rename_i i hi; exact .inl ⟨rfl, i, hi⟩
  · exact .inr rfl

theorem addRef_inst {D : Symbol → Option DefKind} {p s sch} (h : D s = some (.value sch)) (hn : sch.ty ≠ .infer) :
    addRef D p s = ({ p.1 with names := setAt p.1.names s (.inst sch) }, p.2) := by
  unfold addRef
  rw [h]
  obtain ⟨vars, ty⟩ := sch
  cases ty <;> first | rfl | exact absurd rfl hn

theorem addRef_ctor {D : Symbol → Option DefKind} {p s d f} (h : D s = some (.ctor d f)) :
    addRef D p s = ({ names := setAt p.1.names s (.inst ⟨d.vars, f⟩), ctors := setAt p.1.ctors s d }, p.2) := by
  unfold addRef; rw [h]

theorem addRef_none {D : Symbol → Option DefKind} {p s} (h : D s = none) : addRef D p s = p := by
  unfold addRef; rw [h]

theorem refsInv_step {Δ : List TypeDecl} {D : Symbol → Option DefKind} {done p ar} (h : RefsInv Δ D done p ar) (s : Symbol) :
    ∃ ar', RefsInv Δ D (s :: done) (addRef D p s) ar' := by
  cases hD : D s with
  | none =>
    rw [addRef_none hD]
    refine ⟨ar, h.good, h.quiet, h.infer, h.names, h.ctors, ?_, ?_⟩
    · intro k hk hs
      rcases List.mem_cons.mp hk with rfl | hk
      · rw [hD] at hs; cases hs
      · exact h.seen k hk hs
    · intro k hk d f hs
      rcases List.mem_cons.mp hk with rfl | hk
      · rw [hD] at hs; cases hs
      · exact h.seenC k hk d f hs
  | some kd =>
    cases kd with
    | ctor d f =>
      rw [addRef_ctor hD]
      refine ⟨ar, h.good, h.quiet, ?_, ?_, ?_, ?_, ?_⟩
      · intro k i hk
        simp only [setAt] at hk
        split at hk
        · cases hk
        · exact h.infer k i hk
      · intro k
        simp only [setAt]
        split
        · rename_i he; subst he; rw [hD]; exact .inr rfl
        · exact h.names k
      · intro k d' hk
        simp only [setAt] at hk
        split at hk
        · rename_i he; subst he; cases hk; exact ⟨f, hD⟩
        · exact h.ctors k d' hk
      · intro k hk hs
        simp only [setAt]
        split
        · simp
        · rename_i hne
          rcases List.mem_cons.mp hk with rfl | hk
          · exact absurd rfl hne
          · exact h.seen k hk hs
      · intro k hk d' f' hs
        simp only [setAt]
        split
        · rename_i he; subst he; rw [hD] at hs; cases hs; rfl
        · rename_i hne
          rcases List.mem_cons.mp hk with rfl | hk
          · exact absurd rfl hne
          · exact h.seenC k hk d' f' hs
    | value sch =>
      by_cases hi : sch.ty = .infer
      · obtain ⟨vars, ty⟩ := sch
        simp only at hi
        subst hi
        rcases addRef_infer (p := p) hD with ⟨he, i, hpi⟩ | he <;> rw [he]
        · refine ⟨ar, h.good, h.quiet, h.infer, h.names, h.ctors, ?_, ?_⟩
          · intro k hk hs
            rcases List.mem_cons.mp hk with rfl | hk
            · rw [hpi]; simp
            · exact h.seen k hk hs
          · intro k hk d f hs
            rcases List.mem_cons.mp hk with rfl | hk
            · rw [hD] at hs; cases hs
            · exact h.seenC k hk d f hs
        · obtain ⟨a1, s1, t1⟩ := step_fresh h.good
          refine ⟨a1, s1.evo.good, h.quiet, ?_, ?_, h.ctors, ?_, ?_⟩
          · intro k i hk
            simp only [setAt] at hk
            split at hk
            · cases hk; exact t1
            · exact s1.evo.typ (h.infer k i hk)
          · intro k
            simp only [setAt]
            split
            · rename_i he; subst he; rw [hD]; exact .inr ⟨fun _ => ⟨_, rfl⟩, fun hn => absurd rfl hn⟩
            · exact h.names k
          · intro k hk hs
            simp only [setAt]
            split
            · simp
            · rename_i hne
              rcases List.mem_cons.mp hk with rfl | hk
              · exact absurd rfl hne
              · exact h.seen k hk hs
          · intro k hk d f hs
            rcases List.mem_cons.mp hk with rfl | hk
            · rw [hD] at hs; cases hs
            · exact h.seenC k hk d f hs
      · rw [addRef_inst hD hi]
        refine ⟨ar, h.good, h.quiet, ?_, ?_, h.ctors, ?_, ?_⟩
        · intro k i hk
          simp only [setAt] at hk
          split at hk
          · cases hk
          · exact h.infer k i hk
        · intro k
          simp only [setAt]
          split
          · rename_i he; subst he; rw [hD]; exact .inr ⟨fun hn => absurd hn hi, fun _ => rfl⟩
          · exact h.names k
        · intro k hk hs
          simp only [setAt]
          split
          · simp
          · rename_i hne
            rcases List.mem_cons.mp hk with rfl | hk
            · exact absurd rfl hne
            · exact h.seen k hk hs
        · intro k hk d f hs
          rcases List.mem_cons.mp hk with rfl | hk
          · rw [hD] at hs; cases hs
          · exact h.seenC k hk d f hs

theorem refsInv_foldl {Δ : List TypeDecl} {D : Symbol → Option DefKind} : ∀ (refs : List Symbol) {done p ar}, RefsInv Δ D done p ar →
    ∃ ar' all, RefsInv Δ D all (refs.foldl (addRef D) p) ar' ∧ (∀ s ∈ refs, s ∈ all) ∧ ∀ s ∈ done, s ∈ all
  | [], done, _, ar, h => ⟨ar, done, h, by simp, fun _ h => h⟩
  | s :: refs, done, p, ar, h => by
    obtain ⟨a1, h1⟩ := refsInv_step h s
    obtain ⟨a2, all, h2, h3, h4⟩ := refsInv_foldl refs h1
    refine ⟨a2, all, h2, fun k hk => ?_, fun k hk => h4 k (by simp [hk])⟩
    rcases List.mem_cons.mp hk with rfl | hk
    · exact h4 k (by simp)
    · exact h3 k hk

theorem refsInv {Δ : List TypeDecl} (D : Symbol → Option DefKind) (refs : List Symbol) :
    ∃ ar, RefsInv Δ D refs (addRefs D refs) ar := by
  have h0 : RefsInv Δ D [] (⟨fun _ => none, fun _ => none⟩, {}) (fun _ => 0) := by
    refine ⟨⟨.init, ?_⟩, rfl, ?_, ?_, ?_, ?_, ?_⟩
    · intro i s hs; simp [Unifier.get, pend] at hs
    · intro s i hs; cases hs
    · intro s; exact .inl rfl
    · intro s d hs; cases hs
    · intro s hs; cases hs
    · intro s hs; cases hs
  obtain ⟨ar, all, h, h1, -⟩ := refsInv_foldl refs h0
  exact ⟨ar, h.good, h.quiet, h.infer, h.names, h.ctors, fun s hs => h.seen s (h1 s hs), fun s hs => h.seenC s (h1 s hs)⟩

/-! ### Constructors' types are well formed -/

theorem wfTys_vars {Δ : List TypeDecl} {ws : List Symbol} : ∀ {vs : List Symbol}, (∀ v ∈ vs, v ∈ ws ∧ declOf Δ v = none) →
    WfTys Δ ws (vs.map fun v => .named v [])
  | [], _ => trivial
  | v :: vs, h => ⟨⟨.inl (h v (by simp)).1, by simp [arity, (h v (by simp)).2], trivial⟩, wfTys_vars fun w hw => h w (by simp [hw])⟩

theorem wfTy_ctorTy {Δ : List TypeDecl} {d : CtorDef} {decl} (h : declOf Δ d.tySym = some decl) (hv : decl.vars = d.vars)
    (hn : ∀ v ∈ d.vars, declOf Δ v = none) (hf : ∀ t, Field.ty t ∈ d.fields → WfTy Δ d.vars t) : WfTy Δ d.vars (ctorTy d) := by
  have hw : WfTy Δ d.vars (.named d.tySym (d.vars.map fun v => .named v [])) := by
    refine ⟨.inr (by rw [h]; rfl), by simp [arity, h, hv], wfTys_vars fun v hv => ⟨hv, hn v hv⟩⟩
  unfold ctorTy
  simp only
  generalize IrTy.named d.tySym (d.vars.map fun v => IrTy.named v []) = whole at hw
  generalize d.fields = fs at hf
  induction fs with
  | nil => exact hw
  | cons f fs ih =>
    refine ⟨?_, ih fun t ht => hf t (by simp [ht])⟩
    cases f with
    | rec_ => exact hw
    | ty t => exact hf t (by simp)

theorem tabOK_of {Δ : List TypeDecl} {D : Symbol → Option DefKind} {done p ar} (hD : DefsOK Δ D) (h : RefsInv Δ D done p ar) : TabOK Δ p.1 := by
  constructor
  · intro s sch hs
    rcases h.names s with h1 | h1
    · rw [hs] at h1; cases h1
    · split at h1
      · rename_i sch' hd
        by_cases hne : sch'.ty = .infer
        · obtain ⟨i, h1⟩ := h1.1 hne; rw [hs] at h1; cases h1
        · have h1 := h1.2 hne
          rw [hs] at h1; cases h1
          exact hD.value s sch hd hne
      · rename_i d f hd
        rw [hs] at h1; cases h1
        obtain ⟨rfl, decl, h2, h3, -, h4, h5⟩ := hD.ctor s d f hd
        exact ⟨h4, d.vars, wfTy_ctorTy h2 h3 h4 h5⟩
      · exact h1.elim
  · intro c d hc
    obtain ⟨f, hf⟩ := h.ctors c d hc
    exact (hD.ctor c d f hf).2

theorem RefsInv.infer_of {Δ : List TypeDecl} {D : Symbol → Option DefKind} {done p ar} (h : RefsInv Δ D done p ar) {s vars} (hs : s ∈ done)
    (hd : D s = some (.value ⟨vars, .infer⟩)) : ∃ i, p.1.names s = some (.infer i) := by
  rcases h.names s with h1 | h1
  · exact absurd h1 (h.seen s hs (by rw [hd]; rfl))
  · rw [hd] at h1; exact h1.1 rfl

theorem RefsInv.inst_of {Δ : List TypeDecl} {D : Symbol → Option DefKind} {done p ar} (h : RefsInv Δ D done p ar) {s sch} (hs : s ∈ done)
    (hd : D s = some (.value sch)) (hn : sch.ty ≠ .infer) : p.1.names s = some (.inst sch) := by
  rcases h.names s with h1 | h1
  · exact absurd h1 (h.seen s hs (by rw [hd]; rfl))
  · rw [hd] at h1; exact h1.2 hn

theorem RefsInv.ctor_of {Δ : List TypeDecl} {D : Symbol → Option DefKind} {done p ar} (h : RefsInv Δ D done p ar) {s d f} (hs : s ∈ done)
    (hd : D s = some (.ctor d f)) : p.1.names s = some (.inst ⟨d.vars, f⟩) := by
  rcases h.names s with h1 | h1
  · exact absurd h1 (h.seen s hs (by rw [hd]; rfl))
  · rw [hd] at h1; simpa using h1

theorem wfTy_ne_infer {Δ : List TypeDecl} {vs t} (h : WfTy Δ vs t) : t ≠ .infer := by
  rintro rfl; exact h

mutual
theorem resolved_of {Δ : List TypeDecl} {D : Symbol → Option DefKind} {refs p ar} (h : RefsInv Δ D refs p ar) :
    ∀ (e : Ex Unit) {dom vs}, Scoped Δ D refs dom vs e → Resolved Δ p.1 dom vs e
  | .name .., _, _, hs => hs
  | .apply f a, _, _, hs => ⟨resolved_of h f hs.1, resolved_of h a hs.2⟩
  | .binary _ f a, _, _, hs => ⟨resolved_of h f hs.1, resolved_of h a hs.2⟩
  | .pipe f a, _, _, hs => ⟨resolved_of h f hs.1, resolved_of h a hs.2⟩
  | .let_ s vars ann _ v rest, dom, vs, hs => by
    obtain ⟨h1, h2, h3, h4, h5, h6, h7⟩ := hs
    refine ⟨h1, ?_, ?_, resolved_of h v h6, resolved_of h rest h7⟩
    · rintro a rfl
      exact ⟨h.inst_of h2 h3 (wfTy_ne_infer (h4 a rfl)), h4 a rfl⟩
    · rintro rfl
      exact ⟨h5 rfl, h.infer_of h2 h3⟩
  | .match_ d _ cs, _, _, hs => ⟨resolved_of h d hs.1, resolvedCases_of h cs hs.2⟩
  | .ite c a b, _, _, hs => ⟨resolved_of h c hs.1, resolved_of h a hs.2.1, resolved_of h b hs.2.2⟩
  | .bool _, _, _, _ => trivial
  | .number _, _, _, _ => trivial
  | .str _, _, _, _ => trivial
  | .lambda _ p' _ _ b, _, _, hs => ⟨h.infer_of hs.1 hs.2.1, resolved_of h b hs.2.2⟩
  | .paren e, _, _, hs => resolved_of h e hs
  | .hole .., _, _, _ => trivial
theorem resolvedCases_of {Δ : List TypeDecl} {D : Symbol → Option DefKind} {refs p ar} (h : RefsInv Δ D refs p ar) :
    ∀ (cs : List (Case Unit)) {dom vs}, ScopedCases Δ D refs dom vs cs → ResolvedCases Δ p.1 dom vs cs
  | [], _, _, _ => trivial
  | .mk c pvs b :: cs, _, _, hs => by
    obtain ⟨⟨h0, d, f, h1⟩, h2, h3, h4⟩ := hs
    exact ⟨⟨d, h.seenC c h0 d f h1⟩, fun q hq => h.infer_of (h2 q hq).1 (h2 q hq).2, resolved_of h b h3, resolvedCases_of h cs h4⟩
end

/-! ### Reading back the annotations -/

theorem mapOpt_map {α β γ : Type} {f : α → Option β} {g : β → γ} {h : α → γ} (hf : ∀ a b, f a = some b → g b = h a) :
    ∀ {as : List α} {bs : List β}, mapOpt f as = some bs → bs.map g = as.map h
  | [], _, hm => by simp [mapOpt] at hm; subst hm; rfl
  | a :: as, _, hm => by
    simp only [mapOpt, Option.bind_eq_some_iff, Option.map_eq_some_iff] at hm
    obtain ⟨b, hb, bs, hbs, rfl⟩ := hm
    simp [hf a b hb, mapOpt_map hf hbs]

mutual
theorem read_map {α β γ : Type} {f : α → Option β} {g : β → γ} {h : α → γ} (hf : ∀ a b, f a = some b → g b = h a) :
    ∀ (e : Ex α) {e' : Ex β}, e.read f = some e' → e'.map g = e.map h ∧ e'.erase = e.erase
  | .name s inst, e', hr => by
    simp only [Ex.read, Option.map_eq_some_iff] at hr
    obtain ⟨i, hi, rfl⟩ := hr
    exact ⟨by simp [Ex.map, mapOpt_map hf hi], rfl⟩
  | .apply x y, e', hr => by
    simp only [Ex.read, Option.map_eq_some_iff, Option.bind_eq_some_iff] at hr
    obtain ⟨x', hx, y', hy, rfl⟩ := hr
    have h1 := read_map hf x hx
    have h2 := read_map hf y hy
    exact ⟨by simp [Ex.map, h1.1, h2.1], by simp [Ex.erase, h1.2, h2.2]⟩
  | .binary o x y, e', hr => by
    simp only [Ex.read, Option.map_eq_some_iff, Option.bind_eq_some_iff] at hr
    obtain ⟨x', hx, y', hy, rfl⟩ := hr
    have h1 := read_map hf x hx
    have h2 := read_map hf y hy
    exact ⟨by simp [Ex.map, h1.1, h2.1], by simp [Ex.erase, h1.2, h2.2]⟩
  | .pipe x y, e', hr => by
    simp only [Ex.read, Option.map_eq_some_iff, Option.bind_eq_some_iff] at hr
    obtain ⟨x', hx, y', hy, rfl⟩ := hr
    have h1 := read_map hf x hx
    have h2 := read_map hf y hy
    exact ⟨by simp [Ex.map, h1.1, h2.1], by simp [Ex.erase, h1.2, h2.2]⟩
  | .let_ s vars ann ty x y, e', hr => by
    simp only [Ex.read, Option.map_eq_some_iff, Option.bind_eq_some_iff] at hr
    obtain ⟨ty', ht, x', hx, y', hy, rfl⟩ := hr
    have h1 := read_map hf x hx
    have h2 := read_map hf y hy
    exact ⟨by simp [Ex.map, h1.1, h2.1, hf _ _ ht], by simp [Ex.erase, h1.2, h2.2]⟩
  | .match_ d ty cs, e', hr => by
    simp only [Ex.read, Option.map_eq_some_iff, Option.bind_eq_some_iff] at hr
    obtain ⟨x', hx, ty', ht, y', hy, rfl⟩ := hr
    have h1 := read_map hf d hx
    have h2 := casesRead_map hf cs hy
    exact ⟨by simp [Ex.map, h1.1, h2.1, hf _ _ ht], by simp [Ex.erase, h1.2, h2.2]⟩
  | .ite x y z, e', hr => by
    simp only [Ex.read, Option.map_eq_some_iff, Option.bind_eq_some_iff] at hr
    obtain ⟨x', hx, y', hy, z', hz, rfl⟩ := hr
    have h1 := read_map hf x hx
    have h2 := read_map hf y hy
    have h3 := read_map hf z hz
    exact ⟨by simp [Ex.map, h1.1, h2.1, h3.1], by simp [Ex.erase, h1.2, h2.2, h3.2]⟩
  | .bool b, e', hr => by simp only [Ex.read, Option.some.injEq] at hr; subst hr; exact ⟨rfl, rfl⟩
  | .number b, e', hr => by simp only [Ex.read, Option.some.injEq] at hr; subst hr; exact ⟨rfl, rfl⟩
  | .str b, e', hr => by simp only [Ex.read, Option.some.injEq] at hr; subst hr; exact ⟨rfl, rfl⟩
  | .lambda fd p t1 t2 x, e', hr => by
    simp only [Ex.read, Option.map_eq_some_iff, Option.bind_eq_some_iff] at hr
    obtain ⟨t1', h1', t2', h2', x', hx, rfl⟩ := hr
    have h1 := read_map hf x hx
    exact ⟨by simp [Ex.map, h1.1, hf _ _ h1', hf _ _ h2'], by simp [Ex.erase, h1.2]⟩
  | .paren x, e', hr => by
    simp only [Ex.read, Option.map_eq_some_iff] at hr
    obtain ⟨x', hx, rfl⟩ := hr
    have h1 := read_map hf x hx
    exact ⟨by simp [Ex.map, h1.1], by simp [Ex.erase, h1.2]⟩
  | .hole t ty, e', hr => by
    simp only [Ex.read, Option.map_eq_some_iff] at hr
    obtain ⟨x', hx, rfl⟩ := hr
    exact ⟨by simp [Ex.map, hf _ _ hx], rfl⟩
theorem casesRead_map {α β γ : Type} {f : α → Option β} {g : β → γ} {h : α → γ} (hf : ∀ a b, f a = some b → g b = h a) :
    ∀ (cs : List (Case α)) {cs' : List (Case β)}, casesRead f cs = some cs' → casesMap g cs' = casesMap h cs ∧ casesErase cs' = casesErase cs
  | [], _, hr => by simp only [casesRead, Option.some.injEq] at hr; subst hr; exact ⟨rfl, rfl⟩
  | .mk c vs x :: cs, _, hr => by
    simp only [casesRead, Option.map_eq_some_iff, Option.bind_eq_some_iff] at hr
    obtain ⟨vs', hvs, x', hx, cs', hcs, rfl⟩ := hr
    have h1 := read_map hf x hx
    have h2 := casesRead_map hf cs hcs
    have h3 : vs'.map (fun p => (p.1, g p.2)) = vs.map (fun p => (p.1, h p.2)) :=
      mapOpt_map (f := fun p : Symbol × α => (f p.2).map fun t => (p.1, t)) (fun p q hq => by
        simp only [Option.map_eq_some_iff] at hq
        obtain ⟨t, ht, rfl⟩ := hq
        simp [hf _ _ ht]) hvs
    have h4 : vs'.map (fun p => (p.1, ())) = vs.map (fun p => (p.1, ())) :=
      mapOpt_map (f := fun p : Symbol × α => (f p.2).map fun t => (p.1, t)) (fun p q hq => by
        simp only [Option.map_eq_some_iff] at hq
        obtain ⟨t, ht, rfl⟩ := hq
        rfl) hvs
    exact ⟨by simp [casesMap, h1.1, h2.1, h3], by simp [casesErase, h1.2, h2.2, h4]⟩
end

theorem fills_append : ∀ (xs ys : List IrTy), fills (xs ++ ys) = fills xs ++ fills ys
  | [], _ => rfl
  | x :: xs, ys => by simp [fills, fills_append xs ys]

/-- Filling in `Int` for the unknown types. -/
theorem fill_ir : ∀ {t : Term} {r : IrTy}, t.ir = some r → fill r = Tm.ty (t.subst fun _ => .int)
  | .var _, _, h => by simp only [Term.ir, Option.some.injEq] at h; subst h; rfl
  | .bool, _, h => by simp only [Term.ir, Option.some.injEq] at h; subst h; rfl
  | .int, _, h => by simp only [Term.ir, Option.some.injEq] at h; subst h; rfl
  | .str, _, h => by simp only [Term.ir, Option.some.injEq] at h; subst h; rfl
  | .named s, _, h => by simp only [Term.ir, Option.some.injEq] at h; subst h; rfl
  | .error, _, h => by simp only [Term.ir, Option.some.injEq] at h; subst h; rfl
  | .apply a b, r, h => by
    simp only [Term.ir] at h
    split at h
    · rename_i s xs ha
      simp only [Option.map_eq_some_iff] at h
      obtain ⟨rb, hb, rfl⟩ := h
      have h1 := fill_ir ha
      have h2 := fill_ir hb
      simp only [fill] at h1
      simp only [Term.subst, Tm.ty, ← h1, ← h2, fill, fills_append, fills]
    · cases h
  | .fn a b, r, h => by
    simp only [Term.ir, Option.bind_eq_some_iff, Option.map_eq_some_iff] at h
    obtain ⟨ra, ha, rb, hb, rfl⟩ := h
    simp only [Term.subst, Tm.ty, fill, fill_ir ha, fill_ir hb]
  | .folded a b, r, h => by
    simp only [Term.ir, Option.bind_eq_some_iff, Option.map_eq_some_iff] at h
    obtain ⟨ra, ha, rb, hb, rfl⟩ := h
    simp only [Term.subst, Tm.ty, fill, fill_ir ha, fill_ir hb]

theorem toIr_valid {n} {u : Unifier} {i r} (hu : Reachable u) (h : toIr n u i = some r) : i < u.slots.length := by
  cases n with
  | zero => simp [toIr] at h
  | succ n =>
    simp only [toIr, Option.bind_eq_some_iff] at h
    obtain ⟨t, ht, -⟩ := h
    simp only [normalize, Option.bind_eq_some_iff] at ht
    obtain ⟨j, hj, -⟩ := ht
    cases n with
    | zero => simp [finalIdx] at hj
    | succ n =>
      simp only [finalIdx] at hj
      cases hg : u.get i with
      | none => rw [hg] at hj; cases hj
      | some s =>
        rw [get_committed (reachable_wf hu).2] at hg
        exact (List.getElem?_eq_some_iff.mp hg).1

theorem fill_toIr {count u ar θ n i r} (h : Good count u ar) (hθ : ∀ i t, Denotes u i t → θ i = t.subst (fun _ => .int))
    (hr : (toIr n u i).join = some r) : fill r = U θ i := by
  simp only [Option.join_eq_some_iff] at hr
  obtain ⟨t, ht, -⟩ := denotes_total h.reach.reach (toIr_valid h.reach.reach hr)
  obtain ⟨m, hm⟩ := toIr_denotes ht
  have h1 := hm (max m n) (by omega)
  have h2 := toIr_mono hr (m := max m n) (by omega)
  rw [h1] at h2
  rw [fill_ir (Option.some.inj h2), U, hθ i t ht]

/-! ### The conditions on the outcome -/

mutual
theorem tySyms_fill : ∀ t, tySyms (fill t) = tySyms t
  | .named s args => by simp [fill, tySyms, tysSyms_fill args]
  | .fn a b => by simp [fill, tySyms, tySyms_fill a, tySyms_fill b]
  | .folded a b => by simp [fill, tySyms, tySyms_fill a, tySyms_fill b]
  | .int => rfl
  | .bool => rfl
  | .str => rfl
  | .error => rfl
  | .infer => rfl
theorem tysSyms_fill : ∀ t, tysSyms (fills t) = tysSyms t
  | [] => rfl
  | t :: ts => by simp [fills, tysSyms, tySyms_fill t, tysSyms_fill ts]
end

mutual
theorem nodes_map (f : IrTy → IrTy) : ∀ (e : Ex IrTy) (vs : List Symbol), nodes vs (e.map f) = (nodes vs e).map fun p => (p.1, p.2.map f)
  | .name .., _ => rfl
  | .apply x y, vs => by simp [Ex.map, nodes, nodes_map f x vs, nodes_map f y vs]
  | .binary _ x y, vs => by simp [Ex.map, nodes, nodes_map f x vs, nodes_map f y vs]
  | .pipe x y, vs => by simp [Ex.map, nodes, nodes_map f x vs, nodes_map f y vs]
  | .let_ _ vars _ _ v r, vs => by simp [Ex.map, nodes, nodes_map f v (vars ++ vs), nodes_map f r vs]
  | .match_ d _ cs, vs => by simp [Ex.map, nodes, nodes_map f d vs, caseNodes_map f cs vs]
  | .ite c a b, vs => by simp [Ex.map, nodes, nodes_map f c vs, nodes_map f a vs, nodes_map f b vs]
  | .bool _, _ => rfl
  | .number _, _ => rfl
  | .str _, _ => rfl
  | .lambda _ _ _ _ b, vs => by simp [Ex.map, nodes, nodes_map f b vs]
  | .paren b, vs => by simp [Ex.map, nodes, nodes_map f b vs]
  | .hole .., _ => rfl
theorem caseNodes_map (f : IrTy → IrTy) : ∀ (cs : List (Case IrTy)) (vs : List Symbol),
    caseNodes vs (casesMap f cs) = (caseNodes vs cs).map fun p => (p.1, p.2.map f)
  | [], _ => rfl
  | .mk _ _ b :: cs, vs => by simp [casesMap, caseNodes, nodes_map f b vs, caseNodes_map f cs vs]
end

theorem annots_map (f : IrTy → IrTy) (e : Ex IrTy) : annots (e.map f) = (annots e).map f := by
  cases e <;> simp [Ex.map, annots]

theorem ownVars_map (f : IrTy → IrTy) (e : Ex IrTy) : ownVars (e.map f) = ownVars e := by
  cases e <;> simp [Ex.map, ownVars]

theorem isFolded_fill (t : IrTy) : IrTy.isFolded (fill t) = IrTy.isFolded t := by cases t <;> rfl

theorem scrutinee_fill (Δ : List TypeDecl) (t : IrTy) : scrutinee Δ (fill t) = scrutinee Δ t := by
  cases t with
  | folded a b => cases a <;> rfl
  | _ => rfl

theorem NoEscape.fill {Δ : List TypeDecl} {vs e} (h : NoEscape Δ vs e) : NoEscape Δ vs (e.map fill) := by
  intro p hp t ht s hs
  rw [nodes_map] at hp
  obtain ⟨q, hq, rfl⟩ := List.mem_map.mp hp
  rw [annots_map] at ht
  obtain ⟨t', ht', rfl⟩ := List.mem_map.mp ht
  rw [tySyms_fill] at hs
  rw [ownVars_map]
  exact h q hq t' ht' s hs

theorem NoNestedFold.fill {e} (h : NoNestedFold e) : NoNestedFold (e.map fill) := by
  intro p hp q pty fty body a b he hpty
  rw [nodes_map] at hp
  obtain ⟨⟨ws, n⟩, hq, rfl⟩ := List.mem_map.mp hp
  cases n with
  | lambda fd q' t1 t2 b' =>
    simp only [Ex.map, Ex.lambda.injEq] at he
    obtain ⟨rfl, rfl, rfl, rfl, rfl⟩ := he
    cases t1 with
    | folded a' b'' =>
      simp only [Tic.Front.fill, IrTy.folded.injEq] at hpty
      rw [← hpty.1, isFolded_fill]
      exact h _ hq _ _ _ _ _ _ rfl rfl
    | _ => simp [Tic.Front.fill] at hpty
  | _ => simp [Ex.map] at he

theorem Covered.fill {Δ : List TypeDecl} {e} (h : Covered Δ e) : Covered Δ (e.map fill) := by
  intro p hp d dty cases he
  rw [nodes_map] at hp
  obtain ⟨⟨ws, n⟩, hq, rfl⟩ := List.mem_map.mp hp
  cases n with
  | match_ d' t cs =>
    simp only [Ex.map, Ex.match_.injEq] at he
    obtain ⟨rfl, rfl, rfl⟩ := he
    have := h _ hq _ _ _ rfl
    rw [scrutinee_fill]
    have e1 : (casesMap Tic.Front.fill cs).map (fun c => some c.ctor) = cs.map fun c => some c.ctor := by
      have := congrArg (List.map some) (casesMap_ctor Tic.Front.fill cs)
      simpa [List.map_map, Function.comp_def] using this
    rw [e1]
    exact this
  | _ => simp [Ex.map] at he

/-! ### The theorem -/

theorem ctxOK_globals {Δ : List TypeDecl} {D : Symbol → Option DefKind} {refs p ar θ Γ} (h : RefsInv Δ D refs p ar) (hΓ : Globals D refs Γ) :
    CtxOK p.1 θ (Γ.map (·.1)) Γ := by
  constructor
  · intro s sch hs
    obtain ⟨hr, ⟨h1, h2⟩ | ⟨d, f, h1, rfl⟩⟩ := hΓ s sch hs
    · exact .inl (h.inst_of hr h1 h2)
    · exact .inl (h.ctor_of hr h1)
  · intro s hs
    clear hΓ
    induction Γ with
    | nil => cases hs
    | cons q Γ ih =>
      obtain ⟨k, v⟩ := q
      simp only [Ctx.find]
      split
      · exact ⟨_, rfl⟩
      · rename_i hne
        rcases List.mem_cons.mp hs with rfl | hs
        · exact absurd rfl hne
        · exact ih hs

/-- **C37.**  If the type checker accepts a value item with a declared type without diagnostics,
then what it annotated is the expression the programmer wrote, and (with types it left open
replaced by `Int`) the expression has the declared type by the typing rules of the language,
provided that the match checker accepts it too, no type variable escapes from a local definition's
scope, and no fold goes over the parameter of a fold. -/
theorem typecheck_sound {Δ : List TypeDecl} {D : Symbol → Option DefKind} {refs : List Symbol} {Γ : Ctx} {sch : Scheme} {e : Ex Unit}
    {n : Nat} {r : Checked} (hD : DefsOK Δ D) (hΓ : Globals D refs Γ) (hw : WfTy Δ sch.vars sch.ty)
    (hS : Scoped Δ D refs (Γ.map (·.1)) sch.vars e)
    (hrun : typeCheck n D refs sch.ty e = some r) (hq : r.diags = []) :
    r.expr.erase = e ∧
      (NoEscape Δ sch.vars r.expr → NoNestedFold r.expr → Covered Δ r.expr → HasTy Δ sch.vars Γ (r.expr.map fill) sch.ty) := by
  obtain ⟨ar, hinv⟩ := refsInv (Δ := Δ) D refs
  simp only [typeCheck, Option.bind_eq_some_iff, Option.map_eq_some_iff] at hrun
  obtain ⟨c, hc, e', he', rfl⟩ := hrun
  obtain ⟨a1, s1, t1, p1⟩ := step_inst (vars := []) hinv.good (by intro q hq; cases hq) hw
  have hd : ∀ s ∈ Γ.map (·.1), ∃ nt, (addRefs D refs).1.names s = some nt := by
    intro s hs
    obtain ⟨sc, h1⟩ := (ctxOK_globals (θ := fun _ => .int) hinv hΓ).dom s hs
    rcases (ctxOK_globals (θ := fun _ => .int) hinv hΓ).entry s sc h1 with h | ⟨i, h, -⟩ <;> exact ⟨_, h⟩
  obtain ⟨a2, s2, p2⟩ := check_sound (tabOK_of hD hinv) e s1.evo.good (hinv.infer.step s1) t1 hd (resolved_of hinv e hS) hc
  obtain ⟨er, p2⟩ := p2 hq
  obtain ⟨θ, hθ, hden⟩ := sol_exists s2.evo.good
  obtain ⟨hm, her⟩ := read_map (g := fill) (h := U θ) (fun i b hb => fill_toIr s2.evo.good hden hb) c.2 he'
  refine ⟨her.trans er, fun h1 h2 h3 => ?_⟩
  have := p2 θ hθ Γ (ctxOK_globals hinv hΓ) (by rw [← hm]; exact sane_of h1.fill h2.fill h3.fill)
  simp only at hm ⊢
  rw [hm]
  have ht : U θ ((addRefs D refs).2.inst [] sch.ty).2 = sch.ty := by
    have := p1 θ (s2.evo.sol hθ).sat
    rw [U, this]
    exact substTy_nil _
  rwa [ht] at this
end Tic.Front
