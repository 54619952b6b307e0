import Verif.GenExt
/-
Generating code for a well-typed expression does not panic.
-/
namespace Tic.Front
open Tic.Unify (Symbol IrTy)
open Tic.Core (Name TyVar Ty Expr Branch)

/-- The generator knows the declared types and their constructors. -/
structure GenOK (Δ : List TypeDecl) (g : Gen) : Prop where
  notVar : ∀ s d, declOf Δ s = some d → g.tyVars s = none
  folded : ∀ s d, declOf Δ s = some d → (g.foldedNames s).isSome
  name : ∀ s d, declOf Δ s = some d → ∃ n cs, g.symNames s = some n ∧ g.typeCtors n = some cs ∧ mapOpt g.ctors (d.ctors.map (·.1)) = some cs
  ctor : ∀ s d, declOf Δ s = some d → ∀ c ∈ d.ctors, ∃ k, g.ctors c.1 = some k ∧ k.sym = c.1 ∧ g.ctorFields c.1 = some c.2

theorem GenOK.ext {Δ : List TypeDecl} {bs g g'} (h : GenOK Δ g) (he : Ext bs g g') (hb : ∀ b ∈ bs, declOf Δ b = none) : GenOK Δ g' := by
  have hn : ∀ s d, declOf Δ s = some d → s ∉ bs := fun s d h hs => by rw [hb s hs] at h; cases h
  constructor
  · intro s d hd
    rw [he.ty s (hn s d hd)]
    exact h.notVar s d hd
  · intro s d hd
    rw [he.folded]
    exact h.folded s d hd
  · intro s d hd
    rw [he.sym s (hn s d hd), he.typeCtors, he.ctors]
    exact h.name s d hd
  · intro s d hd
    rw [he.ctors, he.fields]
    exact h.ctor s d hd

/-- The generator knows the names and type variables in scope. -/
structure ScopeOK (Δ : List TypeDecl) (vs : List Symbol) (Γ : Ctx) (g : Gen) : Prop where
  gen : GenOK Δ g
  name : ∀ s sch, Γ.find s = some sch → (g.symNames s).isSome
  vars : ∀ v ∈ vs, (g.tyVars v).isSome ∧ declOf Δ v = none

theorem ScopeOK.ext {Δ : List TypeDecl} {vs Γ bs g g'} (h : ScopeOK Δ vs Γ g) (he : Ext bs g g')
    (hb : ∀ b ∈ bs, Γ.find b = none ∧ declOf Δ b = none) : ScopeOK Δ vs Γ g' := by
  refine ⟨h.gen.ext he fun b hbs => (hb b hbs).2, fun s sch hs => ?_, fun v hv => ⟨he.isSome v (h.vars v hv).1, (h.vars v hv).2⟩⟩
  rw [he.sym s (fun hbs => by rw [(hb s hbs).1] at hs; cases hs)]
  exact h.name s sch hs

theorem ScopeOK.add {Δ : List TypeDecl} {vs Γ g} (h : ScopeOK Δ vs Γ g) {s sch} (hd : declOf Δ s = none) : ScopeOK Δ vs ((s, sch) :: Γ) (g.genName s).1 := by
  refine ⟨h.gen.ext (ext_genName g s) (by simpa using hd), fun x sc hx => ?_, fun v hv => h.vars v hv⟩
  simp only [Ctx.find] at hx
  simp only [Gen.genName, setAt]
  split
  · rfl
  · rename_i hne
    rw [if_neg (fun e => hne e.symm)] at hx
    exact h.name x sc hx

theorem ScopeOK.vars_append {Δ : List TypeDecl} {vs Γ g vars} (h : ScopeOK Δ vs Γ g) (hv : ∀ v ∈ vars, declOf Δ v = none ∧ Γ.find v = none) :
    ScopeOK Δ (vars ++ vs) Γ (g.freshInst vars) := by
  have h' := h.ext (ext_freshInst vars g) fun b hb => ⟨(hv b hb).2, (hv b hb).1⟩
  refine ⟨h'.gen, h'.name, fun v hvs => ?_⟩
  rcases List.mem_append.mp hvs with hm | hm
  · exact ⟨freshInst_some hm, (hv v hm).1⟩
  · exact h'.vars v hm


mutual
theorem genTy_some {Δ : List TypeDecl} {vs Γ g} (hs : ScopeOK Δ vs Γ g) : ∀ {t}, WfTy Δ vs t → (genTy g t).isSome
  | .int, _ | .bool, _ | .str, _ => by simp [genTy]
  | .named s args, h => by
    simp only [WfTy] at h
    obtain ⟨h1, h2, h3⟩ := h
    obtain ⟨ts, ht⟩ := Option.isSome_iff_exists.mp (genTys_some hs h3)
    simp only [genTy]
    split
    · rename_i v hv
      have hd : declOf Δ s = none := by
        cases hd : declOf Δ s with
        | none => rfl
        | some d => rw [hs.gen.notVar s d hd] at hv; cases hv
      rw [arity_none hd] at h2
      have : args = [] := List.eq_nil_of_length_eq_zero h2
      simp [this]
    · rename_i hv
      rcases h1 with h1 | h1
      · have := (hs.vars s h1).1
        rw [hv] at this
        cases this
      · obtain ⟨d, hd⟩ := Option.isSome_iff_exists.mp h1
        obtain ⟨n, cs, hn, -⟩ := hs.gen.name s d hd
        simp [hn, ht]
  | .fn a b, h => by
    simp only [WfTy] at h
    obtain ⟨ta, ha⟩ := Option.isSome_iff_exists.mp (genTy_some hs h.1)
    obtain ⟨tb, hb⟩ := Option.isSome_iff_exists.mp (genTy_some hs h.2)
    simp [genTy, ha, hb]
  | .folded (.named s args) b, h => by
    simp only [WfTy] at h
    obtain ⟨⟨h1, h2, h3⟩, hb⟩ := h
    obtain ⟨ts, ht⟩ := Option.isSome_iff_exists.mp (genTys_some hs h3)
    obtain ⟨tb, hb⟩ := Option.isSome_iff_exists.mp (genTy_some hs hb)
    simp only [genTy]
    split
    · rename_i v hv
      have hd : declOf Δ s = none := by
        cases hd : declOf Δ s with
        | none => rfl
        | some d => rw [hs.gen.notVar s d hd] at hv; cases hv
      rw [arity_none hd] at h2
      have : args = [] := List.eq_nil_of_length_eq_zero h2
      simp [this]
    · rename_i hv
      rcases h1 with h1 | h1
      · have := (hs.vars s h1).1
        rw [hv] at this
        cases this
      · obtain ⟨d, hd⟩ := Option.isSome_iff_exists.mp h1
        obtain ⟨n, hn⟩ := Option.isSome_iff_exists.mp (hs.gen.folded s d hd)
        simp [hn, ht, hb]
  | .folded .int _, _ | .folded .bool _, _ | .folded .str _, _ => by simp [genTy]
  | .folded (.fn a b) _, h => by
    rw [WfTy] at h
    have := genTy_some hs h.1
    simpa only [genTy] using this
  | .folded (.folded a b) _, h => by
    rw [WfTy] at h
    have := genTy_some hs h.1
    simpa only [genTy] using this
theorem genTys_some {Δ : List TypeDecl} {vs Γ g} (hs : ScopeOK Δ vs Γ g) : ∀ {ts}, WfTys Δ vs ts → (genTys g ts).isSome
  | [], _ => rfl
  | t :: ts, h => by
    simp only [WfTys] at h
    obtain ⟨ta, ha⟩ := Option.isSome_iff_exists.mp (genTy_some hs h.1)
    obtain ⟨tb, hb⟩ := Option.isSome_iff_exists.mp (genTys_some hs h.2)
    simp [genTys, ha, hb]
end

/-- What the type of a fold's argument is generated as. -/
theorem genTy_named {Δ : List TypeDecl} {vs Γ g a n args} (hs : ScopeOK Δ vs Γ g) (hw : WfTy Δ vs a) (hf : IrTy.isFolded a = false)
    (h : genTy g a = some (.named n args)) : ∃ s as d, a = .named s as ∧ declOf Δ s = some d ∧ g.symNames s = some n := by
  cases a with
  | named s as =>
    simp only [genTy] at h
    split at h
    · split at h <;> cases h
    · rename_i hv
      simp only [Option.bind_eq_some_iff, Option.map_eq_some_iff] at h
      obtain ⟨m, hm, ts, -, h⟩ := h
      cases h
      simp only [WfTy] at hw
      rcases hw.1 with h1 | h1
      · have := (hs.vars s h1).1
        rw [hv] at this
        cases this
      · obtain ⟨d, hd⟩ := Option.isSome_iff_exists.mp h1
        exact ⟨s, as, d, rfl, hd, hm⟩
  | fn a b =>
    simp only [genTy, Option.bind_eq_some_iff, Option.map_eq_some_iff] at h
    obtain ⟨_, -, _, -, h⟩ := h
    cases h
  | folded => cases hf
  | _ => simp [genTy] at h

theorem foldBranches_some {fold args out} : ∀ {cs g}, (∀ c ∈ cs, (g.ctorFields c.sym).isSome) → (foldBranches fold args out g cs).isSome
  | [], _, _ => rfl
  | c :: cs, g, h => by
    obtain ⟨fs, hf⟩ := Option.isSome_iff_exists.mp (h c (by simp))
    have := foldBranches_some (fold := fold) (args := args) (out := out) (cs := cs) (g := (g.freshes fs.length).1)
      (fun c hc => by rw [(ext_freshes _ _).fields]; exact h c (by simp [hc]))
    obtain ⟨r, hr⟩ := Option.isSome_iff_exists.mp this
    simp [foldBranches, hf, hr]

theorem mapOpt_mem {α β : Type} {f : α → Option β} : ∀ {xs ys}, mapOpt f xs = some ys → ∀ y ∈ ys, ∃ x ∈ xs, f x = some y
  | [], ys, h, y, hy => by cases h; cases hy
  | x :: xs, ys, h, y, hy => by
    simp only [mapOpt, Option.bind_eq_some_iff, Option.map_eq_some_iff] at h
    obtain ⟨y', h1, ys', h2, rfl⟩ := h
    rcases List.mem_cons.mp hy with rfl | hy
    · exact ⟨x, by simp, h1⟩
    · obtain ⟨x', h3, h4⟩ := mapOpt_mem h2 y hy
      exact ⟨x', by simp [h3], h4⟩

theorem GenOK.typeCtors_sym {Δ : List TypeDecl} {g s d n cs} (h : GenOK Δ g) (hd : declOf Δ s = some d) (hn : g.symNames s = some n)
    (hc : g.typeCtors n = some cs) : ∀ c ∈ cs, ∃ k ∈ d.ctors, g.ctors k.1 = some c ∧ c.sym = k.1 ∧ g.ctorFields c.sym = some k.2 := by
  obtain ⟨n', cs', h1, h2, h3⟩ := h.name s d hd
  rw [hn] at h1; cases h1
  rw [hc] at h2; cases h2
  intro c hc
  obtain ⟨x, hx, hxc⟩ := mapOpt_mem h3 c hc
  obtain ⟨k, hk, rfl⟩ := List.mem_map.mp hx
  obtain ⟨k', h4, h5, h6⟩ := h.ctor s d hd k hk
  rw [hxc] at h4; cases h4
  exact ⟨k, hk, hxc, h5, by rw [h5]; exact h6⟩

/-- The symbols an expression introduces are different from each other and from those in scope. -/
def Apart (Δ : List TypeDecl) (Γ : Ctx) (bs : List Symbol) : Prop := bs.Nodup ∧ ∀ b ∈ bs, Γ.find b = none ∧ declOf Δ b = none

theorem Apart.left {Δ : List TypeDecl} {Γ as bs} (h : Apart Δ Γ (as ++ bs)) : Apart Δ Γ as :=
  ⟨(List.nodup_append.mp h.1).1, fun b hb => h.2 b (by simp [hb])⟩

theorem Apart.right {Δ : List TypeDecl} {Γ as bs} (h : Apart Δ Γ (as ++ bs)) : Apart Δ Γ bs :=
  ⟨(List.nodup_append.mp h.1).2.1, fun b hb => h.2 b (by simp [hb])⟩

theorem Apart.tail {Δ : List TypeDecl} {Γ a bs} (h : Apart Δ Γ (a :: bs)) : Apart Δ Γ bs :=
  ⟨(List.nodup_cons.mp h.1).2, fun b hb => h.2 b (by simp [hb])⟩

theorem Apart.add {Δ : List TypeDecl} {Γ a bs sch} (h : Apart Δ Γ (a :: bs)) : Apart Δ ((a, sch) :: Γ) bs := by
  refine ⟨(List.nodup_cons.mp h.1).2, fun b hb => ⟨?_, (h.2 b (by simp [hb])).2⟩⟩
  simp only [Ctx.find]
  rw [if_neg (by rintro rfl; exact (List.nodup_cons.mp h.1).1 hb)]
  exact (h.2 b (by simp [hb])).1

/-- Names for pattern variables. -/
theorem ScopeOK.addAll {Δ : List TypeDecl} {vs} : ∀ {pvs : List (Symbol × IrTy)} {Γ g bs}, ScopeOK Δ vs Γ g → Apart Δ Γ (pvs.map (·.1) ++ bs) →
    ScopeOK Δ vs ((pvs.map fun p => (p.1, mono p.2)).reverse ++ Γ) (g.genNames (pvs.map (·.1))).1 ∧
    Apart Δ ((pvs.map fun p => (p.1, mono p.2)).reverse ++ Γ) bs
  | [], Γ, g, bs, h, ha => ⟨by simpa [Gen.genNames] using h, by simpa using ha⟩
  | p :: pvs, Γ, g, bs, h, ha => by
    have := ScopeOK.addAll (pvs := pvs) (bs := bs) (h.add (s := p.1) (sch := mono p.2) (ha.2 p.1 (by simp)).2) (Apart.add (by simpa using ha))
    simpa [Gen.genNames, List.append_assoc] using this

mutual
theorem genExpr_some {Δ : List TypeDecl} : ∀ (e : Ex IrTy) {vs Γ t g}, ScopeOK Δ vs Γ g → Apart Δ Γ (binderSyms e) → HasTy Δ vs Γ e t →
    ∃ r, genExpr g e = some r
  | .name s inst, vs, Γ, t, g, hs, ha, h => by
    simp only [HasTy] at h
    obtain ⟨sch, h1, -, h3, -⟩ := h
    obtain ⟨n, hn⟩ := Option.isSome_iff_exists.mp (hs.name s sch h1)
    obtain ⟨ts, ht⟩ := Option.isSome_iff_exists.mp (genTys_some hs h3)
    exact ⟨_, by simp only [genExpr, hn, ht, Option.bind_some, Option.map_some]; rfl⟩
  | .apply f a, vs, Γ, t, g, hs, ha, h => by
    simp only [HasTy] at h
    obtain ⟨u, h1, h2⟩ := h
    simp only [binderSyms] at ha
    obtain ⟨⟨g1, c1⟩, e1⟩ := genExpr_some f hs ha.left h1
    obtain ⟨⟨g2, c2⟩, e2⟩ := genExpr_some a (hs.ext (ext_genExpr f e1) ha.left.2) ha.right h2
    exact ⟨_, by simp only [genExpr, e1, e2, Option.bind_some, Option.map_some]; rfl⟩
  | .binary o l r, vs, Γ, t, g, hs, ha, h => by
    simp only [HasTy] at h
    obtain ⟨h1, h2, -⟩ := h
    simp only [binderSyms] at ha
    obtain ⟨⟨g1, c1⟩, e1⟩ := genExpr_some l hs ha.left h1
    obtain ⟨⟨g2, c2⟩, e2⟩ := genExpr_some r (hs.ext (ext_genExpr l e1) ha.left.2) ha.right h2
    exact ⟨_, by simp only [genExpr, e1, e2, Option.bind_some, Option.map_some]; rfl⟩
  | .pipe l r, vs, Γ, t, g, hs, ha, h => by
    simp only [HasTy] at h
    obtain ⟨u, h1, h2⟩ := h
    simp only [binderSyms] at ha
    obtain ⟨⟨g1, c1⟩, e1⟩ := genExpr_some l hs ha.left h1
    obtain ⟨⟨g2, c2⟩, e2⟩ := genExpr_some r (hs.ext (ext_genExpr l e1) ha.left.2) ha.right h2
    exact ⟨_, by simp only [genExpr, e1, e2, Option.bind_some, Option.map_some]; rfl⟩
  | .let_ s vars ann ty v rest, vs, Γ, t, g, hs, ha, h => by
    simp only [HasTy] at h
    obtain ⟨-, -, hv, -, h1, h2⟩ := h
    simp only [binderSyms] at ha
    have hvd : ∀ v ∈ vars, declOf Δ v = none ∧ Γ.find v = none := fun v hv' => ⟨(hv v hv').2, (ha.tail.left.2 v hv').1⟩
    have hsd := ha.2 s (by simp)
    have s1 : ScopeOK Δ (vars ++ vs) Γ ((g.genName s).1.freshInst vars) :=
      (hs.ext (ext_genName g s) (by intro b hb; simp only [List.mem_singleton] at hb; rw [hb]; exact hsd)).vars_append hvd
    obtain ⟨⟨g1, c1⟩, e1⟩ := genExpr_some v s1 ha.tail.right.left h1
    have hvars : ∀ x ∈ vars, (g1.tyVars x).isSome := fun x hx => (ext_genExpr v e1).isSome x (freshInst_some hx)
    obtain ⟨tvs, e2, -⟩ := mapOpt_isSome hvars
    have a2 : Apart Δ ((s, ⟨vars, ty⟩) :: Γ) (vars ++ (binderSyms v ++ binderSyms rest)) := ha.add
    have s2 : ScopeOK Δ vs ((s, ⟨vars, ty⟩) :: Γ) g1 :=
      ((hs.add hsd.2).ext (ext_freshInst vars _) a2.left.2).ext (ext_genExpr v e1) a2.right.left.2
    obtain ⟨⟨g3, c3⟩, e3⟩ := genExpr_some rest s2 a2.right.right h2
    exact ⟨_, by simp only [genExpr, e1, e2, e3, Option.bind_some, Option.map_some]; rfl⟩
  | .match_ d dty cases, vs, Γ, t, g, hs, ha, h => by
    simp only [HasTy] at h
    obtain ⟨h1, -, decl, args, recTy, hd, -, hdty, -, h2⟩ := h
    simp only [binderSyms] at ha
    obtain ⟨⟨g1, c1⟩, e1⟩ := genExpr_some d hs ha.left h1
    obtain ⟨b, hb⟩ : ∃ b, foldedMatch dty = some b := by
      rcases hdty with ⟨rfl, -⟩ | rfl <;> exact ⟨_, rfl⟩
    obtain ⟨⟨g2, c2⟩, e2⟩ := genCases_some cases (b := b) (hs.ext (ext_genExpr d e1) ha.left.2) ha.right hd h2
    exact ⟨_, by simp only [genExpr, e1, hb, e2, Option.bind_some, Option.map_some]; rfl⟩
  | .ite a b e, vs, Γ, t, g, hs, ha, h => by
    simp only [HasTy] at h
    obtain ⟨h1, h2, h3⟩ := h
    simp only [binderSyms] at ha
    obtain ⟨⟨g1, c1⟩, e1⟩ := genExpr_some a hs ha.left h1
    have s1 := hs.ext (ext_genExpr a e1) ha.left.2
    obtain ⟨⟨g2, c2⟩, e2⟩ := genExpr_some b s1 ha.right.left h2
    obtain ⟨⟨g3, c3⟩, e3⟩ := genExpr_some e (s1.ext (ext_genExpr b e2) ha.right.left.2) ha.right.right h3
    exact ⟨_, by simp only [genExpr, e1, e2, e3, Option.bind_some, Option.map_some]; rfl⟩
  | .bool _, vs, Γ, t, g, hs, ha, h | .number _, vs, Γ, t, g, hs, ha, h | .str _, vs, Γ, t, g, hs, ha, h => ⟨_, rfl⟩
  | .lambda true p pty fty body, vs, Γ, t, g, hs, ha, h => by
    simp only [HasTy] at h
    obtain ⟨rfl, hw, a, b, rfl, hf, rfl, h1⟩ := h
    simp only [binderSyms] at ha
    have hsd := ha.2 p (by simp)
    rw [WfTy] at hw
    obtain ⟨ta, e1⟩ := Option.isSome_iff_exists.mp (genTy_some hs hw.1)
    obtain ⟨tb, e2⟩ := Option.isSome_iff_exists.mp (genTy_some hs hw.2)
    have s1 : ScopeOK Δ vs ((p, mono (.folded a b)) :: Γ) (g.genName p).1.fresh.1.fresh.1 :=
      ((hs.add hsd.2).ext (ext_fresh _) (by simp)).ext (ext_fresh _) (by simp)
    obtain ⟨⟨g1, c1⟩, e3⟩ := genExpr_some body s1 ha.add h1
    have x3 := ext_genExpr body e3
    have hp : (foldParam (g.genName p).1.fresh.1.fresh.2 (g.genName p).1.fresh.2 ta tb g1).isSome := by
      unfold foldParam
      split
      · obtain ⟨s, as, d, rfl, hd, hn⟩ := genTy_named hs hw.1 hf e1
        obtain ⟨n', cs, h4, h5, h6⟩ := hs.gen.name s d hd
        rw [hn] at h4; cases h4
        have h7 := hs.gen.typeCtors_sym hd hn h5
        obtain ⟨r, hr⟩ := Option.isSome_iff_exists.mp (foldBranches_some (fold := (g.genName p).1.fresh.1.fresh.2) (args := ‹List Ty›) (out := tb) (cs := cs) (g := g1)
          (fun c hc => by
            obtain ⟨k, -, -, -, h8⟩ := h7 c hc
            rw [x3.fields]
            show (g.ctorFields c.sym).isSome
            simp [h8]))
        rw [x3.typeCtors]
        show ((g.typeCtors _).bind _).isSome
        simp [h5, hr]
      · rfl
    obtain ⟨r, hr⟩ := Option.isSome_iff_exists.mp hp
    exact ⟨_, by simp only [genExpr, genTy, e1, e2, e3, hr, Option.bind_some, Option.map_some]; rfl⟩
  | .lambda false p pty fty body, vs, Γ, t, g, hs, ha, h => by
    simp only [HasTy] at h
    obtain ⟨rfl, hw, b, rfl, h1⟩ := h
    simp only [binderSyms] at ha
    have hsd := ha.2 p (by simp)
    have s1 : ScopeOK Δ vs ((p, mono pty) :: Γ) (g.genName p).1 := hs.add hsd.2
    obtain ⟨⟨g1, c1⟩, e1⟩ := genExpr_some body s1 ha.add h1
    obtain ⟨ta, e2⟩ := Option.isSome_iff_exists.mp (genTy_some (s1.ext (ext_genExpr body e1) (ha.add.2)) hw)
    exact ⟨_, by simp only [genExpr, e1, Gen.instTy, Gen.freshInst, e2, mapOpt, Option.bind_some, Option.map_some]; rfl⟩
  | .paren e, vs, Γ, t, g, hs, ha, h => by
    simp only [HasTy] at h
    simp only [binderSyms] at ha
    simp only [genExpr]
    exact genExpr_some e hs ha h
  | .hole text ty, vs, Γ, t, g, hs, ha, h => by
    simp only [HasTy] at h
    obtain ⟨rfl, hw⟩ := h
    obtain ⟨ta, e2⟩ := Option.isSome_iff_exists.mp (genTy_some hs hw)
    exact ⟨_, by simp only [genExpr, e2, Option.map_some]; rfl⟩
theorem genCases_some {Δ : List TypeDecl} : ∀ (cs : List (Case IrTy)) {vs Γ t g b decl args recTy}, ScopeOK Δ vs Γ g → Apart Δ Γ (casesBinderSyms cs) →
    declOf Δ decl.sym = some decl → HasCases Δ vs Γ decl args recTy cs t → ∃ r, genCases b g cs = some r
  | [], vs, Γ, t, g, b, decl, args, recTy, hs, ha, hd, h => ⟨_, rfl⟩
  | .mk c pvs body :: cs, vs, Γ, t, g, b, decl, args, recTy, hs, ha, hd, h => by
    simp only [HasCases] at h
    obtain ⟨⟨fields, hc, -⟩, h1, h2⟩ := h
    simp only [casesBinderSyms] at ha
    obtain ⟨s1, a1⟩ := hs.addAll ha
    obtain ⟨⟨g1, c1⟩, e1⟩ := genExpr_some body s1 a1.left h1
    have s2 := (hs.ext (ext_genNames _ g) ha.left.2).ext (ext_genExpr body e1) ha.right.left.2
    obtain ⟨k, hk, -⟩ := s2.gen.ctor _ _ hd _ hc
    simp only at hk
    obtain ⟨⟨g2, c2⟩, e2⟩ := genCases_some cs (b := b) s2 ha.right.right hd h2
    exact ⟨_, by simp only [genCases, e1, Gen.caseName, hk, e2, Option.bind_some, Option.map_some]; rfl⟩
end

end Tic.Front
