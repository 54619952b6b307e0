import Verif.GenTypes
import Verif.MeaningDefs
/-
Generating whole programs: the generator never fails on programs that meet the conditions, and what
it generates computes values of the declared types.
-/
namespace Tic.Front
open Tic.Unify (Symbol IrTy)
open Tic.Core

/-- The generator knows what has been defined. -/
structure Inv (w : World) (g : Gen) : Prop where
  gen : GenB w.decls g.names g
  decls : DeclsOK w.decls
  used : ∀ d ∈ w.decls, d.sym ∈ w.used ∧ (∀ v ∈ d.vars, v ∈ w.used) ∧ ∀ c ∈ d.ctors, c.1 ∈ w.used
  vars : ∀ d ∈ w.decls, ∀ v ∈ d.vars, declOf w.decls v = none
  wf : ∀ s d, declOf w.decls s = some d → ∀ c ∈ d.ctors, ∀ t, Field.ty t ∈ c.2 → WfTy w.decls d.vars t
  ctx : ∀ s sch, w.ctx.find s = some sch → s ∈ w.used ∧ (∀ x ∈ sch.vars, x ∈ w.used) ∧ (g.symNames s).isSome
  tyVars : ∀ s, (g.tyVars s).isSome → s ∈ w.used
  folded : ∀ s, (g.foldedNames s).isSome → s ∈ w.used
  ctors : ∀ c k, g.ctors c = some k → c ∈ w.used ∧ k.regular < g.names ∧ k.folded < g.names
  inj : ∀ c c' k k', g.ctors c = some k → g.ctors c' = some k' → (k.regular = k'.regular ∨ k.folded = k'.folded ∨ k.regular = k'.folded) → c = c'
  types : ∀ d ∈ w.decls, ∃ td ∈ g.types, mapOpt (fun c => (g.ctors c).map (·.regular)) (d.ctors.map (·.1)) = some (td.cases.map (·.name))

/-- Different constructors have different names. -/
def SemOK (M : Sem) : Prop := (∀ c c' n, M.reg c = some n → M.reg c' = some n → c = c') ∧ ∀ c c' n, M.fold c = some n → M.fold c' = some n → c = c'

theorem Inv.fix {w g M} (h : Inv w g) (hM : SemOK M) : Fix M w.decls := ⟨h.decls, h.vars, h.wf, hM.1, hM.2⟩

theorem Inv.away {w g l} (h : Inv w g) (hl : ∀ s ∈ l, s ∉ w.used) : Away w.decls l := by
  intro s d hd
  have := h.used d (declOf_mem hd)
  rw [declOf_sym hd] at this
  exact ⟨fun hs => hl s hs this.1, fun c hc hm => hl _ hm (this.2.2 c hc)⟩

theorem Inv.apart {w g l} (h : Inv w g) (hn : l.Nodup) (hl : ∀ s ∈ l, s ∉ w.used) {Γ : Ctx} (hΓ : ∀ x sc, Γ.find x = some sc → w.ctx.find x = some sc) :
    Apart w.decls Γ l := by
  refine ⟨hn, fun b hb => ⟨?_, (h.away hl).none b hb⟩⟩
  cases hf : Γ.find b with
  | none => rfl
  | some sc => exact absurd (h.ctx b sc (hΓ b sc hf)).1 (hl b hb)

/-- The export of a definition. -/
def expo (d : ValueDef) : Option (String × Option Name) := d.exportName.map fun x => (x, some d.name)

/-- The meaning of items, from the values of names to an outcome; `T` are the fields of constructors. -/
abbrev Doing := (Symbol → Option (List Field)) → SEnv → Out SEnv → Prop

/-- What an item does to the generator and at run time; `xs` are the exports, and `P` is what the
item means. -/
structure GenStep (P : Doing) (xs : List (String × Symbol)) (w w' : World) (g g' : Gen) : Prop where
  inv : Inv w' g'
  sym : ∀ s ∈ w.used, g'.symNames s = g.symNames s
  used : ∀ s ∈ w.used, s ∈ w'.used
  exports : g'.defs.filterMap expo = g.defs.filterMap expo ++ xs.map (fun p => (p.1, g'.symNames p.2)) ∧ ∀ p ∈ xs, p.2 ∈ w'.used
  ctors : ∀ c k, g.ctors c = some k → g'.ctors c = some k
  texts : ∀ t ∈ w.texts, t ∈ w'.texts
  decls : ∀ s d, declOf w.decls s = some d → declOf w'.decls s = some d
  run : ∃ ds, g'.defs = g.defs ++ ds ∧ ∀ M : Sem, SemOK M → Agrees M g' → (∀ t ∈ w'.texts, M.H ("encountered " ++ t)) →
    ∀ (ρ : Env) (η : Symbol → VSet), ValsOK M w.decls [] η w.ctx g ρ → RunsTo M.H (fun n => evalDefs n ds ρ) fun ρ' => ValsOK M w'.decls [] η w'.ctx g' ρ'
  sim : ∀ ds, g'.defs = g.defs ++ ds → ∀ (M : Sem) (T : Symbol → Option (List Field)), Tags M → Agrees M g' →
    (∀ s d, declOf w'.decls s = some d → ∀ c ∈ d.ctors, T c.1 = some c.2) → ∀ (n : Nat) (σ : SEnv) (ρ : Env), EnvRel M T w.ctx g σ ρ →
    Post (evalDefs n ds ρ) (fun ρ' => ∃ σ', P T σ (.ok σ') ∧ EnvRel M T w'.ctx g' σ' ρ') (fun m => P T σ (.trap m))

theorem GenStep.refl {P : Doing} {w g} (h : Inv w g) (hP : ∀ T σ, P T σ (.ok σ)) : GenStep P [] w w g g := by
  refine ⟨h, fun _ _ => rfl, fun _ h => h, ⟨by simp, by simp⟩, fun _ _ h => h, fun _ h => h, fun _ _ h => h, ⟨[], by simp, fun _ _ _ _ ρ _ hv => RunsTo.ok (v := ρ) rfl hv⟩, ?_⟩
  intro ds hds M T hM hA hT n σ ρ hρ
  have : ds = [] := by simpa using hds
  subst this
  exact ⟨σ, hP T σ, hρ⟩

theorem GenStep.trans {P P' P'' : Doing} {xs xs' w w' w'' g g' g''} (h : GenStep P xs w w' g g') (h' : GenStep P' xs' w' w'' g' g'')
    (hP : ∀ T σ σ' o, P T σ (.ok σ') → P' T σ' o → P'' T σ o) (hP' : ∀ T σ m, P T σ (.trap m) → P'' T σ (.trap m)) : GenStep P'' (xs ++ xs') w w'' g g'' := by
  obtain ⟨ds, e, r⟩ := h.run
  obtain ⟨ds', e', r'⟩ := h'.run
  refine ⟨h'.inv, fun s hs => (h'.sym s (h.used s hs)).trans (h.sym s hs), fun s hs => h'.used s (h.used s hs), ⟨?_, ?_⟩, fun c k hk => h'.ctors c k (h.ctors c k hk), fun t ht => h'.texts t (h.texts t ht), fun s d hd => h'.decls s d (h.decls s d hd), ⟨ds ++ ds', by rw [e', e, List.append_assoc], ?_⟩, ?_⟩
  · rw [h'.exports.1, h.exports.1, List.map_append, List.append_assoc]
    congr 2
    exact List.map_congr_left fun p hp => by rw [h'.sym p.2 (h.exports.2 p hp)]
  · intro p hp
    rcases List.mem_append.mp hp with hp | hp
    · exact h'.used _ (h.exports.2 p hp)
    · exact h'.exports.2 p hp
  · intro M hM hA hH ρ η hv
    exact runs_defs_append (r M hM (fun c k hk => hA c k (h'.ctors c k hk)) (fun t ht => hH t (h'.texts t ht)) ρ η hv) fun ρ' hρ' => r' M hM hA hH ρ' η hρ'
  · intro ds2 hds2 M T hM hA hT n σ ρ hρ
    have : ds2 = ds ++ ds' := by
      rw [e', e, List.append_assoc] at hds2
      exact (List.append_cancel_left hds2).symm
    subst this
    rw [evalDefs_append]
    refine Post.bind ((h.sim ds e M T hM (fun c k hk => hA c k (h'.ctors c k hk)) (fun s d hd => hT s d (h'.decls s d hd)) n σ ρ hρ).mono ?_ fun m hm => hP' T σ m hm)
    rintro ρ' ⟨σ', p1, p2⟩
    refine (h'.sim ds' e' M T hM hA hT n σ' ρ' p2).mono ?_ fun m hm => hP T σ σ' _ p1 hm
    rintro ρ'' ⟨σ'', q1, q2⟩
    exact ⟨σ'', hP T σ σ' _ p1 q1, q2⟩

theorem GenB.mono {Δ : List TypeDecl} {k k' g} (h : GenB Δ k g) (hk : k ≤ k') : GenB Δ k' g := ⟨h.ok, fun s d n hd hn => Nat.lt_of_lt_of_le (h.bound s d n hd hn) hk⟩

theorem GenB.defs {Δ : List TypeDecl} {k g ds} (h : GenB Δ k g) : GenB Δ k { g with defs := ds } :=
  ⟨⟨h.ok.notVar, h.ok.folded, h.ok.name, h.ok.ctor⟩, h.bound⟩

theorem ext_genBuiltin (g : Gen) (b : Builtin) : Ext [] g (genBuiltin g b).1 := by
  cases b
  case iterate => exact ⟨Nat.le_add_right _ _, fun _ _ => rfl, fun _ _ => rfl, fun _ h => h, rfl, rfl, rfl, rfl, rfl, rfl⟩
  all_goals exact ext_freshes _ _

/-- The exports of an item. -/
def itemExports (ee : Bool) (i : Item) : List (String × Symbol) := if ee then (exportsOf [i]).map (fun p => (p.1, p.2.1)) else []

/-- A value. -/
theorem value_step {I : Symbol → Option Builtin} {ee : Bool} {w : World} {g : Gen} {s : Symbol} {ex : Option String} {sch : Scheme} {body : Ex IrTy} (h : Inv w g)
    (hv : ValueOK I w s sch body) : ∃ g', genValueItem I ee g s ex sch body = some g' ∧ GenStep (fun T σ o => Runs T I w σ (.value s ex sch body) o) (itemExports ee (.value s ex sch body)) w (w.item I (.value s ex sch body)) g g' := by
  obtain ⟨hnd, hnu⟩ := hv.new
  have hnd' := List.nodup_cons.mp hnd
  have hsu : s ∉ w.used := hnu s (by simp)
  have hvu : ∀ v ∈ sch.vars, v ∉ w.used := fun v hm => hnu v (by simp [hm])
  have hbu : ∀ v ∈ binderSyms body, v ∉ w.used := fun v hm => hnu v (by simp [hm])
  have hav : Away w.decls sch.vars := h.away hvu
  have has : Away w.decls [s] := h.away (by simpa using hsu)
  have hab : Away w.decls (binderSyms body) := h.away hbu
  -- the type
  let g1 := (g.genName s).1
  have e1 : Ext [s] g g1 := ext_genName g s
  have b1 : GenB w.decls g.names g1 := h.gen.ext e1 has
  let g2 := g1.freshInst sch.vars
  have e2 : Ext sch.vars g1 g2 := ext_freshInst _ _
  have s2 : ScopeOK w.decls sch.vars [] g2 := b1.scope hav
  obtain ⟨ty, hty⟩ := Option.isSome_iff_exists.mp (genTy_some s2 hv.wf)
  obtain ⟨tvs, htvs, -⟩ := mapOpt_isSome (f := g2.tyVars) (xs := sch.vars) fun v hm => (s2.vars v hm).1
  have hinst : g1.instTy sch.vars sch.ty = some (g2, absTys tvs ty) := by
    show ((genTy g2 sch.ty).bind _) = _
    rw [hty, Option.bind_some]
    show ((mapOpt g2.tyVars sch.vars).map _) = _
    rw [htvs]
    rfl
  let g3 := g2.freshInst sch.vars
  have e3 : Ext sch.vars g2 g3 := ext_freshInst _ _
  have b2 := b1.ext e2 hav
  have b3 : GenB w.decls g.names g3 := b2.ext e3 hav
  -- the value
  have key : ∃ (g4 : Gen) (c : Expr), genItemValue I g3 s sch.vars body = some (g4, c) ∧ Ext (binderSyms body) g3 g4 ∧
      (∀ M : Sem, SemOK M → Agrees M g → (∀ t ∈ (if (I s).isSome then [] else holes body), M.H ("encountered " ++ t)) → ∀ (ρ : Env) (η : Symbol → VSet), ValsOK M w.decls [] η w.ctx g ρ →
        RunsTo M.H (fun n => eval n ρ c) fun v => ∀ i : { Ss : List VSet // Ss.length = sch.vars.length },
          interp M (tyEnv M w.decls) (bindVars sch.vars i.1 η) sch.ty v) ∧
      ∀ (M : Sem) (T : Symbol → Option (List Field)), Tags M → Agrees M g → (∀ s d, declOf w.decls s = some d → ∀ c ∈ d.ctors, T c.1 = some c.2) →
        ∀ (n : Nat) (σ : SEnv) (ρ : Env), EnvRel M T w.ctx g σ ρ →
        Post (eval n ρ c) (fun v => ∃ V, Runs T I w σ (.value s ex sch body) (.ok ((s, V) :: σ)) ∧ Rel M T V v) (fun m => Runs T I w σ (.value s ex sch body) (.trap m)) := by
    cases hI : I s with
    | some b =>
      refine ⟨(genBuiltin g3 b).1, (genBuiltin g3 b).2, by simp only [genItemValue, hI], (ext_genBuiltin g3 b).weaken (by simp), ?_, ?_⟩
      rotate_left
      · intro M T hM hA hT n σ ρ hρ
        exact (post_builtin (M := M) (T := T) g3 b (E := fun _ => False)).mono (fun v hv => ⟨_, .builtin hI, hv⟩) fun _ h => h.elim
      intro M hM hA hH ρ η hval
      haveI : Inhabited { Ss : List VSet // Ss.length = sch.vars.length } := ⟨⟨List.replicate sch.vars.length fun _ => False, by simp⟩⟩
      exact RunsTo.all (monoR_eval _ _) fun i => runs_builtin g3 b ρ (hv.builtin b hI) fun v hm => tyEnv_none.mpr (hav.none v hm)
    | none =>
      obtain ⟨Γ, hΓ, hT'⟩ := hv.typed hI
      have hn2 := List.nodup_append.mp hnd'.2
      have hfind : ∀ b, b ∉ w.used → Γ.find b = none := by
        intro b hb
        cases hf : Γ.find b with
        | none => rfl
        | some sc => exact absurd (h.ctx b sc (hΓ b sc hf)).1 hb
      have sc3 : ScopeOK w.decls sch.vars Γ g3 := by
        refine ⟨b3.ok, fun x sc hx => ?_, fun v hm => ⟨freshInst_some hm, hav.none v hm⟩⟩
        have hxu := (h.ctx x sc (hΓ x sc hx))
        rw [e3.sym x (fun hm => hvu x hm hxu.1), e2.sym x (fun hm => hvu x hm hxu.1), e1.sym x (by simp; rintro rfl; exact hsu hxu.1)]
        exact hxu.2.2
      have ap : Apart w.decls Γ (binderSyms (body.map fill)) := by
        rw [binderSyms_map]
        exact h.apart hn2.2.1 hbu hΓ
      obtain ⟨⟨g4, c⟩, hgen⟩ := genExpr_some (body.map fill) sc3 ap hT'
      have hgen' : genExpr g3 body = some (g4, c) := by rw [← genExpr_fill]; exact hgen
      have e4 : Ext (binderSyms body) g3 g4 := ext_genExpr body hgen'
      obtain ⟨tvs', htvs', -⟩ := mapOpt_isSome (f := g4.tyVars) (xs := sch.vars) fun v hm => e4.isSome v (sc3.vars v hm).1
      refine ⟨g4, pis tvs' c, ?_, e4, ?_, ?_⟩
      rotate_left 2
      · intro M T hM hA hT n σ ρ hρ
        have h0 : EnvRel M T Γ g σ ρ := fun x sc hx => hρ x sc (hΓ x sc hx)
        have h3 : EnvRel M T Γ g3 σ ρ :=
          ((h0.ext e1 fun b hb => hfind b (by simp at hb; rw [hb]; exact hsu)).ext e2 fun b hb => hfind b (hvu b hb)).ext e3 fun b hb => hfind b (hvu b hb)
        refine post_pis fun j _ => ?_
        have := (sim (T := T) hM j).1 (body.map fill) ⟨sc3, ((hA.ext e1).ext e2).ext e3, hT⟩ ap hT' hgen h3
        rw [map_fill] at this
        refine this.mono ?_ fun m hm => .valueL hI hm
        rintro v ⟨V, v1, v2⟩
        exact ⟨V, .value hI v1, v2⟩
      · simp only [genItemValue, hI, hgen', Option.bind_some, htvs', Option.map_some]
      · intro M hM hA hH ρ η hval
        have hΓv : ValsOK M w.decls [] η Γ g3 ρ := by
          have h0 : ValsOK M w.decls [] η Γ g ρ := fun x sc hx => hval x sc (hΓ x sc hx)
          exact ((h0.ext e1 fun b hb => hfind b (by simp at hb; rw [hb]; exact hsu)).ext e2 fun b hb => hfind b (hvu b hb)).ext e3 fun b hb => hfind b (hvu b hb)
        haveI : Inhabited { Ss : List VSet // Ss.length = sch.vars.length } := ⟨⟨List.replicate sch.vars.length fun _ => False, by simp⟩⟩
        refine runs_pis (RunsTo.all (monoR_eval _ _) fun i => ?_)
        have hv' := hΓv.tyvars (vars := sch.vars) (by simp) i.1
        rw [List.append_nil] at hv'
        exact gen_sound (h.fix hM) (body.map fill) sc3 (((hA.ext e1).ext e2).ext e3) ap ((plainLets_map fill body).mpr hv.lets)
          (by rw [holes_map]; exact hH) hT' hgen hv'
  obtain ⟨g4, c, hval, e4, hrun, hsim⟩ := key
  have e04 : Ext (s :: (sch.vars ++ binderSyms body)) g g4 :=
    (((e1.trans e2).trans e3).trans e4).weaken (by intro x hx; simp only [List.mem_append, List.mem_cons, List.not_mem_nil, or_false] at hx ⊢; grind)
  have hall : ∀ x ∈ s :: (sch.vars ++ binderSyms body), x ∉ w.used := hnu
  refine ⟨{ g4 with defs := g4.defs ++ [⟨g.names, if ee then ex else none, absTys tvs ty, c⟩] }, ?_, ?_⟩
  · show ((g1.instTy sch.vars sch.ty).bind _) = _
    rw [hinst, Option.bind_some]
    show ((genItemValue I g3 s sch.vars body).map _) = _
    rw [hval]
    rfl
  · have hsn : g4.symNames s = some g.names := by
      have hsv : s ∉ sch.vars := fun hm => hnd'.1 (by simp [hm])
      have hsb : s ∉ binderSyms body := fun hm => hnd'.1 (by simp [hm])
      rw [e4.sym s hsb, e3.sym s hsv, e2.sym s hsv]
      exact setAt_eq
    have hnames : g.names < g4.names := Nat.lt_of_lt_of_le (Nat.lt_succ_self _) (Nat.le_trans e2.names (Nat.le_trans e3.names e4.names))
    refine ⟨⟨?_, h.decls, ?_, h.vars, h.wf, ?_, ?_, ?_, ?_, ?_, ?_⟩, ?_, ?_, ?_, ?_, ?_, fun _ _ h => h, ?_, ?_⟩
    · exact ((h.gen.ext e04 (h.away hall)).mono e04.names).defs
    · intro d hd
      obtain ⟨h1, h2, h3⟩ := h.used d hd
      simp only [World.item, List.mem_cons, List.mem_append]
      exact ⟨.inr (.inr (.inr h1)), fun v hm => .inr (.inr (.inr (h2 v hm))), fun c hc => .inr (.inr (.inr (h3 c hc)))⟩
    · intro x sc hx
      simp only [World.item, Ctx.find] at hx
      simp only [World.item, List.mem_cons, List.mem_append]
      split at hx
      · rename_i e
        subst e
        cases hx
        exact ⟨.inl rfl, fun x hx => .inr (.inl hx), by rw [hsn]; rfl⟩
      · obtain ⟨h1, h2, h3⟩ := h.ctx x sc hx
        refine ⟨.inr (.inr (.inr h1)), fun v hm => .inr (.inr (.inr (h2 v hm))), ?_⟩
        rw [e04.sym x (fun hm => hall x hm h1)]
        exact h3
    · intro x hx
      simp only [World.item]
      by_cases hm : x ∈ s :: (sch.vars ++ binderSyms body)
      · simp only [List.mem_cons, List.mem_append] at hm ⊢
        grind
      · have := h.tyVars x (by rw [← e04.ty x hm]; exact hx)
        simp [this]
    · intro x hx
      have := h.folded x (by rw [← e04.folded]; exact hx)
      simp [World.item, this]
    · intro c k hk
      obtain ⟨h1, h2, h3⟩ := h.ctors c k (by rw [← e04.ctors]; exact hk)
      exact ⟨by simp [World.item, h1], Nat.lt_of_lt_of_le h2 e04.names, Nat.lt_of_lt_of_le h3 e04.names⟩
    · intro c c' k k' hk hk' he
      exact h.inj c c' k k' (by rw [← e04.ctors]; exact hk) (by rw [← e04.ctors]; exact hk') he
    · intro d hd
      obtain ⟨td, h1, h2⟩ := h.types d hd
      refine ⟨td, ?_, ?_⟩
      · show td ∈ g4.types
        rw [e04.types]
        exact h1
      · show mapOpt (fun c => (g4.ctors c).map (·.regular)) _ = _
        rw [e04.ctors]
        exact h2
    · intro x hx
      exact e04.sym x fun hm => hall x hm hx
    · intro x hx
      simp [World.item, hx]
    · refine ⟨?_, ?_⟩
      · show (g4.defs ++ _).filterMap expo = _
        rw [e04.defs, List.filterMap_append]
        congr 1
        cases ee <;> cases ex <;> simp [expo, itemExports, exportsOf, hsn]
      · intro p hp
        cases ee <;> cases ex <;> simp [itemExports, exportsOf] at hp
        subst hp
        simp [World.item]
    · intro c k hk
      show g4.ctors c = some k
      rw [e04.ctors]
      exact hk
    · intro t ht
      simp [World.item, ht]
    · refine ⟨[⟨g.names, if ee then ex else none, absTys tvs ty, c⟩], by show g4.defs ++ _ = _; rw [e04.defs], ?_⟩
      intro M hM hA hH ρ η hvals
      have hA0 : Agrees M g := fun c k hk => hA c k (by show g4.ctors c = some k; rw [e04.ctors]; exact hk)
      refine runs_defs_one (hrun M hM hA0 (fun t ht => hH t (by simp [World.item, ht])) ρ η hvals) fun v hv' => ?_
      have hadd := hvals.add (s := s) (sch := sch) (v := v) (by simpa using hv.wf) (.inr hv.plain) (fun x hx => hav.none x hx) (fun Ss hl => hv' ⟨Ss, hl⟩)
      intro x sc hx
      obtain ⟨a1, a2, a3, k, u, a4, a5, a6, a7⟩ := hadd x sc hx
      refine ⟨a1, a2, a3, k, u, ?_, Nat.lt_of_lt_of_le a5 hnames, a6, a7⟩
      show g4.symNames x = some k
      by_cases hxs : x = s
      · subst hxs
        rw [hsn]
        simpa [Gen.genName] using a4
      · simp only [World.item, Ctx.find] at hx
        rw [if_neg (Ne.symm hxs)] at hx
        rw [e04.sym x (fun hm => hall x hm (h.ctx x sc hx).1)]
        simpa [Gen.genName, setAt_ne hxs] using a4
    · intro ds hds M T hM hA hT n σ ρ hρ
      have hds' : ds = [⟨g.names, if ee then ex else none, absTys tvs ty, c⟩] := by
        have : g4.defs ++ [⟨g.names, if ee then ex else none, absTys tvs ty, c⟩] = g.defs ++ ds := hds
        rw [e04.defs] at this
        exact (List.append_cancel_left this).symm
      subst hds'
      have hA0 : Agrees M g := fun c k hk => hA c k (by show g4.ctors c = some k; rw [e04.ctors]; exact hk)
      simp only [evalDefs]
      refine Post.bind ((hsim M T hM hA0 hT n σ ρ hρ).mono ?_ fun m hm => hm)
      rintro v ⟨V, v1, v2⟩
      refine ⟨_, v1, fun x sc hx => ?_⟩
      obtain ⟨W, u, k, a1, a2, a3, a4, a5⟩ := (hρ.add (s := s) (sch := sch) v2) x sc hx
      refine ⟨W, u, k, a1, ?_, Nat.lt_of_lt_of_le a3 hnames, a4, a5⟩
      show g4.symNames x = some k
      by_cases hxs : x = s
      · subst hxs
        rw [hsn]
        simpa [Gen.genName] using a2
      · simp only [World.item, Ctx.find] at hx
        rw [if_neg (Ne.symm hxs)] at hx
        rw [e04.sym x (fun hm => hall x hm (h.ctx x sc hx).1)]
        simpa [Gen.genName, setAt_ne hxs] using a2

/-! ### Types -/

theorem foldl_setAt {α : Type} : ∀ {cs : List (Symbol × α)} {f : Symbol → Option α} {s}, s ∉ cs.map (·.1) → cs.foldl (fun f c => setAt f c.1 c.2) f s = f s
  | [], f, s, _ => rfl
  | c :: cs, f, s, h => by
    simp only [List.map_cons, List.mem_cons, not_or] at h
    simp only [List.foldl_cons]
    rw [foldl_setAt h.2, setAt_ne h.1]

theorem foldl_setAt_mem {α : Type} : ∀ {cs : List (Symbol × α)} {f : Symbol → Option α} {c}, (cs.map (·.1)).Nodup → c ∈ cs →
    cs.foldl (fun f c => setAt f c.1 c.2) f c.1 = some c.2
  | c' :: cs, f, c, hn, h => by
    simp only [List.map_cons, List.nodup_cons] at hn
    simp only [List.foldl_cons]
    rcases List.mem_cons.mp h with rfl | h
    · rw [foldl_setAt hn.1, setAt_eq]
    · exact foldl_setAt_mem hn.2 h

/-- A new declaration does not change the values of types. -/
theorem ValsOK.decl {M : Sem} {Δ : List TypeDecl} {η Γ g ρ} (h : ValsOK M Δ [] η Γ g ρ) {d : TypeDecl} (hd : declOf Δ d.sym = none)
    (hv : ∀ s sch, Γ.find s = some sch → d.sym ∉ sch.vars) : ValsOK M (d :: Δ) [] η Γ g ρ := by
  intro s sch hs
  obtain ⟨h1, h2, h3, n, v, h4, h5, h6, h7⟩ := h s sch hs
  have hne : ∀ x, x ∈ sch.vars ∨ (declOf Δ x).isSome → d.sym ≠ x := by
    rintro x (hx | hx) rfl
    · exact hv s sch hs hx
    · rw [hd] at hx; cases hx
  have hsy : ∀ x ∈ tySyms sch.ty, d.sym ≠ x := fun x hx => hne x (by simpa using wfTy_syms h1 x hx)
  refine ⟨?_, h2, fun x hx => ?_, n, v, h4, h5, h6, fun Ss hl => ?_⟩
  · refine wfTy_mono (fun x hx => ⟨id, ?_, ?_⟩) h1
    · simp only [arity, declOf_cons]
      rw [if_neg (hsy x hx)]
    · rw [declOf_cons, if_neg (hsy x hx)]; exact id
  · rw [declOf_cons, if_neg (hne x (.inl hx))]
    exact h3 x hx
  · rw [← interp_congr (M := M) (δ := tyEnv M Δ) (η := bindVars sch.vars Ss η) sch.ty]
    · exact h7 Ss hl
    · intro x hx
      exact ⟨by simp only [tyEnv]; exact (if_neg (hsy x hx)).symm, fun _ => rfl⟩

theorem mem_zip_get {α β : Type} {xs : List α} {ys : List β} {i : Nat} {x y} (h : xs[i]? = some x) (h' : ys[i]? = some y) : (x, y) ∈ xs.zip ys := by
  refine List.mem_of_getElem? (i := i) ?_
  rw [List.getElem?_zip_eq_some]
  exact ⟨h, h'⟩

theorem nodup_get {α : Type} {xs : List α} (h : xs.Nodup) {i j : Nat} {x} (hi : xs[i]? = some x) (hj : xs[j]? = some x) : i = j := by
  obtain ⟨h1, h2⟩ := List.getElem?_eq_some_iff.mp hi
  obtain ⟨h3, h4⟩ := List.getElem?_eq_some_iff.mp hj
  have hp := List.pairwise_iff_getElem.mp h
  rcases Nat.lt_trichotomy i j with hlt | he | hlt
  · exact absurd (h2.trans h4.symm) (hp i j h1 h3 hlt)
  · exact he
  · exact absurd (h4.trans h2.symm) (hp j i h3 h1 hlt)

theorem ctorCtx_find {d : TypeDecl} {s sc} (h : (ctorCtx d).find s = some sc) : ∃ c, (c ∈ d.ctors ∧ c.1 = s) ∧ sc = ⟨d.vars, ctorTy ⟨d.sym, d.vars, c.2⟩⟩ := by
  have hm : ∀ {Γ : Ctx}, Γ.find s = some sc → (s, sc) ∈ Γ := by
    intro Γ
    induction Γ with
    | nil => intro h; cases h
    | cons p Γ ih =>
      obtain ⟨k, v⟩ := p
      intro h
      simp only [Ctx.find] at h
      split at h
      · rename_i e; cases h; simp [e]
      · exact List.mem_cons_of_mem _ (ih h)
  have := hm h
  simp only [ctorCtx, List.mem_reverse, List.mem_map, Prod.mk.injEq] at this
  obtain ⟨c, hc, h1, h2⟩ := this
  exact ⟨c, ⟨hc, h1⟩, h2.symm⟩

theorem mapOpt_pointwise {α β : Type} {f : α → Option β} : ∀ {xs : List α} {ys : List β}, xs.length = ys.length →
    (∀ (i : Nat) x y, xs[i]? = some x → ys[i]? = some y → f x = some y) → mapOpt f xs = some ys
  | [], [], _, _ => rfl
  | x :: xs, y :: ys, hl, h => by
    have h0 := h 0 x y rfl rfl
    have ih := mapOpt_pointwise (f := f) (xs := xs) (ys := ys) (by simpa using hl) fun i a b ha hb => h (i + 1) a b (by simpa using ha) (by simpa using hb)
    simp [mapOpt, h0, ih]

theorem type_step {I : Symbol → Option Builtin} {ee : Bool} {w : World} {g : Gen} {d : TypeDecl} (h : Inv w g) (hd : DeclOK w d) :
    ∃ g', emitItem I ee (w.done, g) (.type d) = some (w.done, g') ∧ GenStep (fun T σ o => Runs T I w σ (.type d) o) [] w (w.item I (.type d)) g g' := by
  obtain ⟨hnd, hnu⟩ := hd.new
  have ha : Away w.decls (d.sym :: (d.vars ++ d.ctors.map (·.1))) := h.away hnu
  have hdv : d.sym ∉ d.vars := fun hm => (List.nodup_cons.mp hnd).1 (by simp [hm])
  have hdc : d.sym ∉ d.ctors.map (·.1) := fun hm => (List.nodup_cons.mp hnd).1 (List.mem_append.mpr (.inr hm))
  obtain ⟨hvn, hcn, hvc⟩ := List.nodup_append.mp (List.nodup_cons.mp hnd).2
  have hcv : ∀ c ∈ d.ctors.map (·.1), c ∉ d.vars := fun c hc hm => hvc _ hm _ hc rfl
  have hcu : ∀ c ∈ d.ctors.map (·.1), c ∉ w.used := fun c hc => hnu c (List.mem_cons_of_mem _ (List.mem_append.mpr (.inr hc)))
  have hvu : ∀ c ∈ d.vars, c ∉ w.used := fun c hc => hnu c (by simp [hc])
  have hsu : d.sym ∉ w.used := hnu _ (by simp)
  -- fields
  have e0 : ExtT g.names [] [] (d.ctors.map (·.1)) g (g.addFields d) :=
    ⟨Nat.le_refl _, fun _ _ => rfl, fun _ _ => rfl, fun _ _ => rfl, fun s hs => foldl_setAt hs, fun _ _ => rfl, fun _ _ => rfl⟩
  have b0 : GenB w.decls g.names (g.addFields d) := h.gen.extT e0 away_nil away_nil (away_sub ha (fun s hs => List.mem_cons_of_mem _ (List.mem_append.mpr (.inr hs))))
  have hf0 : ∀ c ∈ d.ctors, (g.addFields d).ctorFields c.1 = some c.2 ∧ FieldsOK w.decls d.vars c.2 := fun c hc =>
    ⟨foldl_setAt_mem hcn hc, fun t ht => ((hd.fields c hc).2 t ht).2⟩
  -- the type
  obtain ⟨g1, ns1, cs1, r1, l1, n1, bd1, e1, f1, c1, ⟨td, htd, htdn⟩, k1, -, hF⟩ := genTypeItem_ok (functor := false) (g := g.addFields d) (k := g.names) (Nat.le_refl _) b0 ha hnd hf0
    (by simp) (fun _ => by
      cases hc : (g.addFields d).foldedNames d.sym with
      | none => rfl
      | some x => exact absurd (h.folded d.sym (by rw [show g.foldedNames d.sym = some x from hc]; rfl)) hsu)
  obtain ⟨hfold1, hsym1, hlt1, hsn1, ds, hds, hex, hcd, hcnm, hok⟩ := hF rfl
  simp only [Bool.false_eq_true, if_false] at e1
  have hsub1 : ∀ s ∈ d.sym :: (d.ctors.map (·.1) ++ d.vars), s ∈ d.sym :: (d.vars ++ d.ctors.map (·.1)) := by
    intro s hs
    simp only [List.mem_cons, List.mem_append] at hs ⊢
    grind
  have hsub2 : ∀ s ∈ d.sym :: d.ctors.map (·.1), s ∈ d.sym :: (d.vars ++ d.ctors.map (·.1)) := by
    intro s hs
    simp only [List.mem_cons, List.mem_append] at hs ⊢
    grind
  have b1 : GenB w.decls g.names g1 := b0.extT e1 (away_sub ha hsub1) (away_sub ha (by simp +contextual)) (away_sub ha hsub2)
  -- the functor
  obtain ⟨g2, ns2, cs2, r2, l2, n2, bd2, e2, f2, c2, ⟨td2, htd2, -⟩, k2, hT, -⟩ := genTypeItem_ok (functor := true) (g := g1) (k := g.names) e1.names b1 ha hnd
    (fun c hc => ⟨by rw [f1]; exact (hf0 c hc).1, (hf0 c hc).2⟩) (fun _ => ⟨g.names, hsym1, Nat.le_refl _, hlt1⟩) (by simp)
  obtain ⟨hds2, hfold2, htc⟩ := hT rfl
  obtain ⟨htc1, htc2⟩ := htc _ hsym1
  simp only [if_true] at e2
  have hsym2 : g2.symNames d.sym = some g.names := (e2.sym d.sym hdv).trans hsym1
  have hnames : g.names ≤ g2.names := Nat.le_trans e1.names e2.names
  have hnone : ∀ c ∈ d.ctors.map (·.1), g.ctors c = none := by
    intro c hc
    cases hk : g.ctors c with
    | none => rfl
    | some k => exact absurd (h.ctors c k hk).1 (hcu c hc)
  have hct : ∀ (i : Nat) c, (d.ctors.map (·.1))[i]? = some c → ∃ x y m m', ns1[i]? = some x ∧ ns2[i]? = some y ∧ g2.ctors c = some ⟨c, x, y, m, m'⟩ := by
    intro i c hi
    have hil : i < d.ctors.length := by simpa using (List.getElem?_eq_some_iff.mp hi).1
    have hx := List.getElem?_eq_getElem (l := ns1) (i := i) (by rw [l1]; exact hil)
    have hy := List.getElem?_eq_getElem (l := ns2) (i := i) (by rw [l2]; exact hil)
    obtain ⟨m, hm⟩ := k1 _ (mem_zip_get hi hx)
    obtain ⟨m', hm'⟩ := k2 _ (mem_zip_get hi hy)
    simp only at hm hm'
    rw [show (g.addFields d).ctors c = none from hnone c (List.mem_of_getElem? hi)] at hm
    rw [hm] at hm'
    exact ⟨_, _, m, m', hx, hy, hm'⟩
  have hold : ∀ c, c ∉ d.ctors.map (·.1) → g2.ctors c = g.ctors c := by
    intro c hc
    by_cases hs : c = d.sym
    · subst hs
      rw [c2, c1]
      rfl
    · rw [e2.ctors c (by simp only [List.mem_cons, not_or]; exact ⟨hs, hc⟩), e1.ctors c (by simp only [List.mem_cons, not_or]; exact ⟨hs, hc⟩)]
      rfl
  have hcase : ∀ c k, g2.ctors c = some k → (g.ctors c = some k ∧ c ∈ w.used) ∨
      ∃ i : Nat, (d.ctors.map (·.1))[i]? = some c ∧ ns1[i]? = some k.regular ∧ ns2[i]? = some k.folded := by
    intro c k hk
    by_cases hc : c ∈ d.ctors.map (·.1)
    · obtain ⟨i, hi⟩ := List.getElem?_of_mem hc
      obtain ⟨x, y, m, m', hx, hy, he⟩ := hct i c hi
      rw [he] at hk
      cases hk
      exact .inr ⟨i, hi, hx, hy⟩
    · rw [hold c hc] at hk
      exact .inl ⟨hk, (h.ctors c k hk).1⟩
  have hdn : declOf w.decls d.sym = none := ha.none _ (by simp)
  have hdecl : ∀ x, x ∈ w.used → declOf (d :: w.decls) x = declOf w.decls x := by
    intro x hx
    rw [declOf_cons, if_neg (fun (e : d.sym = x) => hsu (e ▸ hx))]
  have hdeclS : ∀ x, (declOf w.decls x).isSome → d.sym ≠ x := by
    rintro x hx rfl
    rw [hdn] at hx
    cases hx
  have hwfm : ∀ vs t, (∀ v ∈ vs, d.sym ≠ v) → WfTy w.decls vs t → WfTy (d :: w.decls) vs t := by
    intro vs t hvs hw
    refine wfTy_mono (fun x hx => ⟨id, ?_, ?_⟩) hw
    all_goals
      have hne : d.sym ≠ x := (wfTy_syms hw x hx).elim (fun hm => hvs x hm) (fun hs => hdeclS x hs)
    · simp only [arity, declOf_cons]
      rw [if_neg hne]
    · rw [declOf_cons, if_neg hne]; exact id
  have e02 : ExtT g.names (d.sym :: (d.ctors.map (·.1) ++ d.vars)) d.vars (d.sym :: d.ctors.map (·.1)) g g2 :=
    ((e0.weaken (by simp) (by simp) (fun _ h => List.mem_cons_of_mem _ h)).trans e1).trans
      (e2.weaken (fun s hs => by simp [hs]) (fun _ h => h) (fun _ h => h))
  have b2 : GenB w.decls g.names g2 := h.gen.extT e02 (away_sub ha hsub1) (away_sub ha (by simp +contextual)) (away_sub ha hsub2)
  have hsplit : ∀ {P : TypeDecl → Symbol → Prop}, P d d.sym → (∀ s d', declOf w.decls s = some d' → P d' s) → ∀ s d', declOf (d :: w.decls) s = some d' → P d' s := by
    intro P h1 h2 s d' hd'
    rw [declOf_cons] at hd'
    by_cases hs : d.sym = s
    · rw [if_pos hs] at hd'
      cases hd'
      rw [← hs]
      exact h1
    · rw [if_neg hs] at hd'
      exact h2 s d' hd'
  have hvars' : ∀ d' ∈ d :: w.decls, ∀ v ∈ d'.vars, declOf (d :: w.decls) v = none := by
    intro d' hd' v hv
    show declOf (d :: w.decls) v = none
    rcases List.mem_cons.mp hd' with rfl | hd'
    · rw [declOf_cons, if_neg (fun (e : d'.sym = v) => hdv (e ▸ hv))]
      exact ha.none v (by simp [hv])
    · rw [hdecl v ((h.used d' hd').2.1 v hv)]
      exact h.vars d' hd' v hv
  have hwf' : ∀ s d', declOf (d :: w.decls) s = some d' → ∀ c ∈ d'.ctors, ∀ t, Field.ty t ∈ c.2 → WfTy (d :: w.decls) d'.vars t := by
    refine hsplit (P := fun d' _ => ∀ c ∈ d'.ctors, ∀ t, Field.ty t ∈ c.2 → WfTy (d :: w.decls) d'.vars t) ?_ ?_
    · intro c hc t ht
      exact hwfm _ t (fun v hv e => hdv (e ▸ hv)) ((hd.fields c hc).2 t ht).2
    · intro s d' hd' c hc t ht
      exact hwfm _ t (fun v hv e => hsu (e ▸ (h.used d' (declOf_mem hd')).2.1 v hv)) (h.wf s d' hd' c hc t ht)
  refine ⟨g2, ?_, ⟨⟨?_, ?_, ?_, ?_, ?_, ?_, ?_, ?_, ?_, ?_, ?_⟩, ?_, ?_, ⟨?_, by simp⟩, ?_, fun t ht => ht, ?_, ⟨ds, ?_, ?_⟩, ?_⟩⟩
  · simp only [emitItem, r1, Option.bind_some, r2, Option.map_some]
  · -- the declared types
    refine ⟨⟨?_, ?_, ?_, ?_⟩, ?_⟩
    · refine hsplit (P := fun _ s => g2.tyVars s = none) ?_ b2.ok.notVar
      cases hc : g2.tyVars d.sym with
      | none => rfl
      | some x =>
        rw [e02.ty d.sym hdv] at hc
        exact absurd (h.tyVars d.sym (by rw [hc]; rfl)) hsu
    · exact hsplit (P := fun _ s => (g2.foldedNames s).isSome = true) hfold2 b2.ok.folded
    · exact hsplit (P := fun d s => ∃ n cs, g2.symNames s = some n ∧ g2.typeCtors n = some cs ∧ mapOpt g2.ctors (d.ctors.map (·.1)) = some cs)
        ⟨_, _, hsym2, htc1, htc2⟩ b2.ok.name
    · refine hsplit (P := fun d s => ∀ c ∈ d.ctors, ∃ k, g2.ctors c.1 = some k ∧ k.sym = c.1 ∧ g2.ctorFields c.1 = some c.2) ?_ b2.ok.ctor
      intro c hc
      obtain ⟨i, hi⟩ := List.getElem?_of_mem (List.mem_map_of_mem (f := (·.1)) hc)
      obtain ⟨x, y, m, m', -, -, he⟩ := hct i c.1 hi
      exact ⟨_, he, rfl, by rw [f2, f1]; exact (hf0 c hc).1⟩
    · intro s d' n hd' hn
      refine hsplit (P := fun _ s => ∀ n, g2.symNames s = some n → n < g2.names) ?_ ?_ s d' hd' n hn
      · intro n hn
        rw [hsym2] at hn
        cases hn
        exact Nat.lt_of_lt_of_le hlt1 e2.names
      · intro s d' hd' n hn
        exact Nat.lt_of_lt_of_le (b2.bound s d' n hd' hn) hnames
  · exact ⟨hdn, hcn, hd.fields, h.decls⟩
  · intro d' hd'
    simp only [World.item, List.mem_cons, List.mem_append]
    rcases List.mem_cons.mp hd' with rfl | hd'
    · exact ⟨.inl rfl, fun v hv => .inr (.inl hv), fun c hc => .inr (.inr (.inl (List.mem_map_of_mem hc)))⟩
    · obtain ⟨h1, h2, h3⟩ := h.used d' hd'
      exact ⟨.inr (.inr (.inr h1)), fun v hv => .inr (.inr (.inr (h2 v hv))), fun c hc => .inr (.inr (.inr (h3 c hc)))⟩
  · exact hvars'
  · exact hwf'
  · intro s sch hs
    simp only [World.item, find_append] at hs
    simp only [World.item, List.mem_cons, List.mem_append]
    cases hc : (ctorCtx d).find s with
    | some sc =>
      rw [hc] at hs
      cases hs
      obtain ⟨c, hcm, he⟩ := ctorCtx_find hc
      subst he
      refine ⟨.inr (.inr (.inl ?_)), fun x hx => .inr (.inl hx), ?_⟩
      · exact hcm.2 ▸ List.mem_map_of_mem hcm.1
      · rw [← hcm.2, e2.sym c.1 (hcv _ (List.mem_map_of_mem hcm.1))]
        exact hsn1 c hcm.1
    | none =>
      rw [hc] at hs
      obtain ⟨h1, h2, h3⟩ := h.ctx s sch hs
      refine ⟨.inr (.inr (.inr h1)), fun v hv => .inr (.inr (.inr (h2 v hv))), ?_⟩
      rw [e02.sym s (fun hm => hnu s (hsub1 s hm) h1)]
      exact h3
  · intro s hs
    simp only [World.item, List.mem_cons, List.mem_append]
    by_cases hm : s ∈ d.vars
    · exact .inr (.inl hm)
    · rw [e02.ty s hm] at hs
      exact .inr (.inr (.inr (h.tyVars s hs)))
  · intro s hs
    simp only [World.item, List.mem_cons, List.mem_append]
    by_cases hm : s ∈ d.sym :: d.ctors.map (·.1)
    · rcases List.mem_cons.mp hm with hm | hm
      · exact .inl hm
      · exact .inr (.inr (.inl hm))
    · rw [e02.folded s hm] at hs
      exact .inr (.inr (.inr (h.folded s hs)))
  · intro c k hk
    simp only [World.item, List.mem_cons, List.mem_append]
    rcases hcase c k hk with ⟨hk', hu⟩ | ⟨i, h1, h2, h3⟩
    · obtain ⟨-, h2, h3⟩ := h.ctors c k hk'
      exact ⟨.inr (.inr (.inr hu)), Nat.lt_of_lt_of_le h2 hnames, Nat.lt_of_lt_of_le h3 hnames⟩
    · exact ⟨.inr (.inr (.inl (List.mem_of_getElem? h1))), Nat.lt_of_lt_of_le (bd1 _ (List.mem_of_getElem? h2)).2 e2.names, (bd2 _ (List.mem_of_getElem? h3)).2⟩
  · intro c c' k k' hk hk' he
    have lt_ne : ∀ {a b : Name}, a < g.names → g.names ≤ b → a ≠ b := fun h1 h2 e => absurd h1 (Nat.not_lt.mpr (e ▸ h2))
    have hge1 : ∀ {x}, x ∈ ns1 → g.names ≤ x := fun hx => (bd1 _ hx).1
    have hge2 : ∀ {x}, x ∈ ns2 → g.names ≤ x := fun hx => Nat.le_trans e1.names (bd2 _ hx).1
    rcases hcase c k hk with ⟨h1, hu⟩ | ⟨i, h1, h2, h3⟩ <;> rcases hcase c' k' hk' with ⟨h1', hu'⟩ | ⟨j, h1', h2', h3'⟩
    · exact h.inj c c' k k' h1 h1' he
    · obtain ⟨-, hr, hf⟩ := h.ctors c k h1
      rcases he with he | he | he
      · exact absurd he (lt_ne hr (hge1 (List.mem_of_getElem? h2')))
      · exact absurd he (lt_ne hf (hge2 (List.mem_of_getElem? h3')))
      · exact absurd he (lt_ne hr (hge2 (List.mem_of_getElem? h3')))
    · obtain ⟨-, hr, hf⟩ := h.ctors c' k' h1'
      rcases he with he | he | he
      · exact absurd he.symm (lt_ne hr (hge1 (List.mem_of_getElem? h2)))
      · exact absurd he.symm (lt_ne hf (hge2 (List.mem_of_getElem? h3)))
      · exact absurd he.symm (lt_ne hf (hge1 (List.mem_of_getElem? h2)))
    · have hij : i = j := by
        rcases he with he | he | he
        · rw [he] at h2; exact nodup_get n1 h2 h2'
        · rw [he] at h3; exact nodup_get n2 h3 h3'
        · have hlt := (bd1 _ (List.mem_of_getElem? h2)).2
          have hge := (bd2 _ (List.mem_of_getElem? h3')).1
          rw [he] at hlt
          exact absurd (Nat.lt_of_lt_of_le hlt hge) (Nat.lt_irrefl _)
      subst hij
      rw [h1] at h1'
      exact Option.some.inj h1'
  · intro d' hd'
    have ht : g2.types = g.types ++ [td, td2] := by
      rw [htd2, htd]
      simp [Gen.addFields]
    rcases List.mem_cons.mp hd' with rfl | hd'
    · refine ⟨td, by simp [ht], ?_⟩
      rw [htdn]
      refine mapOpt_pointwise (by rw [l1]; simp) fun i c n hi hn => ?_
      obtain ⟨x, y, m, m', hx, -, he⟩ := hct i c hi
      rw [hn] at hx
      cases hx
      rw [he]
      rfl
    · obtain ⟨td', h1, h2⟩ := h.types d' hd'
      refine ⟨td', by simp [ht, h1], ?_⟩
      rw [← h2]
      refine mapOpt_congr fun c hc => ?_
      obtain ⟨k, hk, rfl⟩ := List.mem_map.mp hc
      rw [hold k.1 fun hm => hcu _ hm ((h.used d' hd').2.2 k hk)]
  · intro x hx
    exact e02.sym x fun hm => hnu x (hsub1 x hm) hx
  · intro x hx
    simp [World.item, hx]
  · rw [hds2, hds, List.filterMap_append, List.map_nil]
    congr 1
    refine List.filterMap_eq_nil_iff.mpr fun e he => ?_
    simp [expo, hex e he]
  · intro c k hk
    rw [hold c (fun hc => hcu c hc (h.ctors c k hk).1)]
    exact hk
  · intro s d' hd'
    show declOf (d :: w.decls) s = some d'
    rw [declOf_cons, if_neg (hdeclS s (by rw [hd']; rfl))]
    exact hd'
  · rw [hds2, hds]
    rfl
  · intro M hM hA hH ρ η hv
    have F : Fix M (d :: w.decls) := ⟨⟨hdn, hcn, hd.fields, h.decls⟩, hvars', hwf', hM.1, hM.2⟩
    have hv0 : ValsOK M (d :: w.decls) [] η w.ctx (g.addFields d) ρ := by
      refine ValsOK.decl ?_ hdn fun s sch hs hm => hsu ((h.ctx s sch hs).2.1 _ hm)
      exact hv.extT e0 (by simp)
    have hfn : ∀ b ∈ d.sym :: (d.ctors.map (·.1) ++ d.vars), w.ctx.find b = none := by
      intro b hb
      cases hf : w.ctx.find b with
      | none => rfl
      | some sc => exact absurd (h.ctx b sc hf).1 (hnu b (hsub1 b hb))
    have hreg : ∀ p ∈ (d.ctors.map (·.1)).zip ns1, M.reg p.1 = some p.2 := by
      intro p hp
      obtain ⟨i, hi⟩ := List.getElem?_of_mem hp
      obtain ⟨h1, h2⟩ := List.getElem?_zip_eq_some.mp hi
      obtain ⟨x, y, m, m', hx, -, he⟩ := hct i p.1 h1
      rw [hx] at h2
      cases h2
      exact (hA _ _ he).1
    have := hok M (d :: w.decls) F d (by rw [declOf_cons, if_pos rfl]) rfl (fun _ hc => hc) hreg w.ctx ρ η hv0 (fun v hm => hfn v (by
      simp only [List.mem_cons, List.mem_append] at hm ⊢
      exact hm.imp id .inr))
    refine this.imp fun ρ' h' => ?_
    refine h'.extT e2 fun b hb => ?_
    rw [find_append, hfn b (by simp [hb])]
    rw [find_none_of]
    · rfl
    · intro hm
      simp only [ctorsCtx, List.map_reverse, List.map_map, List.mem_reverse] at hm
      exact hcv b hm hb
  · intro ds' hds' M T hM hA hT n σ ρ hρ
    have hdd : ds' = ds := by
      rw [hds2, hds] at hds'
      exact (List.append_cancel_left (as := g.defs) hds').symm
    subst hdd
    have hreg : ∀ p ∈ (d.ctors.map (·.1)).zip ns1, M.reg p.1 = some p.2 := by
      intro p hp
      obtain ⟨i, hi⟩ := List.getElem?_of_mem hp
      obtain ⟨h1, h2⟩ := List.getElem?_zip_eq_some.mp hi
      obtain ⟨x, y, m, m', hx, -, he⟩ := hct i p.1 h1
      rw [hx] at h2
      cases h2
      exact (hA _ _ he).1
    refine (ctors_sim (M := M) (T := T) (n := n) (ρ := ρ) hcd hreg).mono ?_ fun _ h => h.elim
    rintro ρ' ⟨k1, k2⟩
    refine ⟨_, .type, fun s sch hs => ?_⟩
    simp only [World.item, find_append] at hs
    rw [SEnv.find_append]
    cases hc : (ctorCtx d).find s with
    | some sc =>
      obtain ⟨c, ⟨hcm, rfl⟩, -⟩ := ctorCtx_find hc
      rw [ctorEnv_find hcn hcm]
      obtain ⟨i, hi⟩ := List.getElem?_of_mem hcm
      obtain ⟨e, he⟩ := hcd.get hi
      obtain ⟨v, v1, v2⟩ := k2 i c e hi he
      obtain ⟨m1, m2⟩ := hcnm i c e hi he
      refine ⟨_, v, e.name, rfl, ?_, Nat.lt_of_lt_of_le m2 e2.names, v1, v2⟩
      rw [e2.sym c.1 (hcv _ (List.mem_map_of_mem hcm))]
      exact m1
    | none =>
      rw [hc] at hs
      obtain ⟨V, v, k, q1, q2, q3, q4, q5⟩ := hρ s sch hs
      have hsu' := (h.ctx s sch hs).1
      rw [ctorEnv_none (fun hm => hcu s hm hsu')]
      refine ⟨V, v, k, q1, ?_, Nat.lt_of_lt_of_le q3 hnames, ?_, q5⟩
      · rw [e02.sym s (fun hm => hnu s (hsub1 s hm) hsu')]
        exact q2
      · rw [k1 k q3]
        exact q4

/-! ### Programs -/

/-- The exports of several items. -/
def itemsExports (ee : Bool) (is : List Item) : List (String × Symbol) := if ee then (exportsOf is).map (fun p => (p.1, p.2.1)) else []

theorem itemsExports_cons (ee : Bool) (i : Item) (is : List Item) : itemsExports ee (i :: is) = itemExports ee i ++ itemsExports ee is := by
  cases ee
  · rfl
  · simp only [itemsExports, itemExports, if_true]
    cases i with
    | value s ex sch body => cases ex <;> simp [exportsOf]
    | type d => simp [exportsOf]
    | imports k is => simp [exportsOf]

mutual
theorem item_step {I : Symbol → Option Builtin} : ∀ (i : Item) {ee : Bool} {w : World} {g : Gen}, Inv w g → ItemOK I w i →
    ∃ g', emitItem I ee (w.done, g) i = some ((w.item I i).done, g') ∧ GenStep (fun T σ o => Runs T I w σ i o) (itemExports ee i) w (w.item I i) g g'
  | .value s ex sch body, ee, w, g, h, hi => by
    simp only [ItemOK] at hi
    obtain ⟨g', h1, h2⟩ := value_step (ee := ee) (ex := ex) h hi
    exact ⟨g', by simp only [emitItem, h1, Option.map_some, World.item], h2⟩
  | .type d, ee, w, g, h, hi => by
    simp only [ItemOK] at hi
    obtain ⟨g', h1, h2⟩ := type_step (I := I) (ee := ee) h hi
    exact ⟨g', by rw [h1]; simp only [World.item], by simpa [itemExports, exportsOf] using h2⟩
  | .imports key items, ee, w, g, h, hi => by
    simp only [ItemOK] at hi
    have hx : itemExports ee (.imports key items) = [] := by simp [itemExports, exportsOf]
    rw [hx]
    by_cases hk : key ∈ w.done
    · refine ⟨g, ?_, ?_⟩
      · simp only [emitItem, World.item, if_pos hk]
      · simp only [World.item, if_pos hk]
        exact GenStep.refl h fun _ _ => .again hk
    · obtain ⟨g', h1, h2⟩ := items_step items (ee := false) (w := { w with done := key :: w.done }) (g := g)
        ⟨h.gen, h.decls, h.used, h.vars, h.wf, h.ctx, h.tyVars, h.folded, h.ctors, h.inj, h.types⟩ (hi.resolve_left hk)
      refine ⟨g', ?_, ?_⟩
      · simp only [emitItem, World.item, if_neg hk]
        exact h1
      · simp only [World.item, if_neg hk]
        refine ⟨h2.inv, h2.sym, h2.used, h2.exports, h2.ctors, h2.texts, h2.decls, h2.run, fun ds hds M T hM hA hT n σ ρ hρ => ?_⟩
        refine (h2.sim ds hds M T hM hA hT n σ ρ hρ).mono ?_ fun m hm => .imports hk hm
        rintro ρ' ⟨σ', q1, q2⟩
        exact ⟨σ', .imports hk q1, q2⟩
theorem items_step {I : Symbol → Option Builtin} : ∀ (is : List Item) {ee : Bool} {w : World} {g : Gen}, Inv w g → ItemsOK I w is →
    ∃ g', emitItems I ee (w.done, g) is = some ((w.items I is).done, g') ∧ GenStep (fun T σ o => RunsAll T I w σ is o) (itemsExports ee is) w (w.items I is) g g'
  | [], ee, w, g, h, _ => ⟨g, by simp only [emitItems, World.items], by simp only [World.items, itemsExports, exportsOf, List.map_nil, ite_self]; exact GenStep.refl h fun _ _ => .nil⟩
  | i :: is, ee, w, g, h, hi => by
    simp only [ItemsOK] at hi
    obtain ⟨g1, h1, s1⟩ := item_step i (ee := ee) h hi.1
    obtain ⟨g2, h2, s2⟩ := items_step is (ee := ee) s1.inv hi.2
    refine ⟨g2, ?_, ?_⟩
    · simp only [emitItems, h1, Option.bind_some, World.items]
      exact h2
    · simp only [World.items, itemsExports_cons]
      exact s1.trans s2 (fun _ _ _ _ h h' => .cons h h') fun _ _ _ h => .consL h
end

theorem inv_empty : Inv {} {} where
  gen := ⟨⟨by simp [declOf], by simp [declOf], by simp [declOf], by simp [declOf]⟩, by simp [declOf]⟩
  decls := trivial
  used := by simp
  vars := by simp
  wf := by simp [declOf]
  ctx := by simp [Ctx.find]
  tyVars := by simp
  folded := by simp
  ctors := by simp
  inj := by simp
  types := by simp

end Tic.Front
