import Verif.Optimize
import Verif.PropSaturate
import Verif.PropMerge
import Verif.PropMove
import Verif.PropDce
/-
C35: the optimizer as a whole keeps every exported value.
-/
namespace Tic.Core

/-- The exported definitions: the names they have inside and outside. -/
def exportList (p : Program) : List (Name × Option String) := (p.defs.filter (·.exportName.isSome)).map fun d => (d.name, d.exportName)

/-- `es` are exported definitions of the program. -/
def AsksExports (p : Program) (es : List Expr) : Prop := ∀ e ∈ es, ∃ d ∈ p.defs, d.exportName.isSome = true ∧ e = .name d.name

/-- Whether a program is fit for the optimizer: names are unique, in scope, and numbered below
the state of the name generator. -/
structure Fit (r : Prog) : Prop where
  named : WellNamed r.1
  below : NamesBelow r.2.names r.1

/-- What the optimizer promises. -/
structure Optimized (r r' : Prog) : Prop where
  fit : Fit r'
  types : r'.1.types = r.1.types
  exports : exportList r'.1 = exportList r.1
  values : ∀ es, AsksExports r.1 es → KeepsValues r.1 r'.1 es

theorem asksExports_iff {p : Program} {es : List Expr} : AsksExports p es ↔ ∀ e ∈ es, ∃ a ∈ exportList p, e = .name a.1 := by
  unfold AsksExports exportList
  refine forall_congr' fun e => forall_congr' fun _ => ?_
  simp only [List.mem_map, List.mem_filter]
  constructor
  · rintro ⟨d, h1, h2, h3⟩; exact ⟨_, ⟨d, ⟨h1, h2⟩, rfl⟩, h3⟩
  · rintro ⟨_, ⟨d, ⟨h1, h2⟩, rfl⟩, h3⟩; exact ⟨d, h1, h2, h3⟩

theorem Optimized.refl {r : Prog} (h : Fit r) : Optimized r r := ⟨h, rfl, rfl, fun _ _ => keepsValues_of fun _ => id⟩

theorem Optimized.trans {a b c : Prog} (h1 : Optimized a b) (h2 : Optimized b c) : Optimized a c :=
  ⟨h2.fit, h2.types.trans h1.types, h2.exports.trans h1.exports, fun es hes => keepsValues_of fun os ho =>
    (h2.values es (by rw [asksExports_iff, h1.exports, ← asksExports_iff]; exact hes)).keeps os ((h1.values es hes).keeps os ho)⟩

theorem SameOutcomes.keeps {p p' : Program} {es : List Expr} (h : SameOutcomes p p' es) : KeepsValues p p' es := keepsValues_of fun os => (h.yields os).1

theorem AsksExports.defs {p : Program} {es : List Expr} (h : AsksExports p es) : AsksDefs p es := fun e he => by
  obtain ⟨d, h1, _, h3⟩ := h e he; exact ⟨d, h1, h3⟩
theorem AsksExports.asks {p : Program} {es : List Expr} (h : AsksExports p es) : Asks p es := fun e he x hx => by
  obtain ⟨d, h1, _, rfl⟩ := h e he
  simp only [Free] at hx; subst hx
  exact List.mem_map.2 ⟨d, h1, rfl⟩
theorem AsksExports.exported {p : Program} {es : List Expr} (h : AsksExports p es) : AsksExported p es := fun e he x hx => by
  obtain ⟨d, h1, h2, rfl⟩ := h e he
  simp only [Free] at hx; subst hx
  exact ⟨d, h1, rfl, h2⟩

theorem exports_of_names {p p' : Program} (h : p'.defs.map (fun d => (d.name, d.exportName)) = p.defs.map (fun d => (d.name, d.exportName))) : exportList p' = exportList p := by
  have : ∀ p : Program, exportList p = (p.defs.map (fun d => (d.name, d.exportName))).filter (·.2.isSome) := fun p => by
    unfold exportList; rw [List.filter_map]; rfl
  rw [this, this, h]

theorem binders_le {p : Program} {g : Expr → Expr} {n : Nat} (h : NamesBelow n p) (hg : ∀ d ∈ p.defs, ∀ y, cnt y (g d.value) ≤ cnt y d.value) : NamesBelow n (mapDefs g p) := by
  intro d hd y hy
  obtain ⟨d0, hd0, rfl⟩ := List.mem_map.1 hd
  rcases List.mem_cons.1 hy with rfl | hy
  · exact h d0 hd0 _ (by simp)
  · have h1 : 0 < cnt y (g d0.value) := List.count_pos_iff.2 hy
    have h2 := hg d0 hd0 y
    exact h d0 hd0 y (List.mem_cons_of_mem _ (List.count_pos_iff.1 (Nat.lt_of_lt_of_le h1 h2)))

theorem WellNamed.good {p : Program} (h : WellNamed p) {d : ValueDef} (hd : d ∈ p.defs) : ∃ X, Good X d.value := by
  obtain ⟨pre, post, he⟩ := List.append_of_mem hd
  have hu := h.uniq
  rw [he, List.flatMap_append, List.flatMap_cons] at hu
  have h1 := List.nodup_append.1 hu
  have h2 := List.nodup_append.1 h1.2.1
  refine ⟨pre.map (·.name), fun y => List.nodup_iff_count.1 (List.nodup_cons.1 h2.1).2 y, fun y hy => ?_, h.scope pre d post he, h.recs d hd⟩
  obtain ⟨d', hd', rfl⟩ := List.mem_map.1 hy
  refine List.count_eq_zero.2 fun hm => ?_
  exact h1.2.2 d'.name (List.mem_flatMap.2 ⟨d', hd', by simp⟩) d'.name (by simp [hm]) rfl

/-- A pass that works on the values of the definitions. -/
theorem optimized_map {r : Prog} {p' : Program} {g : Expr → Expr} (h : Fit r) (he : p' = mapDefs g r.1) (hw : WellNamed p')
    (hc : ∀ X e, Good X e → ∀ y, cnt y (g e) ≤ cnt y e) (hv : ∀ es, Asks r.1 es → KeepsValues r.1 p' es) : Optimized r (p', r.2) := by
  subst he
  refine ⟨⟨hw, binders_le h.below fun d hd y => ?_⟩, rfl, exports_of_names (by simp [mapDefs]), fun es hes => hv es hes.asks⟩
  obtain ⟨X, hX⟩ := h.named.good hd
  exact hc X _ hX y

theorem optimized_saturate {r : Prog} (h : Fit r) : ∃ r', orPanic (saturate r.2 r.1) = .ok r' ∧ Optimized r r' := by
  obtain ⟨p', g', h1, h2, h3, h4, h5, h6⟩ := saturate_preserves h.named h.below
  exact ⟨_, by rw [h1]; rfl, ⟨h3, h5⟩, h2.1, exports_of_names h2.2, fun es hes => (h6 es hes.defs).keeps⟩

theorem optimized_inline {r : Prog} (h : Fit r) : ∃ r', (∃ K, ∀ k, K ≤ k → orTimeout (inlinePass k r.2 r.1) = .ok r') ∧ Optimized r r' := by
  obtain ⟨p', g', ⟨K, hK⟩, h2, h3, h4, h5, h6⟩ := inline_preserves h.named h.below
  refine ⟨_, ⟨K, fun k hk => by rw [hK k hk]; rfl⟩, ⟨h3, h5⟩, h2.1, exports_of_names ?_, fun es hes => (h6 es hes.asks).keeps⟩
  have := congrArg (List.map fun t : Name × Option String × Ty => (t.1, t.2.1)) h2.2
  rw [List.map_map, List.map_map] at this
  exact this

theorem optimized_move {r : Prog} {p' : Program} (h : Fit r) (hm : moveMatch r.1 = some p') : Optimized r (p', r.2) := by
  obtain ⟨h1, h2⟩ := move_match_preserves h.named hm
  exact optimized_map h (mapDefsO_eq (fun e e' hee => walkPreO_eq hee) hm) h1 (fun X e hg => ((stepOK_move lax_lax).walkPreN _ X e hg).cnt) h2

theorem optimized_merge {r : Prog} {p' : Program} (h : Fit r) (hm : mergeMatch r.1 = some p') : Optimized r (p', r.2) := by
  obtain ⟨h1, h2⟩ := merge_match_preserves h.named hm
  exact optimized_map h (mapDefsO_eq (fun e e' hee => walkPreO_eq hee) hm) h1 (fun X e hg => ((stepOK_merge (s := ⟨true, false⟩) rfl).walkPreN _ X e hg).cnt)
    fun es hes => (h2 es hes).1

theorem optimized_inlineSimple {r : Prog} (h : Fit r) : Optimized r (inlineSimple r.1, r.2) := by
  obtain ⟨h1, h2⟩ := inlineSimple_preserves h.named
  exact optimized_map h rfl h1 (fun X e hg => ((stepOK_inlineSimple lax_lax).walkPreN _ X e hg).cnt) h2

theorem optimized_reducePi {r : Prog} (h : Fit r) : Optimized r (reducePi r.1, r.2) := by
  obtain ⟨h1, h2⟩ := reducePi_preserves h.named
  exact optimized_map h rfl h1 (fun X e hg => ((stepOK_reducePi (d := true) (s := strict)).walkPost hg).cnt) fun es hes => (h2 es hes).keeps

theorem optimized_reduceApply {r : Prog} (h : Fit r) : Optimized r (reduceApply r.1, r.2) := by
  obtain ⟨h1, h2⟩ := reduceApply_preserves h.named
  exact optimized_map h rfl h1 (fun X e hg => ((stepOK_reduceApply (d := true) (s := strict)).walkPost hg).cnt) fun es hes => (h2 es hes).keeps

theorem optimized_dce {r : Prog} (h : Fit r) : Optimized r (dce r.1, r.2) := by
  obtain ⟨h1, h2⟩ := dce_preserves h.named
  refine ⟨⟨h1, fun d hd y hy => ?_⟩, rfl, ?_, fun es hes => h2 es hes.exported⟩
  · obtain ⟨d0, hd0, rfl⟩ := List.mem_map.1 hd
    have hd0' := List.mem_filter.1 hd0
    rcases List.mem_cons.1 hy with rfl | hy
    · exact h.below d0 hd0'.1 _ (by simp)
    · have hocc : OccIn (dceUsed r.1) d0.value := h.named.occIn hd0'.1 (by simpa using hd0'.2)
      obtain ⟨X, hX⟩ := h.named.good hd0'.1
      have hle := ((stepOK_drop lax_lax (dceUsed r.1)).walkPreN (esize d0.value) X _ hX).cnt y
      rw [removeUnused_eq hocc] at hy
      exact h.below d0 hd0'.1 y (List.mem_cons_of_mem _ (List.count_pos_iff.1 (Nat.lt_of_lt_of_le (List.count_pos_iff.2 hy) hle)))
  · unfold exportList dce
    simp only [List.filter_map, List.map_map, List.filter_filter]
    have : (r.1.defs.filter fun a => ((fun x : ValueDef => x.exportName.isSome) ∘ fun d : ValueDef => { d with value := removeUnused (dceUsed r.1) d.value }) a && decide (a.name ∈ dceUsed r.1)) =
        r.1.defs.filter (·.exportName.isSome) := by
      refine List.filter_congr fun d hd => ?_
      have := (dceUsed_spec r.1).1 d hd
      cases hx : d.exportName.isSome with
      | false => simp [hx]
      | true => simp [hx, this hx]
    rw [this]
    rfl

/-- A pass arrives, at any depth from some depth on, at a program that is as good, or always
panics. -/
def PassFine (f : Nat → Prog → Res Prog) : Prop :=
  ∀ r, Fit r → ∃ K, (∃ r', (∀ k, K ≤ k → f k r = .ok r') ∧ Optimized r r') ∨ ∀ k, K ≤ k → f k r = .panic

theorem passFine_run : ∀ {fs : List (Nat → Prog → Res Prog)}, (∀ f ∈ fs, PassFine f) → PassFine fun k => runPasses (fs.map fun f => f k)
  | [], _, r, hr => ⟨0, .inl ⟨r, fun _ _ => rfl, .refl hr⟩⟩
  | f :: fs, h, r, hr => by
    obtain ⟨K, ⟨r1, h1, h2⟩ | h1⟩ := h f (by simp) r hr
    · obtain ⟨K2, ⟨r2, h3, h4⟩ | h3⟩ := passFine_run (fs := fs) (fun f hf => h f (by simp [hf])) r1 h2.fit
      · exact ⟨max K K2, .inl ⟨r2, fun k hk => by
          simp only [List.map_cons, runPasses]
          rw [h1 k (by omega), Res.bind_ok]; exact h3 k (by omega), h2.trans h4⟩⟩
      · exact ⟨max K K2, .inr fun k hk => by
          simp only [List.map_cons, runPasses]
          rw [h1 k (by omega), Res.bind_ok]; exact h3 k (by omega)⟩
    · exact ⟨K, .inr fun k hk => by simp only [List.map_cons, runPasses]; rw [h1 k hk]; rfl⟩

/-- The passes, as functions of the depth as well. -/
def passFns : List (Nat → Prog → Res Prog) :=
  [fun _ r => orPanic (saturate r.2 r.1), fun k r => orTimeout (inlinePass k r.2 r.1), fun _ r => orPanic (onDefs moveMatch r),
    fun _ r => orPanic (onDefs (some ∘ inlineSimple) r), fun _ r => orPanic (onDefs (some ∘ reducePi) r), fun _ r => orPanic (onDefs (some ∘ reduceApply) r),
    fun k r => orTimeout (inlinePass k r.2 r.1), fun _ r => orPanic (onDefs (some ∘ dce) r), fun _ r => orPanic (onDefs (some ∘ inlineSimple) r),
    fun _ r => orPanic (onDefs mergeMatch r)]

theorem passes_eq (k : Nat) : passes k = passFns.map fun f => f k := rfl

theorem passFine_passes : ∀ f ∈ passFns, PassFine f := by
  have hsure : ∀ {f : Prog → Prog}, (∀ r, Fit r → Optimized r (f r)) → ∀ {g : Nat → Prog → Res Prog}, (∀ k r, g k r = .ok (f r)) → PassFine g :=
    fun h _ hg r hr => ⟨0, .inl ⟨_, fun k _ => hg k r, h r hr⟩⟩
  have hmay : ∀ {f : Program → Option Program}, (∀ (r : Prog) p', Fit r → f r.1 = some p' → Optimized r (p', r.2)) → PassFine fun _ r => orPanic (onDefs f r) :=
    fun {f} h r hr => by
      cases hf : f r.1 with
      | none => exact ⟨0, .inr fun k _ => by simp [onDefs, hf, orPanic]⟩
      | some p' => exact ⟨0, .inl ⟨_, fun k _ => by simp only [onDefs, hf, Option.map_some]; rfl, h r p' hr hf⟩⟩
  have hinl : PassFine fun k r => orTimeout (inlinePass k r.2 r.1) := fun r hr => by
    obtain ⟨r', ⟨K, hK⟩, h⟩ := optimized_inline hr
    exact ⟨K, .inl ⟨r', hK, h⟩⟩
  have hsat : PassFine fun _ r => orPanic (saturate r.2 r.1) := fun r hr => by
    obtain ⟨r', h1, h2⟩ := optimized_saturate hr
    exact ⟨0, .inl ⟨r', fun _ _ => h1, h2⟩⟩
  intro f hf
  simp only [passFns, List.mem_cons, List.not_mem_nil, or_false] at hf
  rcases hf with rfl | rfl | rfl | rfl | rfl | rfl | rfl | rfl | rfl | rfl
  · exact hsat
  · exact hinl
  · exact hmay fun r p' hr h => optimized_move hr h
  · exact hsure (f := fun r => (inlineSimple r.1, r.2)) (fun r hr => optimized_inlineSimple hr) fun _ _ => rfl
  · exact hsure (f := fun r => (reducePi r.1, r.2)) (fun r hr => optimized_reducePi hr) fun _ _ => rfl
  · exact hsure (f := fun r => (reduceApply r.1, r.2)) (fun r hr => optimized_reduceApply hr) fun _ _ => rfl
  · exact hinl
  · exact hsure (f := fun r => (dce r.1, r.2)) (fun r hr => optimized_dce hr) fun _ _ => rfl
  · exact hsure (f := fun r => (inlineSimple r.1, r.2)) (fun r hr => optimized_inlineSimple hr) fun _ _ => rfl
  · exact hmay fun r p' hr h => optimized_merge hr h

/-- One turn of the loop. -/
theorem passFine_iteration : PassFine optIteration := passFine_run passFine_passes

theorem optLoop_succ (hash : Prog → UInt64) (k n : Nat) (h : UInt64) (r : Prog) : (fun k => optLoop hash k (n + 1) h) k r =
    (optIteration k r).bind fun r' => if hash r' = h then .ok r' else optLoop hash k n (hash r') r' := rfl

theorem passFine_loop (hash : Prog → UInt64) : ∀ (n : Nat) (h : UInt64), PassFine fun k => optLoop hash k n h
  | 0, _, r, hr => ⟨0, .inl ⟨r, fun _ _ => rfl, .refl hr⟩⟩
  | n + 1, h, r, hr => by
    obtain ⟨K, ⟨r1, h1, h2⟩ | h1⟩ := passFine_iteration r hr
    · by_cases hh : hash r1 = h
      · exact ⟨K, .inl ⟨r1, fun k hk => by rw [optLoop_succ, h1 k hk, Res.bind_ok, if_pos hh], h2⟩⟩
      · obtain ⟨K2, ⟨r2, h3, h4⟩ | h3⟩ := passFine_loop hash n (hash r1) r1 h2.fit
        · exact ⟨max K K2, .inl ⟨r2, fun k hk => by
            rw [optLoop_succ, h1 k (by omega), Res.bind_ok, if_neg hh]; exact h3 k (by omega), h2.trans h4⟩⟩
        · exact ⟨max K K2, .inr fun k hk => by
            rw [optLoop_succ, h1 k (by omega), Res.bind_ok, if_neg hh]; exact h3 k (by omega)⟩
    · exact ⟨K, .inr fun k hk => by rw [optLoop_succ, h1 k hk]; rfl⟩

/-- C35.  Whatever the hash function: the optimizer ends, either with a panic of a pass or with a
program that is again fit, has the same exports, and gives every exported value the program
gave. -/
theorem optimize_preserves (hash : Prog → UInt64) (enabled : Bool) {r : Prog} (h : Fit r) :
    (∃ r', (∃ K, ∀ k, K ≤ k → optimize hash k enabled r = .ok r') ∧ Optimized r r') ∨ (∃ K, ∀ k, K ≤ k → optimize hash k enabled r = .panic) := by
  cases enabled with
  | false => exact .inl ⟨r, ⟨0, fun _ _ => rfl⟩, .refl h⟩
  | true =>
    obtain ⟨K, ⟨r', h1, h2⟩ | h1⟩ := passFine_loop hash 10 (hash r) r h
    · exact .inl ⟨r', ⟨K, h1⟩, h2⟩
    · exact .inr ⟨K, h1⟩

/-! ### A concrete program -/

/-- `k = \x. \y. x; t = 5; r = (let z = 1; k(z))(2)`. -/
def exOpt : Program where
  types := []
  defs := [⟨0, none, .fn [.int] (.fn [.int] .int), .lam [(1, .int)] (.lam [(2, .int)] (.name 1))⟩,
    ⟨3, none, .int, .int 5⟩,
    ⟨4, some "r", .int, .call (.let_ 5 (.int 1) (.call (.name 0) [.name 5])) [.int 2]⟩]

example : Fit (exOpt, ⟨6, 0⟩) := ⟨wnB_ok (by decide), by
  intro d hd y hy
  show y < 6
  simp only [exOpt, List.mem_cons, List.not_mem_nil, or_false] at hd
  rcases hd with rfl | rfl | rfl <;> simp [binders, bindersL] at hy <;> omega⟩

/-- Here the optimizer leaves nothing but the value. -/
example : ∃ g, optimize (fun r => (r.1.defs.map fun d => esize d.value).sum.toUInt64) 30 true (exOpt, ⟨6, 0⟩) =
    .ok ({ exOpt with defs := [⟨4, some "r", .int, .int 1⟩] }, g) := ⟨_, by rfl⟩

end Tic.Core
