import Verif.DceOK
import Verif.PropInlineSimple
/-
C11: dead code elimination keeps what the exported definitions compute, keeps all
exported definitions, and removes everything that is not needed.
-/
namespace Tic.Core

/-- Names needed by the exported definitions: an exported definition is needed, and whatever
is mentioned in a needed definition is needed. -/
inductive Needed (p : Program) : Name → Prop
  | exported {d : ValueDef} : d ∈ p.defs → d.exportName.isSome = true → Needed p d.name
  | mention {d : ValueDef} {x : Name} : d ∈ p.defs → Needed p d.name → SubE (.name x) d.value → Needed p x

theorem subE_name_cases {x : Name} {e : Expr} (h : SubE (.name x) e) : Free x e ∨ x ∈ binders e := by
  induction e using Expr.childInd with
  | _ e ih =>
    rcases subE_iff.1 h with rfl | ⟨c, hc, h'⟩
    · exact .inl (by simp [Free])
    · rcases ih c hc h' with h1 | h1
      · by_cases hm : x ∈ c.1
        · refine .inr (own_sub_binders ?_)
          cases e <;> simp [children, own] at hc ⊢
          all_goals grind
        · exact .inl (free_iff.2 (.inr ⟨c, hc, hm, h1⟩))
      · exact .inr (child_sub_binders hc h1)

theorem mem_dceUsed {p : Program} (hp : WellNamed p) {x : Name} : x ∈ dceUsed p ↔ Needed p x := by
  obtain ⟨h1, h2, h3⟩ := dceUsed_spec p
  constructor
  · refine h3 (Needed p) (fun d hd he => .exported hd he) (fun x hx v hv y hy => ?_) x
    rcases mem_allDefs.1 hv with ⟨d, hd, rfl, rfl⟩ | ⟨d, hd, r, hs⟩
    · exact .mention hd hx hy
    · -- a local definition is mentioned in its own definition only
      have hb := binder_of_let hs
      have hsub : SubE (.name y) d.value := SubE.trans hy (SubE.trans (.step (c := ([], v)) (by simp [children]) .refl) hs)
      cases hx with
      | exported hd' he => exact absurd hb (hp.name_not_binder hd' hd)
      | mention hd' hn hm =>
        rename_i d'
        rcases subE_name_cases hm with hf | hb'
        · obtain ⟨pre, post, he⟩ := List.append_of_mem hd'
          have := hp.scope pre d' post he x hf
          obtain ⟨d2, hd2, rfl⟩ := List.mem_map.1 this
          exact absurd hb (hp.name_not_binder (by rw [he]; simp [hd2]) hd)
        · have : d' = d := hp.owner hd' hd (List.mem_cons_of_mem _ hb') (List.mem_cons_of_mem _ hb)
          subst this
          exact .mention hd hn hsub
  · intro h
    induction h with
    | exported hd he => exact h1 _ hd he
    | mention hd _ hs ih => exact h2 _ ih _ (hp.get hd) _ hs

/-- C11.  Dead code elimination keeps a program well named and keeps every value that can be
asked for through the exported definitions. -/
theorem dce_preserves {p : Program} (hp : WellNamed p) :
    WellNamed (dce p) ∧ ∀ es, AsksExported p es → KeepsValues p (dce p) es := by
  have hocc : ∀ d ∈ p.defs, d.name ∈ dceUsed p → OccIn (dceUsed p) d.value := fun d hd hu => hp.occIn hd hu
  obtain ⟨a1, a2, a3⟩ := lets_filter (s := lax) lax_lax (wellNamed_iff.1 hp) hocc
  let p1 : Program := { p with defs := p.defs.filter fun d => d.name ∈ dceUsed p }
  have hp1 : WellNamed p1 := wellNamed_iff.2 a1
  have heq : dce p = mapDefs (fun e => walkPreN (esize e) (dropStep (dceUsed p)) e) p1 := by
    unfold dce mapDefs
    congr 1
    refine List.map_congr_left fun d hd => ?_
    have hd' := List.mem_filter.1 hd
    rw [removeUnused_eq (hocc d hd'.1 (by simpa using hd'.2))]
  obtain ⟨b1, b2⟩ := mapDefs_ok (s := lax) (g := fun e => walkPreN (esize e) (dropStep (dceUsed p)) e)
    (fun X e he => (stepOK_drop lax_lax (dceUsed p)).walkPreN _ X e he) hp1
  rw [← heq] at b1 b2
  refine ⟨b1, fun es hes => keepsValues_of fun os ho => ?_⟩
  have hroot := (dceUsed_spec p).1
  refine (b2 es fun e he x hx => ?_).yields.1 os ?_
  · obtain ⟨d, hd, rfl, hex⟩ := hes e he x hx
    exact List.mem_map.2 ⟨d, List.mem_filter.2 ⟨hd, by simpa using hroot d hd hex⟩, rfl⟩
  · refine (outSim_program (s := lax) (p := p) (p' := p1) (Y := (p.defs.filter (·.exportName.isSome)).map (·.name)) (fun e he k => ?_)
      (fun e he x hx => ?_)).yields.1 os ho
    · refine (a3 e (fun x hx => ?_) (fun x hx => ?_)).1 k [] [] (by simp)
      · obtain ⟨d, hd, rfl⟩ := List.mem_map.1 (he x hx)
        simp only [List.append_nil]
        exact List.mem_map.2 ⟨d, (List.mem_filter.1 hd).1, rfl⟩
      · obtain ⟨d, hd, rfl⟩ := List.mem_map.1 (he x hx)
        exact hroot d (List.mem_filter.1 hd).1 (List.mem_filter.1 hd).2
    · obtain ⟨d, hd, rfl, hex⟩ := hes e he x hx
      exact List.mem_map.2 ⟨d, List.mem_filter.2 ⟨hd, hex⟩, rfl⟩

/-- C11.  Exactly the needed definitions remain, in order, with their names, export names and
types. -/
theorem dce_keeps_exactly_needed {p : Program} (hp : WellNamed p) :
    (∀ d ∈ p.defs, (∃ d' ∈ (dce p).defs, d'.name = d.name) ↔ Needed p d.name) ∧
    ((dce p).defs.map fun d => (d.name, d.exportName, d.ty)).Sublist (p.defs.map fun d => (d.name, d.exportName, d.ty)) ∧
    (dce p).types = p.types := by
  refine ⟨fun d hd => ?_, ?_, rfl⟩
  · rw [← mem_dceUsed hp]
    simp only [dce, List.mem_map, List.mem_filter, decide_eq_true_eq]
    constructor
    · rintro ⟨d', ⟨d2, ⟨h2, h3⟩, rfl⟩, h4⟩
      simp only at h4
      rwa [← h4]
    · intro h
      exact ⟨_, ⟨d, ⟨hd, h⟩, rfl⟩, rfl⟩
  · simp only [dce, List.map_map, Function.comp_def]
    exact (List.filter_sublist).map _

theorem dropUnused_used {used : List Name} (e : Expr) : ∀ {n : Name} {v r : Expr}, dropUnused used e = .let_ n v r → n ∈ used := by
  induction e using Expr.childInd with
  | _ e ih =>
    intro n v r h
    unfold dropUnused at h
    split at h
    · rename_i n' v' r'
      split at h
      · cases h; assumption
      · exact ih ([n'], r') (by simp [children]) h
    · subst h; rename_i hne; exact absurd rfl (hne n v r)

theorem esize_drop {used : List Name} (e : Expr) : esize (dropUnused used e) ≤ esize e := by
  induction e using Expr.childInd with
  | _ e ih =>
    unfold dropUnused
    split
    · rename_i n v r
      split
      · exact Nat.le_refl _
      · have := ih ([n], r) (by simp [children])
        simp only [esize] at this ⊢; omega
    · exact Nat.le_refl _

theorem mapSub_let {g : Expr → Expr} {e : Expr} {n : Name} {v r : Expr} (h : mapSub g e = .let_ n v r) :
    ∃ v' r', e = .let_ n v' r' := by
  cases e <;> simp [mapSub] at h
  exact ⟨_, _, by rw [h.1]⟩

theorem removeUnused_lets {used : List Name} : ∀ (k : Nat) (e : Expr), esize e ≤ k → ∀ {n : Name} {v r : Expr},
    SubE (.let_ n v r) (walkPreN k (dropUnused used) e) → n ∈ used := by
  intro k
  induction k with
  | zero => intro e h; have := esize_pos e; omega
  | succ k ih =>
    intro e he n v r h
    rw [walkPreN] at h
    rcases subE_iff.1 h with h | ⟨c, hc, h⟩
    · obtain ⟨v', r', h'⟩ := mapSub_let h.symm
      exact dropUnused_used e h'
    · rw [children_mapSub] at hc
      obtain ⟨c', hc', rfl⟩ := List.mem_map.1 hc
      have h1 := mem_children_esize hc'
      have h2 := esize_drop (used := used) e
      exact ih c'.2 (by omega) h

/-- C11.  No unneeded local definition remains. -/
theorem dce_removes_unneeded_locals {p : Program} (hp : WellNamed p) {d : ValueDef} (hd : d ∈ (dce p).defs) {n : Name} {v r : Expr}
    (h : SubE (.let_ n v r) d.value) : Needed p n := by
  simp only [dce, List.mem_map, List.mem_filter] at hd
  obtain ⟨d', -, rfl⟩ := hd
  exact (mem_dceUsed hp).1 (removeUnused_lets _ _ (Nat.le_refl _) h)

/-! ### A concrete program -/

/-- `dead = 1; helper = \x. let unused = dead; x + 1; export f = \y. helper(y)`; `dead` is kept
because the unused local mentions it, the local goes; `gone` goes. -/
def exDce : Program where
  types := []
  defs := [⟨0, none, .int, .int 1⟩, ⟨1, none, .fn [.int] .int, .lam [(2, .int)] (.let_ 3 (.name 0) (.op (.name 2) .add (.int 1)))⟩,
    ⟨4, none, .int, .trap "gone" .int⟩,
    ⟨5, some "f", .fn [.int] .int, .lam [(6, .int)] (.call (.name 1) [.name 6])⟩]

example : WellNamed exDce := wnB_ok (by decide)
example : (dce exDce).defs.map (fun d => (d.name, d.value)) = [(0, .int 1), (1, .lam [(2, .int)] (.op (.name 2) .add (.int 1))),
  (5, .lam [(6, .int)] (.call (.name 1) [.name 6]))] := by rfl
example : AsksExported exDce [.call (.name 5) [.int 3]] := by
  intro e he x hx
  simp only [List.mem_cons, List.not_mem_nil, or_false] at he
  subst he; simp [Free, FreeL] at hx; subst hx; simp [exDce]
/-- The same program without the trap gives a value before and after. -/
example : let p : Program := { exDce with defs := exDce.defs.map fun d => if d.name = 4 then { d with value := .int 9 } else d }
    Yields p [.call (.name 5) [.int 3]] [.int 4] ∧ Yields (dce p) [.call (.name 5) [.int 3]] [.int 4] :=
  ⟨⟨20, [.int 4], by rfl, rfl⟩, ⟨20, [.int 4], by rfl, rfl⟩⟩
/-- The trap in the removed definition is not kept. -/
example : Traps exDce [.call (.name 5) [.int 3]] "gone" ∧ Yields (dce exDce) [.call (.name 5) [.int 3]] [.int 4] :=
  ⟨⟨20, by rfl⟩, ⟨20, [.int 4], by rfl, rfl⟩⟩

end Tic.Core
