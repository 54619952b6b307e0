import Verif.VerType
import Verif.GenExamples
/-
C40: the compiler's own verifier accepts every program it generates.
-/
namespace Tic.Front
open Tic.Unify (Symbol IrTy)
open Tic.Core

mutual
/-- What the parser and the standard library guarantee about an item: a declared type has a
constructor (`parser/item.rs:62-76`: `type_item` reads a first case before it looks for more), and no
built-in function except `iterate` has a type variable (their types are written in
`ticc/src/std/intrinsics.tic`). -/
def Formed (I : Symbol → Option Builtin) : Item → Prop
  | .value s _ sch _ => ∀ b, I s = some b → b ≠ .iterate → sch.vars = []
  | .type d => d.ctors ≠ []
  | .imports _ items => Formeds I items
/-- ... and about items. -/
def Formeds (I : Symbol → Option Builtin) : List Item → Prop
  | [] => True
  | i :: is => Formed I i ∧ Formeds I is
end

/-- `program.names.id_limit()` of the program `generate_core` returns, `gen_core.rs:9-28`,
`ticc-core/src/ir.rs`: the first name that was not given out. -/
def idLimit (I : Symbol → Option Builtin) (items : List Item) : Option Nat := (emitItems I true ([], {}) items).map fun r => r.2.names

mutual
theorem item_vstep {I : Symbol → Option Builtin} {L : Nat} : ∀ (i : Item) {ee : Bool} {w : World} {g : Gen}, Inv w g → ItemOK I w i → Formed I i →
    ∃ g', emitItem I ee (w.done, g) i = some ((w.item I i).done, g') ∧ Inv (w.item I i) g' ∧ VStep L w (w.item I i) g g'
  | .value s ex sch body, ee, w, g, h, hi, hf => by
    simp only [ItemOK] at hi
    simp only [Formed] at hf
    obtain ⟨g', h1, h2⟩ := value_step (ee := ee) (ex := ex) h hi
    exact ⟨g', by simp only [emitItem, h1, Option.map_some, World.item], h2.inv, value_vstep h hi hf h1 h2.inv⟩
  | .type d, ee, w, g, h, hi, hf => by
    simp only [ItemOK] at hi
    simp only [Formed] at hf
    obtain ⟨g', h1, h2⟩ := type_step (I := I) (ee := ee) h hi
    exact ⟨g', by rw [h1]; simp only [World.item], h2.inv, type_vstep h hi hf h1 h2.inv⟩
  | .imports key items, ee, w, g, h, hi, hf => by
    simp only [ItemOK] at hi
    simp only [Formed] at hf
    by_cases hk : key ∈ w.done
    · refine ⟨g, ?_, ?_⟩
      · simp only [emitItem, World.item, if_pos hk]
      · simp only [World.item, if_pos hk]
        exact ⟨h, .refl rfl rfl⟩
    · obtain ⟨g', h1, h2, h3⟩ := items_vstep items (ee := false) (w := { w with done := key :: w.done }) (g := g)
        ⟨h.gen, h.decls, h.used, h.vars, h.wf, h.ctx, h.tyVars, h.folded, h.ctors, h.inj, h.types⟩ (hi.resolve_left hk) hf
      refine ⟨g', ?_, ?_⟩
      · simp only [emitItem, World.item, if_neg hk]
        exact h1
      · simp only [World.item, if_neg hk]
        exact ⟨h2, VStep.trans (w' := { w with done := key :: w.done }) (.refl rfl rfl) h3⟩
theorem items_vstep {I : Symbol → Option Builtin} {L : Nat} : ∀ (is : List Item) {ee : Bool} {w : World} {g : Gen}, Inv w g → ItemsOK I w is → Formeds I is →
    ∃ g', emitItems I ee (w.done, g) is = some ((w.items I is).done, g') ∧ Inv (w.items I is) g' ∧ VStep L w (w.items I is) g g'
  | [], ee, w, g, h, _, _ => ⟨g, by simp only [emitItems, World.items], by simp only [World.items]; exact ⟨h, .refl rfl rfl⟩⟩
  | i :: is, ee, w, g, h, hi, hf => by
    simp only [ItemsOK] at hi
    simp only [Formeds] at hf
    obtain ⟨g1, h1, s1, v1⟩ := item_vstep (L := L) i (ee := ee) h hi.1 hf.1
    obtain ⟨g2, h2, s2, v2⟩ := items_vstep (L := L) is (ee := ee) s1 hi.2 hf.2
    refine ⟨g2, ?_, ?_⟩
    · simp only [emitItems, h1, Option.bind_some, World.items]
      exact h2
    · simp only [World.items]
      exact ⟨s2, v1.trans v2⟩
end

/-- A well-typed program is generated, and the verifier accepts the result. -/
theorem generated_verifies {I : Symbol → Option Builtin} {items : List Item} (h : ItemsOK I {} items) (hf : Formeds I items) :
    ∃ p L, generateCore I items = some p ∧ idLimit I items = some L ∧ (verify L p).isSome := by
  obtain ⟨g, h1, -, -⟩ := items_vstep (L := 0) items (ee := true) inv_empty h hf
  obtain ⟨g', h1', -, h2, h3⟩ := items_vstep (L := g.names) items (ee := true) inv_empty h hf
  have : g' = g := by
    rw [h1] at h1'
    exact (congrArg Prod.snd (Option.some.inj h1')).symm
  subst this
  obtain ⟨ts, ds, e1, e2, e3⟩ := h3 (Nat.le_refl _)
  have hp : Pre {} := ⟨(fun _ h => nomatch h), (fun _ h => nomatch h)⟩
  have hT : TInv {} {} {} := ⟨⟨hp, inv_empty.gen.ok, by simp, fun s d hd => by simp [declOf] at hd, fun s sch hs => by cases hs⟩,
    ⟨by simp, by simp, by simp [vget], by simp [vget], rfl⟩⟩
  obtain ⟨st, c1, c2, c3, c4, c5, c6⟩ := e3 {} hT
  have hD : DInv {} {} st st := ⟨⟨c2.scope.pre, inv_empty.gen.ok, by simp, fun s d hd => by simp [declOf] at hd, fun s sch hs => by cases hs⟩,
    .refl _, fun _ h => h, fun _ h => .inl h, fun _ h => .inl h, c2.below.top⟩
  obtain ⟨st', d1, -⟩ := c6 st ⟨.refl _, fun _ h => h, fun _ h => .inl h, fun _ h => .inl h⟩ st hD
  have e1' : g'.types = ts := by rw [e1]; simp
  have e2' : g'.defs = ds := by rw [e2]; simp
  refine ⟨⟨g'.types, g'.defs⟩, g'.names, ?_, ?_, ?_⟩
  · have h1'' : emitItems I true ([], {}) items = _ := h1
    simp only [generateCore, h1'', Option.map_some]
  · have h1'' : emitItems I true ([], {}) items = _ := h1
    simp only [idLimit, h1'', Option.map_some]
  · simp only [verify, e1', e2', c1, Option.bind_some, d1, Option.isSome_some]

/-- **C40.**  When every item of a program has been accepted by the front end, the verifier accepts
the program that is generated from them, with the names the generator gave out. -/
theorem accepted_program_verifies {I : Symbol → Option Builtin} {items : List Item} (h : Accepteds I {} items) (hf : Formeds I items) :
    ∃ p L, generateCore I items = some p ∧ idLimit I items = some L ∧ (verify L p).isSome :=
  generated_verifies (accepteds_ok items h) hf

/-- ... so that, in it, every type, constructor, definition and local variable has a name of its own,
below the limit, and a definition mentions only earlier ones. -/
theorem accepted_program_names {I : Symbol → Option Builtin} {items : List Item} (h : Accepteds I {} items) (hf : Formeds I items) :
    ∃ p L, generateCore I items = some p ∧ idLimit I items = some L ∧
      (declNames p.types ++ defNames p.defs).Nodup ∧ (∀ y ∈ declNames p.types ++ defNames p.defs, y < L) ∧
      ∀ pre d post, p.defs = pre ++ d :: post → ∀ x, Free x d.value → x ∈ pre.map (·.name) := by
  obtain ⟨p, L, h1, h2, h3⟩ := accepted_program_verifies h hf
  obtain ⟨st, h3⟩ := Option.isSome_iff_exists.mp h3
  exact ⟨p, L, h1, h2, verify_names h3⟩

theorem exItems_formed : Formeds exI exItems := by
  simp [exItems, Formeds, Formed, exI]

/-- What the verifier says about the program generated from `items`. -/
def verdict (I : Symbol → Option Builtin) (items : List Item) : Option Bool :=
  (generateCore I items).bind fun p => (idLimit I items).map fun L => (verify L p).isSome

/-- A program that meets the hypotheses, and what the verifier says about it. -/
example : Accepteds exI {} exItems ∧ Formeds exI exItems := ⟨exItems_accepted, exItems_formed⟩
example : verdict exI exItems = some true := by decide +kernel
/-- The limit is sharp: with a smaller one the verifier rejects the program. -/
example : ((generateCore exI exItems).bind fun p => (idLimit exI exItems).map fun L => (verify (L - 1) p).isSome) = some false := by decide +kernel

/-- A type without constructors.  A function that matches on it is well typed, but the verifier finds
no type for the match.  So the first part of `Formeds` cannot be left out; the parser does not accept
such a type. -/
def emptyItems : List Item := [
  .type ⟨1, [], []⟩,
  .value 2 none ⟨[], .fn (.named 1 []) .int⟩ (.lambda false 3 (.named 1 []) (.fn (.named 1 []) .int) (.match_ (.name 3 []) (.named 1 []) []))]

example : ItemsOK (fun _ => none) {} emptyItems := by
  simp only [emptyItems, ItemsOK, ItemOK, World.item, ctorCtx, and_true]
  refine ⟨⟨by simp [New], by simp⟩, ⟨by simp [New, binderSyms, casesBinderSyms], by simp [Plain, Plains], by simp [WfTy, WfTys, arity, declOf], (fun _ h => nomatch h), by simp [PlainLets, PlainLetsCases], fun _ => ⟨[], (fun _ _ h => nomatch h), ?_⟩⟩⟩
  simp only [Ex.map, HasTy, fill, fills]
  refine ⟨trivial, by simp [WfTy, WfTys, arity, declOf], .int, rfl, ?_, by simp [WfTy, WfTys, arity, declOf], ⟨1, [], []⟩, [], .named 1 [], by simp [declOf], rfl, .inl ⟨rfl, rfl⟩, by simp, by simp [casesMap, HasCases]⟩
  simp [Ctx.find, mono, WfTys, substTy, substTys, findTy]
example : verdict (fun _ => none) emptyItems = some false := by decide +kernel

/-- A constructor used with a type it does not have. -/
def wrongItems : List Item := [
  .type ⟨1, [2], [(3, [.ty (.named 2 [])])]⟩,
  .value 4 none ⟨[], .named 1 [.bool]⟩ (.apply (.name 3 [.int]) (.number 1))]

example : verdict (fun _ => none) wrongItems = some false := by decide +kernel

end Tic.Front
