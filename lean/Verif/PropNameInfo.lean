/-
C60: hovering over a name is about what go to definition leads to, and what it shows can be told apart.
-/
import Verif.NameInfo
import Verif.PropApi
import Verif.PropPrint
import Verif.PropMessages

namespace Tic.Api

open Tic.Resolve
open Tic.Lexer (Text letter wordChar IsA)
open Tic.Print (shown pr prs PTy printType)

variable {s : Src}

/-- Kinds of definitions that hovering says something about. -/
def Shown {S : Type} (d : Def S) : Prop := match d.kind with
  | .module => False
  | _ => True

theorem shown_map {f : Sym → Target} {d : Def Sym} : Shown (d.map f) ↔ Shown d := by
  obtain ⟨_, k, _, _, _, _, _⟩ := d
  cases k <;> exact Iff.rfl

theorem nameInfo_eq {n pos : Nat} {x : Sym} {sp : Span} {o : Out Sym} {d : Def Sym}
    (h1 : s.nameAt pos (s.outs (s.compileUpTo (pos + 1) n)) = some (x, sp)) (h2 : findDef x (s.outs (s.compileUpTo (pos + 1) n)) = some (o, d)) :
    (Shown d → (s.nameInfo n pos).1 = some (sp, d)) ∧ (¬ Shown d → (s.nameInfo n pos).1 = none) := by
  obtain ⟨_, k, _, _, _, _, _⟩ := d
  simp only [Src.nameInfo, h1, h2]
  cases k <;> exact ⟨fun h => by first | rfl | exact h.elim, fun h => by first | rfl | exact absurd trivial h⟩

/-- **C60, from a use.**  At a position in a name that, by the scope rules, refers to something an item up to the use's own brings into the unit, hovering shows the extent of that name and is about the definition go to
definition leads to, the first that brings it in, whatever was compiled before; about a module it says nothing. -/
theorem info_of_use (h : Laid s) {n k pos m : Nat} {O : SOut} {t : Target} (hn : n ≤ s.items.length)
    (hk : s.rules[k]? = some O) (hr : (t, m) ∈ O.refs) (hp : inside (s.span m) pos = true) (he : pos < (s.ispan k).2)
    (hb : isHere t = true ∨ ∃ d ∈ (flat (s.rules.take (k + 1))).defs, d.sym = t) :
    ∃ d, (flat s.rules).defs.find? (fun d => decide (d.sym = t)) = some (d.map (erase s.me)) ∧
      (s.findDefinition n pos).1 = some (s.span d.node) ∧
      (Shown d → (s.nameInfo n pos).1 = some (s.span m, d)) ∧ (¬ Shown d → (s.nameInfo n pos).1 = none) := by
  obtain ⟨x, o, ho, hx, rfl, h1, h2⟩ := use_found h hn hk hr hp he
  obtain ⟨o', d', h3, h4⟩ := brought_in h ho hx h2 hb
  have hf : findDef x (s.outs (s.compileUpTo (pos + 1) n)) = some (o', d') := by rw [s.outs_take, h3]
  refine ⟨d', h4, ?_, nameInfo_eq (by rw [Src.nameAt, h1]) hf⟩
  simp only [Src.findDefinition, h1, hf, Option.map_some]

/-- **C60, from a definition.**  At a position in the name of a definition of this unit, hovering shows the extent of that name and is about that definition. -/
theorem info_of_definition (h : Laid s) {n k pos : Nat} {O : SOut} {D : Def Target} {i : Item}
    (hn : n ≤ s.items.length) (hk : s.rules[k]? = some O) (hi : s.items[k]? = some i) (hfk : fakeNode i = [])
    (hd : O.defs.find? (fun d => d.node == D.node) = some D) (hown : isHere D.sym = true) (hp : inside (s.span D.node) pos = true) (he : pos < (s.ispan k).2) :
    ∃ d, (flat s.rules).defs.find? (fun d => decide (d.sym = D.sym)) = some (d.map (erase s.me)) ∧ d.node = D.node ∧
      (s.findDefinition n pos).1 = some (s.span d.node) ∧
      (Shown d → (s.nameInfo n pos).1 = some (s.span D.node, d)) ∧ (¬ Shown d → (s.nameInfo n pos).1 = none) := by
  obtain ⟨d, o, ho, hdm, rfl, h1, h2, h3⟩ := def_found h hn hk hi hfk hd hp he
    (def_not_ref h hk (List.mem_of_find?_eq_some hd))
  have hall : d ∈ (flat s.full).defs := flat_mem_defs.2 ⟨k, o, ho, hdm⟩
  have hmem : d ∈ (flat (s.full.take (s.compileUpTo (pos + 1) n))).defs :=
    flat_mem_defs.2 ⟨k, o, by rw [List.getElem?_take, if_pos h3, ho], hdm⟩
  obtain ⟨o', d', h4, h5⟩ := first_in_prefix hmem rfl
  have hf : findDef d.sym (s.outs (s.compileUpTo (pos + 1) n)) = some (o', d') := by rw [s.outs_take, h4]
  have hu : d.sym.unit = s.me := by
    refine Decidable.byContradiction fun hu => ?_
    have hown : isHere (erase s.me d.sym) = true := hown
    simp [erase, hu, isHere] at hown
  obtain ⟨_, ok⟩ := defsOK h
  have hd' := List.mem_of_find?_eq_some h5
  have es : d'.sym = d.sym := by simpa using List.find?_some h5
  have en : d'.node = d.node := by rw [ok.tag d' hd' (es ▸ hu), ok.tag d hall hu, es]
  have hfd : (s.findDefinition n pos).1 = some (s.span d.node) := by
    simp only [Src.findDefinition, h1, h2, Option.map_some]
  refine ⟨d', ?_, en, by rw [en, hfd], ?_⟩
  · show (flat s.rules).defs.find? (fun d'' => decide (d''.sym = erase s.me d.sym)) = _
    rw [first_def h (fun _ => ⟨d, hall, rfl⟩), h5]; rfl
  · exact nameInfo_eq (by rw [Src.nameAt, h1, h2]; rfl) hf

/-- **C60, elsewhere.**  At a position in no name, and in no import without a module name, what is shown is that of the expression there (C53). -/
theorem info_elsewhere (h : Laid s) (kn : Known) {n pos : Nat}
    (hno : ∀ (k : Nat) i, s.items[k]? = some i → ∀ m ∈ nodesItem i ++ fakeNode i, inside (s.span m) pos = false) :
    s.infoAt kn n pos = .expr (kn.expr (s.compileUpTo (pos + 1) n) pos) := by
  have h1 := (nothing_elsewhere h (n := n) hno).2
  have h2 := (nothing_elsewhere h (n := n) hno).1
  have hnone : (s.nameInfo n pos).1 = none := by
    simp only [Src.findReferences, Src.symAt] at h1
    simp only [Src.findDefinition] at h2
    simp only [Src.nameInfo, Src.nameAt]
    cases hr : s.findRefAt pos 0 (s.outs (s.compileUpTo (pos + 1) n)) with
    | some r =>
      rw [hr] at h2
      simp only [Option.map_eq_none_iff] at h2
      simp only [h2]
    | none =>
      rw [hr] at h2
      simp only [Option.map_eq_none_iff] at h2
      simp only [h2, Option.map_none]
  unfold Src.infoAt
  have e : s.nameInfo n pos = (none, s.compileUpTo (pos + 1) n) := Prod.ext hnone rfl
  rw [e]

/-- What is shown at a use. -/
theorem infoAt_of_use (h : Laid s) (kn : Known) {n k pos m : Nat} {O : SOut} {t : Target} (hn : n ≤ s.items.length)
    (hk : s.rules[k]? = some O) (hr : (t, m) ∈ O.refs) (hp : inside (s.span m) pos = true) (he : pos < (s.ispan k).2)
    (hb : isHere t = true ∨ ∃ d ∈ (flat (s.rules.take (k + 1))).defs, d.sym = t)
    (hs : ∀ d ∈ (flat s.rules).defs, d.sym = t → Shown d) :
    ∃ d : Def Sym, d.map (erase s.me) ∈ (flat s.rules).defs ∧ erase s.me d.sym = t ∧ (s.findDefinition n pos).1 = some (s.span d.node) ∧
      s.infoAt kn n pos = .name (s.span m) (doc (kn.defs (s.compileUpTo (pos + 1) n)) (kn.text (s.span d.node)) (kn.ty d) d.kind) := by
  obtain ⟨d, h1, h2, h3, -⟩ := info_of_use h hn hk hr hp he hb
  have hm := List.mem_of_find?_eq_some h1
  have e : (d.map (erase s.me)).sym = t := by simpa using List.find?_some h1
  refine ⟨d, hm, e, h2, ?_⟩
  have e2 : s.nameInfo n pos = (some (s.span m, d), s.compileUpTo (pos + 1) n) :=
    Prod.ext (h3 (shown_map.1 (hs _ hm e))) rfl
  unfold Src.infoAt
  rw [e2]

/-! ### What is shown can be told apart -/

theorem split_name {a b x y : Text} (ha : ∀ c ∈ a, c ≠ 58) (hb : ∀ c ∈ b, c ≠ 58) (e : a ++ 58 :: x = b ++ 58 :: y) : a = b ∧ x = y := by
  induction a generalizing b with
  | nil =>
    cases b with
    | nil => simpa using e
    | cons c b => exact absurd (by simpa using (List.cons.inj e).1.symm) (hb c (by simp))
  | cons c a ih =>
    cases b with
    | nil => exact absurd (by simpa using (List.cons.inj e).1) (ha c (by simp))
    | cons c' b =>
      simp only [List.cons_append, List.cons.injEq] at e
      obtain ⟨rfl, e⟩ := e
      obtain ⟨h1, h2⟩ := ih (fun c h => ha c (List.mem_cons_of_mem _ h)) (fun c h => hb c (List.mem_cons_of_mem _ h)) e
      exact ⟨by rw [h1], h2⟩

theorem no_colon {n : Text} (h : IsA (.token .ident) n) : ∀ c ∈ n, c ≠ 58 := by
  intro c hc e
  subst e
  exact absurd ((Print.name_word h).chars 58 hc) (by decide)

/-- Names begin with something other than a star. -/
theorem nameFor_head {ds : Print.Defs} {x : Unify.Symbol} (h : Print.Named ds x) : ∃ b bs, Print.nameFor ds x = b :: bs ∧ b ≠ 42 := by
  unfold Print.nameFor
  cases hd : Print.nameOf ds x with
  | none => exact ⟨63, [63, 63], rfl, by decide⟩
  | some n =>
    obtain ⟨b, bs, rfl, hb⟩ := Print.name_head (h n hd)
    exact ⟨b, bs, rfl, fun e => by subst e; exact absurd hb (by decide)⟩

theorem pr_head {ds : Print.Defs} : ∀ (t : Unify.IrTy) (p : Nat), (∀ x ∈ Print.syms t, Print.Named ds x) → ∃ b bs, pr (shown ds t) p = b :: bs ∧ b ≠ 42
  | .int, _, _ => ⟨105, _, rfl, by decide⟩
  | .bool, _, _ => ⟨98, _, rfl, by decide⟩
  | .str, _, _ => ⟨115, _, rfl, by decide⟩
  | .error, _, _ => ⟨63, _, rfl, by decide⟩
  | .infer, _, _ => ⟨95, _, rfl, by decide⟩
  | .named x as, p, h => by
    obtain ⟨b, bs, e, hb⟩ := nameFor_head (h x (by simp [Print.syms]))
    rw [shown, pr, e]
    cases (2 ≤ p && 0 < (Print.showns ds as).length : Bool) with
    | true => exact ⟨40, _, rfl, by decide⟩
    | false => exact ⟨b, _, rfl, hb⟩
  | .fn a c, p, h => by
    obtain ⟨b, bs, e, hb⟩ := pr_head a 1 fun x hx => h x (by simp [Print.syms, hx])
    rw [shown, pr, e]
    cases (decide (1 ≤ p) : Bool) with
    | true => exact ⟨40, _, rfl, by decide⟩
    | false => exact ⟨b, _, rfl, hb⟩
  | .folded a b, _, _ => ⟨123, _, rfl, by decide⟩

theorem stars_length : ∀ k, (stars k).length = 5 * k
  | 0 => rfl
  | k + 1 => by rw [stars, List.length_append, stars_length k]; simp; omega

/-- What hovering over a name is meant to tell: the name, and a type or a number of parameters. -/
inductive Told
  | typed (name : Text) (ty : PTy)
  | type (name : Text) (params : Nat)

/-- ... of a definition. -/
def told {S : Type} (ds : Print.Defs) (name : Text) (ty : Unify.IrTy) : Kind S → Option Told
  | .value .. => some (.typed name (shown ds ty))
  | .ctor .. => some (.typed name (shown ds ty))
  | .type k _ _ => some (.type name k)
  | .module => none

/-- **C60, what is shown.**  The text tells the name, whether it is a type, its type, or the number of its parameters: if the texts shown for two names of a file are the same, so is all that. -/
theorem doc_tells {S : Type} {ds : Print.Defs} {n1 n2 : Text} (hn1 : IsA (.token .ident) n1) (hn2 : IsA (.token .ident) n2)
    {t1 t2 : Unify.IrTy} (h1 : Print.NamedTy ds t1) (h2 : Print.NamedTy ds t2) {k1 k2 : Kind S} (s1 : (told ds n1 t1 k1).isSome) (s2 : (told ds n2 t2 k2).isSome)
    (e : doc ds n1 t1 k1 = doc ds n2 t2 k2) : told ds n1 t1 k1 = told ds n2 t2 k2 := by
  have hq : ∀ t, (printType ds [] t).1 = pr (shown ds t) 0 := fun t => (Print.print_pure t 0 (Print.consistent_nil ds)).1
  have hp : ∀ t, Print.NamedTy ds t → ∃ b bs, (printType ds [] t).1 = b :: bs ∧ b ≠ 42 := fun t h => by
    rw [hq]
    exact pr_head t 0 fun x hx => (h x hx).1
  have e0 : ∀ {n : Text} {x : Text}, n ++ [58, 32] ++ x = n ++ 58 :: (32 :: x) := by intro n x; simp
  have tt : ∀ {a b : Text}, n1 ++ [58, 32] ++ a = n2 ++ [58, 32] ++ b → n1 = n2 ∧ a = b := by
    intro a b e
    rw [e0, e0] at e
    obtain ⟨h1, h2⟩ := split_name (no_colon hn1) (no_colon hn2) e
    exact ⟨h1, by simpa using h2⟩
  have vv : n1 ++ [58, 32] ++ (printType ds [] t1).1 = n2 ++ [58, 32] ++ (printType ds [] t2).1 → n1 = n2 ∧ shown ds t1 = shown ds t2 := fun e =>
    ⟨(tt e).1, Print.ty_inj h1 h2 (by rw [← hq, ← hq]; exact (tt e).2)⟩
  have vt : ∀ k t, Print.NamedTy ds t → (printType ds [] t).1 ≠ 42 :: stars k := fun k t h e => by
    obtain ⟨b, bs, e1, hb⟩ := hp t h
    rw [e1] at e
    exact hb (List.cons.inj e).1
  cases k1 with
  | module => cases s1
  | type a1 b1 c1 =>
    cases k2 with
    | module => cases s2
    | type a2 b2 c2 =>
      obtain ⟨rfl, q⟩ := tt e
      have := congrArg List.length (List.cons.inj q).2
      rw [stars_length, stars_length] at this
      obtain rfl : a1 = a2 := by omega
      rfl
    | _ => exact absurd (tt e).2.symm (vt a1 t2 h2)
  | value =>
    cases k2 with
    | module => cases s2
    | type a2 => exact absurd (tt e).2 (vt a2 t1 h1)
    | _ =>
      obtain ⟨q1, q2⟩ := vv e
      simp only [told, q1, q2]
  | ctor =>
    cases k2 with
    | module => cases s2
    | type a2 => exact absurd (tt e).2 (vt a2 t1 h1)
    | _ =>
      obtain ⟨q1, q2⟩ := vv e
      simp only [told, q1, q2]

/-! ### Examples -/

/-- The use of the lambda parameter of the unit of C45: whatever was compiled before, hovering shows the use (32 to 34) and is about the parameter (24 to 26). -/
example (n : Nat) (hn : n ≤ 4) : ∃ d, (exSrc.nameInfo n 33).1 = some ((32, 34), d) ∧ exSrc.span d.node = (24, 26) := by
  have hr : ∃ O, exSrc.rules[2]? = some O ∧ (Target.here 6, 8) ∈ O.refs := ⟨_, rfl, by decide +kernel⟩
  obtain ⟨O, hO, hr⟩ := hr
  obtain ⟨d, h1, h2, h3, -⟩ := info_of_use exLaid (n := n) (pos := 33) hn hO hr (by decide) (by decide) (.inl rfl)
  rw [definition_of_own_use exLaid hn hO hr (by decide) (by decide)] at h2
  have hs : ∃ e, (flat exSrc.rules).defs.find? (fun d => decide (d.sym = .here 6)) = some e ∧ (match e.kind with | .module => false | _ => true) = true := by
    have : ((flat exSrc.rules).defs.find? (fun d => decide (d.sym = .here 6))).any (fun e => match e.kind with | .module => false | _ => true) = true := by decide +kernel
    cases hf : (flat exSrc.rules).defs.find? (fun d => decide (d.sym = .here 6)) with
    | none => rw [hf] at this; cases this
    | some e => rw [hf] at this; exact ⟨e, rfl, this⟩
  obtain ⟨e, q1, q2⟩ := hs
  rw [h1] at q1
  cases q1
  refine ⟨d, h3 ?_, (Option.some.inj h2).symm⟩
  apply shown_map.1
  unfold Shown
  split
  · rename_i hk; rw [hk] at q2; cases q2
  · trivial

/-- `List: * -> *`, `map: int -> List int` and what they tell, in a file where something else is called `_`. -/
example : doc [[(0, Print.lit "List"), (3, [95])]] (Print.lit "List") .int (.type 1 false none : Kind Nat) = Print.lit "List: * -> *" ∧
    doc [[(0, Print.lit "List"), (3, [95])]] (Print.lit "map") (.fn .int (.named 0 [.int])) (.value .error [] : Kind Nat) = Print.lit "map: int -> List int" ∧
    Print.NamedTy [[(0, Print.lit "List"), (3, [95])]] (.fn .int (.named 0 [.int])) := by
  have h0 : Print.nameOf [[(0, Print.lit "List"), (3, [95])]] 0 = some (Print.lit "List") := by decide +kernel
  refine ⟨by decide +kernel, by decide +kernel, fun s hs => ?_⟩
  simp only [Print.syms, Print.symss, List.append_nil, List.nil_append, List.mem_singleton] at hs
  subst hs
  refine ⟨fun n hn => ?_, by rw [h0]; decide⟩
  rw [h0] at hn
  cases hn
  exact ⟨.name (by decide) (by decide), fun _ k => by cases k <;> decide⟩

/-- In an import that names no module, hovering over an exposed name says nothing about it (as go to definition does, C45), although hovering over its use does. -/
theorem bare_import_hides_info : (exBare.nameInfo 2 9).1.isNone = true ∧ ((exBare.nameInfo 2 28).1.map fun r => (r.1, exBare.span r.2.node)) = some ((27, 30), (8, 11)) := by
  decide +kernel

end Tic.Api
