import Verif.PropGenerate
import Verif.PropTypeck
/-
C38, continued: what the checks of the compiler say implies the conditions of `program_runs`; the
outcome of a run does not depend on the number of steps granted.
-/
namespace Tic.Front
open Tic.Unify (Symbol IrTy)
open Tic.Core

mutual
theorem binderSyms_erase {α : Type} : ∀ e : Ex α, binderSyms e.erase = binderSyms e
  | .name .. | .bool _ | .number _ | .str _ | .hole .. => by simp [Ex.erase, binderSyms]
  | .apply a b | .binary _ a b | .pipe a b => by simp [Ex.erase, binderSyms, binderSyms_erase a, binderSyms_erase b]
  | .let_ _ _ _ _ a b => by simp [Ex.erase, binderSyms, binderSyms_erase a, binderSyms_erase b]
  | .match_ d _ cs => by simp [Ex.erase, binderSyms, binderSyms_erase d, casesBinderSyms_erase cs]
  | .ite a b c => by simp [Ex.erase, binderSyms, binderSyms_erase a, binderSyms_erase b, binderSyms_erase c]
  | .lambda _ _ _ _ b => by simp [Ex.erase, binderSyms, binderSyms_erase b]
  | .paren e => by simp [Ex.erase, binderSyms, binderSyms_erase e]
theorem casesBinderSyms_erase {α : Type} : ∀ cs : List (Case α), casesBinderSyms (casesErase cs) = casesBinderSyms cs
  | [] => rfl
  | .mk _ vs b :: cs => by simp [casesErase, casesBinderSyms, binderSyms_erase b, casesBinderSyms_erase cs, Function.comp_def]
end

mutual
theorem plainLets_erase {α : Type} : ∀ e : Ex α, PlainLets e.erase ↔ PlainLets e
  | .name .. | .bool _ | .number _ | .str _ | .hole .. => by simp [Ex.erase, PlainLets]
  | .apply a b | .binary _ a b | .pipe a b => by simp [Ex.erase, PlainLets, plainLets_erase a, plainLets_erase b]
  | .let_ _ _ _ _ a b => by simp [Ex.erase, PlainLets, plainLets_erase a, plainLets_erase b]
  | .match_ d _ cs => by simp [Ex.erase, PlainLets, plainLets_erase d, plainLetsCases_erase cs]
  | .ite a b c => by simp [Ex.erase, PlainLets, plainLets_erase a, plainLets_erase b, plainLets_erase c]
  | .lambda _ _ _ _ b => by simp [Ex.erase, PlainLets, plainLets_erase b]
  | .paren e => by simp [Ex.erase, PlainLets, plainLets_erase e]
theorem plainLetsCases_erase {α : Type} : ∀ cs : List (Case α), PlainLetsCases (casesErase cs) ↔ PlainLetsCases cs
  | [] => .rfl
  | .mk _ vs b :: cs => by simp [casesErase, PlainLetsCases, plainLets_erase b, plainLetsCases_erase cs]
end

/-- A value item the compiler has accepted: `e` is the source, resolved and with a new symbol for
every name; the type checker ran without diagnostics and produced `body`; the match checker accepted
every match; and the two things no check establishes hold (findings 31 and 32): type variables do not
escape, and no fold goes over the parameter of a fold. -/
structure AcceptedValue (I : Symbol → Option Builtin) (w : World) (s : Symbol) (sch : Scheme) (body : Ex IrTy) : Prop where
  new : New w (s :: (sch.vars ++ binderSyms body.erase))
  plain : Plain sch.ty
  wf : WfTy w.decls sch.vars sch.ty
  builtin : ∀ b, I s = some b → builtinTy sch.vars b = some sch.ty
  lets : PlainLets body.erase
  checked : I s = none → ∃ (D : Symbol → Option DefKind) (refs : List Symbol) (Γ : Ctx) (e : Ex Unit) (n : Nat),
    DefsOK w.decls D ∧ Globals D refs Γ ∧ (∀ x sc, Γ.find x = some sc → w.ctx.find x = some sc) ∧
    Scoped w.decls D refs (Γ.map (·.1)) sch.vars e ∧ typeCheck n D refs sch.ty e = some ⟨[], body⟩
  matches_ : I s = none → Covered w.decls body
  escape : I s = none → NoEscape w.decls sch.vars body
  folds : I s = none → NoNestedFold body

/-- What the compiler accepted is what code generation needs. -/
theorem accepted_value_ok {I : Symbol → Option Builtin} {w : World} {s : Symbol} {sch : Scheme} {body : Ex IrTy} (h : AcceptedValue I w s sch body) :
    ValueOK I w s sch body where
  new := binderSyms_erase body ▸ h.new
  plain := h.plain
  wf := h.wf
  builtin := h.builtin
  lets := (plainLets_erase body).mp h.lets
  typed hI := by
    obtain ⟨D, refs, Γ, e, n, h1, h2, h3, h4, h5⟩ := h.checked hI
    exact ⟨Γ, h3, (typecheck_sound h1 h2 h.wf h4 h5 rfl).2 (h.escape hI) (h.folds hI) (h.matches_ hI)⟩

mutual
/-- An accepted item ... -/
def Accepted (I : Symbol → Option Builtin) (w : World) : Item → Prop
  | .value s _ sch body => AcceptedValue I w s sch body
  | .type d => DeclOK w d
  | .imports key items => key ∈ w.done ∨ Accepteds I { w with done := key :: w.done } items
/-- ... and accepted items, in order. -/
def Accepteds (I : Symbol → Option Builtin) (w : World) : List Item → Prop
  | [] => True
  | i :: is => Accepted I w i ∧ Accepteds I (w.item I i) is
end

mutual
theorem accepted_ok {I : Symbol → Option Builtin} : ∀ (i : Item) {w : World}, Accepted I w i → ItemOK I w i
  | .value .., _, h => by simp only [Accepted] at h; simp only [ItemOK]; exact accepted_value_ok h
  | .type d, _, h => by simp only [Accepted] at h; simp only [ItemOK]; exact h
  | .imports key items, _, h => by simp only [Accepted] at h; simp only [ItemOK]; exact h.imp_right (accepteds_ok items)
theorem accepteds_ok {I : Symbol → Option Builtin} : ∀ (is : List Item) {w : World}, Accepteds I w is → ItemsOK I w is
  | [], _, _ => by simp only [ItemsOK]
  | i :: is, _, h => by simp only [Accepteds] at h; simp only [ItemsOK]; exact ⟨accepted_ok i h.1, accepteds_ok is h.2⟩
end

/-- **C38 for accepted programs.**  A program every item of which the compiler accepted is generated,
with the exports of the root module in order, and there is a number of steps such that every run with
at least as many gives each export a value of its declared type, or else every such run stops with
the message of a hole of the program; a run with fewer steps does not fail in any other way either. -/
theorem accepted_program_runs {I : Symbol → Option Builtin} {items : List Item} (h : Accepteds I {} items) :
    ∃ p R, generateCore I items = some p ∧
      p.defs.filterMap (·.exportName) = (exportsOf items).map (·.1) ∧
      (∀ c c' n, R c = some n → R c' = some n → c = c') ∧
      (∀ d ∈ (World.items I {} items).decls, ∃ td ∈ p.types, mapOpt R (d.ctors.map (·.1)) = some (td.cases.map (·.name))) ∧
      (∃ N, (∀ n, N ≤ n → Delivers I items R n p) ∨
        ∃ t ∈ (World.items I {} items).texts, ∀ n, N ≤ n → evalDefs n p.defs [] = .trap ("encountered " ++ t)) ∧
      ∀ n, evalDefs n p.defs [] ≠ .panic := by
  obtain ⟨p, R, h1, h2, h3, h4, N, h5⟩ := program_runs (accepteds_ok items h)
  refine ⟨p, R, h1, h2, h3, h4, ?_, ?_⟩
  · rcases h5 with ⟨ρ, h5, h6⟩ | ⟨t, ht, h5⟩
    · refine ⟨N, .inl fun n hn x s sch hm => ?_⟩
      obtain ⟨d, hd, hx, v, hv, ho⟩ := h6 x s sch hm
      refine ⟨d, hd, hx, v, ?_, ho⟩
      have he := (monoR_evalDefs p.defs []).get hn h5 (by simp)
      simp only [evalProgram, h5, Res.bind_ok] at hv
      simp only [evalProgram, he, Res.bind_ok, evalList] at hv ⊢
      cases N with
      | zero => simp [eval] at hv
      | succ N =>
        cases n with
        | zero => omega
        | succ n => simp only [evalList, eval_name] at hv ⊢; exact hv
    · exact ⟨N, .inr ⟨t, ht, fun n hn => (monoR_evalDefs p.defs []).get hn h5 (by simp)⟩⟩
  · intro n hn
    have h6 := (monoR_evalDefs p.defs []).get (Nat.le_max_left n N) hn (by simp)
    rcases h5 with ⟨ρ, h5, -⟩ | ⟨t, -, h5⟩ <;>
    · have h7 := (monoR_evalDefs p.defs []).get (Nat.le_max_right n N) h5 (by simp)
      rw [h6] at h7
      cases h7

/-- A program without holes always has values for its exports. -/
theorem accepted_program_total {I : Symbol → Option Builtin} {items : List Item} (h : Accepteds I {} items) (hh : (World.items I {} items).texts = []) :
    ∃ p R N, generateCore I items = some p ∧ (∀ c c' n, R c = some n → R c' = some n → c = c') ∧ ∀ n, N ≤ n → Delivers I items R n p := by
  obtain ⟨p, R, h1, -, h3, -, ⟨N, h5 | ⟨t, ht, -⟩⟩, -⟩ := accepted_program_runs h
  · exact ⟨p, R, N, h1, h3, h5⟩
  · rw [hh] at ht; cases ht

end Tic.Front
