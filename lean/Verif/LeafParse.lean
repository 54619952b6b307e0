/-
Nodes that consist of one token: no part of the parser breaks them.
-/
import Verif.LeafEvents

namespace Tic.Lower

open Tic.Parser
open Tic.Grammar

/-- The proofs follow the code. -/
macro "keep" : tactic => `(tactic| repeat' first
  | with_reducible assumption
  | with_reducible exact keep_pure _
  | with_reducible exact keep_panic
  | with_reducible exact keep_hint _
  | with_reducible exact keep_at _
  | with_reducible exact keep_peek
  | with_reducible exact keep_get
  | with_reducible exact keep_bump _
  | with_reducible exact keep_bumpAny
  | with_reducible exact keep_bumpName
  | with_reducible exact keep_start
  | ((with_reducible refine keep_complete _ _ ?_); rfl)
  | with_reducible exact keep_precede _
  | ((with_reducible refine keep_single ?_ (fun _ => ?_)); rfl)
  | with_reducible refine keep_bind ?_ (fun _ => ?_)
  | with_reducible refine keep_ite ?_ ?_
  | with_reducible refine keep_loop (fun _ => ?_) _ _
  | split
  | simp only [])

theorem keep_while {n : Nat} {cond : P Bool} {body : P Unit} (h : Keep cond) (h' : Keep body) : Keep (whileM n cond body) := by
  unfold whileM; keep

theorem keep_emitError : Keep emitError := by
  unfold emitError
  refine keep_bind keep_peek fun _ => ?_
  simp only []
  have tail : Keep (do
      let _ ← peek
      modify fun s =>
        let span := match s.toks with
          | t :: _ => (s.off, s.off + t.text.length)
          | [] => (s.pos, s.pos)
        { s with events := s.events ++ [.error span.1 span.2] }
      if ← at_ .error then bump .error : P Unit) := by
    refine keep_bind keep_peek fun _ => keep_bind (keep_modify fun s => ⟨_, rfl, by simp⟩) fun _ => ?_
    keep
  refine keep_ite tail ?_
  refine keep_bind (keep_modify fun s => ⟨[], by simp, by simp⟩) fun _ => keep_bind keep_get fun _ => ?_
  exact keep_ite (keep_bind keep_panic fun _ => tail) (tail)

theorem keep_expect (t) : Keep (expect t) := by
  unfold expect
  exact keep_bind (keep_at _) fun _ => keep_ite (keep_bump _) keep_emitError

theorem keep_expectName : Keep expectName := by
  unfold expectName
  exact keep_bind (keep_at _) fun _ => keep_ite keep_bumpName keep_emitError

theorem keep_errorRecover (h) : Keep (errorRecover h) := by
  unfold errorRecover
  refine keep_bind keep_emitError fun _ => ?_
  keep

theorem keep_errorRecoverItem (n) : Keep (errorRecoverItem n) := by
  unfold errorRecoverItem
  refine keep_bind keep_emitError fun _ => ?_
  keep

macro_rules | `(tactic| keep) => `(tactic| repeat' first
  | with_reducible assumption
  | with_reducible exact keep_pure _
  | with_reducible exact keep_panic
  | with_reducible exact keep_hint _
  | with_reducible exact keep_at _
  | with_reducible exact keep_peek
  | with_reducible exact keep_get
  | with_reducible exact keep_bump _
  | with_reducible exact keep_bumpAny
  | with_reducible exact keep_bumpName
  | with_reducible exact keep_start
  | ((with_reducible refine keep_complete _ _ ?_); rfl)
  | with_reducible exact keep_precede _
  | ((with_reducible refine keep_single ?_ (fun _ => ?_)); rfl)
  | with_reducible exact keep_expect _
  | with_reducible exact keep_expectName
  | with_reducible exact keep_emitError
  | with_reducible exact keep_errorRecover _
  | with_reducible exact keep_errorRecoverItem _
  | with_reducible refine keep_while ?_ ?_
  | with_reducible refine keep_bind ?_ (fun _ => ?_)
  | with_reducible refine keep_ite ?_ ?_
  | with_reducible refine keep_loop (fun _ => ?_) _ _
  | split
  | simp only [])

theorem keep_types : ∀ n, Keep (type_ n) ∧ Keep (nonFnType n) ∧ Keep (atomType n)
  | 0 => ⟨keep_panic, keep_panic, keep_panic⟩
  | n + 1 => by
    obtain ⟨h1, h2, h3⟩ := keep_types n
    refine ⟨?_, ?_, ?_⟩
    · unfold type_; keep
    · unfold nonFnType; keep
    · unfold atomType; keep

theorem keep_type (n) : Keep (type_ n) := (keep_types n).1
theorem keep_atomType (n) : Keep (atomType n) := (keep_types n).2.2

/-- The test for `true` or `false`. -/
theorem keep_if_bool {β : Type} {A B : P β} (hA : KeepIf (fun o => o = some .true_ ∨ o = some .false_) A) (hB : Keep B) :
    Keep ((do if ← at_ .true_ then pure true else at_ .false_) >>= fun b => if b = true then A else B) := ⟨fun s r s' _ h c => by
  obtain ⟨s1, h1, h2, -⟩ := at_eq .true_ s
  obtain ⟨s2, g1, g2, -⟩ := at_eq .false_ s1
  rw [bind_eq, bind_eq, h1, Option.bind_some] at h
  simp only at h
  split at h
  · rename_i he
    refine hA.run s1 _ _ (.inl (by rw [h2.1]; exact eq_of_beq he)) h (by rw [h2.2]; exact c)
  · rw [g1, Option.bind_some] at h
    have c2 : Single s2.events := by rw [g2.2, h2.2]; exact c
    simp only at h
    split at h
    · rename_i he
      exact hA.run _ _ _ (.inr (by rw [g2.1]; exact eq_of_beq he)) h c2
    · exact hB.run _ _ _ trivial h c2⟩

theorem keep_exprs : ∀ n, Keep (expr n) ∧ Keep (matchCase n) ∧ (∀ q, Keep (opExpr n q)) ∧ Keep (applyExpr n) ∧ Keep (atomExpr n)
  | 0 => ⟨keep_panic, keep_panic, fun _ => keep_panic, keep_panic, keep_panic⟩
  | n + 1 => by
    obtain ⟨h1, h2, h3, h4, h5⟩ := keep_exprs n
    have h6 := keep_type n
    refine ⟨?_, ?_, fun q => ?_, ?_, ?_⟩
    · unfold expr
      have h3' := h3 0
      keep
    · unfold matchCase; keep
    · unfold opExpr
      refine keep_bind (keep_hint _) fun _ => keep_bind h4 fun r => ?_
      split
      · keep
      · refine keep_bind (keep_hint _) fun _ => keep_loop (fun m => keep_peek_then fun x => ?_) _ _
        split
        · exact (keep_pure _).any _
        · rename_i pw r hx
          have := h3 r
          split
          · exact (keep_pure _).any _
          · refine ⟨fun s a s' hc h c => ?_⟩
            rw [bind_eq, Option.bind_eq_some_iff] at h
            obtain ⟨⟨p, s1⟩, e1, e2⟩ := h
            have hk : (kinds s1).head? = (kinds s).head? := by
              unfold precede at e1
              rw [bind_eq] at e1
              simp only [start, Option.bind_some] at e1
              split at e1
              · simp only [Option.some.injEq, Prod.mk.injEq] at e1
                rw [← e1.2]; rfl
              · cases e1
            refine (keep_singleAny (c := (· = x)) (k := .binaryOp) ?_ fun _ => ?_).run s1 a s' (hk.trans hc) e2 ((keep_precede _).run _ _ _ trivial e1 c)
            · intro t ht
              rw [← ht] at hx
              simp only [Option.bind_some] at hx
              simp [wraps, hx]
            · keep
    · unfold applyExpr; keep
    · unfold atomExpr
      refine keep_bind (keep_hint _) fun _ => ?_
      refine keep_bind (keep_at _) fun _ => keep_ite (by keep) ?_
      refine keep_if_bool ?_ ?_
      · exact keep_singleAny (fun t ht => by rcases ht with ht | ht <;> cases ht <;> rfl) fun _ => keep_pure _
      refine keep_if_at ?_ ?_
      · exact keep_singleAny (fun t ht => by cases ht; rfl) fun _ => keep_pure _
      refine keep_if_at ?_ ?_
      · exact keep_singleAny (fun t ht => by cases ht; rfl) fun _ => keep_pure _
      keep

theorem keep_expr (n) : Keep (expr n) := (keep_exprs n).1

theorem keep_valueItem (n m) : Keep (valueItem n m) := by
  have h1 := keep_expr n
  have h2 := keep_type n
  unfold valueItem; keep

theorem keep_typeParams (n) : Keep (typeParams n) := by unfold typeParams; keep

theorem keep_typeCase (n b) : Keep (typeCase n b) := by
  have h2 := keep_atomType n
  unfold typeCase; keep

theorem keep_typeItem (n m) : Keep (typeItem n m) := by
  have h1 := keep_typeParams n
  have h2 := keep_typeCase n true
  have h3 := keep_typeCase n false
  unfold typeItem; keep

theorem keep_exposedList (n) : Keep (exposedList n) := by unfold exposedList; keep

theorem keep_item (n) : Keep (Parser.item n) := by
  have h1 := keep_exposedList n
  have h2 := fun m => keep_typeItem n m
  have h3 := fun m => keep_valueItem n m
  unfold Parser.item
  keep
  all_goals (first | exact h2 _ | exact h3 _)

end Tic.Lower
