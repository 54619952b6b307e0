/-
C49: what the accessors show determines the program.
-/
import Verif.PropLower

namespace Tic.Lower

open Tic.Parser

/-- An item without what does not matter about how it is written: the comma after the last exposed name, and the bar
before the first constructor. -/
def SItem.forget : SItem → SItem
  | .import_ n l _ p => .import_ n l false p
  | .value x n t e => .value x n t e
  | .type x n ps xc _ c cs => .type x n ps xc false c cs

theorem name_det {v t t'} (h : ShowsName v t) (h' : ShowsName v t') : t = t' := by
  unfold ShowsName at h h'; rw [h] at h'; simpa using h'

theorem path_det {a b m n m' n'} (h : ShowsPath a b m n) (h' : ShowsPath a b m' n') : m = m' ∧ n = n' := by
  cases h <;> cases h'
  · rename_i h h'; exact ⟨rfl, name_det h h'⟩
  · rename_i h1 h2 _ h3 h4; exact ⟨by rw [name_det h1 h3], name_det h2 h4⟩

theorem each_det {α β : Type} {R : α → β → Prop} : ∀ {as : List α} {bs bs' : List β}, Each R as bs → Each R as bs' →
    (∀ a ∈ as, ∀ b b', R a b → R a b' → b = b') → bs = bs'
  | _, _, _, .nil, .nil, _ => rfl
  | _, _, _, .cons h hs, .cons h' hs', hd => by
    rw [hd _ (by simp) _ _ h h', each_det hs hs' (fun a ha => hd a (by simp [ha]))]

theorem ty_det : ∀ {v : VTy} {t t' : STy}, ShowsTy v t → ShowsTy v t' → t = t'
  | .int, _, _, .int, .int => rfl
  | .bool, _, _, .bool, .bool => rfl
  | .string, _, _, .string, .string => rfl
  | .named _ _ us, _, _, .named h hs, .named h' hs' => by
    obtain ⟨rfl, rfl⟩ := path_det h h'
    rw [each_det hs hs' (fun a ha b b' => ty_det)]
  | .paren (some u), _, _, .paren h, .paren h' => by rw [ty_det h h']
  | .fn (some u) (some v), _, _, .fn h g, .fn h' g' => by rw [ty_det h h', ty_det g g']

theorem ann_det {v t t'} (h : ShowsAnn v t) (h' : ShowsAnn v t') : t = t' := by
  cases h with
  | none => cases h'; rfl
  | some h => cases h' with
    | some h' => rw [ty_det h h']

mutual
theorem ex_det : ∀ {v : VEx} {e e' : SEx}, ShowsEx v e → ShowsEx v e' → e = e'
  | _, _, _, .name h, .name h' => by rw [name_det h h']
  | _, _, _, .inModule h g, .inModule h' g' => by rw [name_det h h', name_det g g']
  | _, _, _, .apply h g, .apply h' g' => by rw [ex_det h h', ex_det g g']
  | _, _, _, .binary h g, .binary h' g' => by rw [ex_det h h', ex_det g g']
  | _, _, _, .let_ h g k l, .let_ h' g' k' l' => by rw [name_det h h', ann_det g g', ex_det k k', ex_det l l']
  | _, _, _, .match_ h g, .match_ h' g' => by rw [ex_det h h', cases_det g g']
  | _, _, _, .if_ h g k, .if_ h' g' k' => by rw [ex_det h h', ex_det g g', ex_det k k']
  | _, _, _, .true_, .true_ => rfl
  | _, _, _, .false_, .false_ => rfl
  | _, _, _, .number, .number => rfl
  | _, _, _, .string, .string => rfl
  | _, _, _, .lambda h g, .lambda h' g' => by rw [name_det h h', ex_det g g']
  | _, _, _, .paren h, .paren h' => by rw [ex_det h h']
  | _, _, _, .hole, .hole => rfl
theorem cases_det : ∀ {v : List VCase} {cs cs' : List SCase}, ShowsCases v cs → ShowsCases v cs' → cs = cs'
  | _, _, _, .nil, .nil => rfl
  | _, _, _, .cons h g k l, .cons h' g' k' l' => by
    obtain ⟨rfl, rfl⟩ := path_det h h'
    rw [each_det g g' (fun _ _ _ _ => name_det), ex_det k k', cases_det l l']
end

theorem field_det {v f f'} (h : ShowsField v f) (h' : ShowsField v f') : f = f' := by
  cases h <;> cases h'
  · rfl
  · rename_i h _ h'; rw [ty_det h h']

theorem ctor_det {v c c'} (h : ShowsCtor v c) (h' : ShowsCtor v c') : c = c' := by
  cases h with
  | mk h g => cases h' with
    | mk h' g' => rw [name_det h h', each_det g g' (fun _ _ _ _ => field_det)]

theorem params_det {v p p'} (h : ShowsParams v p) (h' : ShowsParams v p') : p = p' := by
  cases h with
  | none => cases h'; rfl
  | some h _ => cases h' with
    | some h' _ => exact each_det h h' (fun _ _ _ _ => name_det)

theorem opt_det {α β : Type} {R : α → β → Prop} {v : Option α} {o o' : Option β} (h : ShowsOpt R v o) (h' : ShowsOpt R v o') (hd : ∀ a b b', R a b → R a b' → b = b') : o = o' := by
  cases h with
  | none => cases h'; rfl
  | some h => cases h' with
    | some h' => rw [hd _ _ _ h h']

/-- **C49**, nothing is lost: what the accessors show determines the item, up to the two ways of writing it that do not matter. -/
theorem shows_one {v : VItem} {i i' : SItem} (h : ShowsItem v i) (h' : ShowsItem v i') : i.forget = i'.forget := by
  cases h with
  | import_ h g => cases h' with
    | import_ h' g' =>
      simp only [SItem.forget]
      rw [opt_det h h' (fun _ _ _ => name_det), opt_det g g' (fun _ _ _ a b => each_det a b fun _ _ _ _ => name_det)]
  | value h g k => cases h' with
    | value h' g' k' => simp only [SItem.forget]; rw [name_det h h', ann_det g g', ex_det k k']
  | type h g k l => cases h' with
    | type h' g' k' l' => simp only [SItem.forget]; rw [name_det h h', params_det g g', ctor_det k k', each_det l l' (fun _ _ _ _ => ctor_det)]

/-- Tokens with these kinds and texts. -/
def writeToks (ws : List (TokenKind × Option Text)) : List Tok := ws.map fun w => ⟨.token w.1, w.2.getD []⟩

theorem words_write : ∀ {ws : List (TokenKind × Option Text)}, (∀ w ∈ ws, w.2.isSome = carries w.1) → wordsOf (writeToks ws) = ws
  | [], _ => rfl
  | (k, t) :: ws, h => by
    have h1 := h (k, t) (by simp)
    have h2 := words_write (ws := ws) fun w hw => h w (by simp [hw])
    simp only [wordsOf] at h2
    simp only at h1
    cases t with
    | none => simp [writeToks, wordsOf] at h1 ⊢; simpa [writeToks, h1] using h2
    | some t => simp [writeToks, wordsOf] at h1 ⊢; simpa [writeToks, h1] using h2

/-- **C49**, nothing is ambiguous: tokens that start with those of two items start with one item written in one way. -/
theorem written_one {i i' : SItem} {r r' toks} (hi : i.Bracketed) (hi' : i'.Bracketed) (h : wordsOf toks = i.tree.words ++ r)
    (h' : wordsOf toks = i'.tree.words ++ r') : i.forget = i'.forget ∧ i.tree = i'.tree ∧ r = r' := by
  obtain ⟨root, cs, left, v, h1, h2, h3, -, h5, h6⟩ := reads_back toks 0 i r hi h
  obtain ⟨root', cs', left', v', g1, g2, g3, -, g5, g6⟩ := reads_back toks 0 i' r' hi' h'
  rw [h1] at g1
  cases g1
  rw [h5] at g5
  cases g5
  have hk : i.tree.shape.yield ++ r.map Prod.fst = i'.tree.shape.yield ++ r'.map Prod.fst := by
    rw [← words_fst, ← words_fst, ← List.map_append, ← List.map_append, ← h, ← h']
  have hs := (Grammar.item_unique hi hi' hk).1
  have hl := words_len hs
  obtain ⟨w, e⟩ := List.append_inj (h.symm.trans h') hl
  exact ⟨shows_one h6 g6, tree_eq _ _ hs w, e⟩

end Tic.Lower
