import Verif.Meaning
/-
The meaning of a program is unique.
-/
namespace Tic.Front
open Tic.Unify (Symbol IrTy)

mutual
/-- An expression has at most one outcome. -/
theorem Ev.det {T : Symbol → Option (List Field)} : ∀ {σ e o o'}, Ev T σ e o → Ev T σ e o' → o = o'
  | _, _, _, _, .name h0, h => by
    cases h with
    | name k0 =>
      cases h0.symm.trans k0; rfl
  | _, _, _, _, .apply h0 h1 h2, h => by
    cases h with
    | apply k0 k1 k2 =>
      cases Ev.det h0 k0; cases Ev.det h1 k1; cases Ap.det h2 k2; rfl
    | applyL k0 =>
      cases Ev.det h0 k0
    | applyR k0 k1 =>
      cases Ev.det h0 k0; cases Ev.det h1 k1
  | _, _, _, _, .applyL h0, h => by
    cases h with
    | apply k0 k1 k2 =>
      cases Ev.det h0 k0
    | applyL k0 =>
      cases Ev.det h0 k0; rfl
    | applyR k0 k1 =>
      cases Ev.det h0 k0
  | _, _, _, _, .applyR h0 h1, h => by
    cases h with
    | apply k0 k1 k2 =>
      cases Ev.det h0 k0; cases Ev.det h1 k1
    | applyL k0 =>
      cases Ev.det h0 k0
    | applyR k0 k1 =>
      cases Ev.det h0 k0; cases Ev.det h1 k1; rfl
  | _, _, _, _, .pipe h0 h1 h2, h => by
    cases h with
    | pipe k0 k1 k2 =>
      cases Ev.det h0 k0; cases Ev.det h1 k1; cases Ap.det h2 k2; rfl
    | pipeL k0 =>
      cases Ev.det h0 k0
    | pipeR k0 k1 =>
      cases Ev.det h0 k0; cases Ev.det h1 k1
  | _, _, _, _, .pipeL h0, h => by
    cases h with
    | pipe k0 k1 k2 =>
      cases Ev.det h0 k0
    | pipeL k0 =>
      cases Ev.det h0 k0; rfl
    | pipeR k0 k1 =>
      cases Ev.det h0 k0
  | _, _, _, _, .pipeR h0 h1, h => by
    cases h with
    | pipe k0 k1 k2 =>
      cases Ev.det h0 k0; cases Ev.det h1 k1
    | pipeL k0 =>
      cases Ev.det h0 k0
    | pipeR k0 k1 =>
      cases Ev.det h0 k0; cases Ev.det h1 k1; rfl
  | _, _, _, _, .binary h0 h1, h => by
    cases h with
    | binary k0 k1 =>
      cases Ev.det h0 k0; cases Ev.det h1 k1; rfl
    | binaryL k0 =>
      cases Ev.det h0 k0
    | binaryR k0 k1 =>
      cases Ev.det h0 k0; cases Ev.det h1 k1
  | _, _, _, _, .binaryL h0, h => by
    cases h with
    | binary k0 k1 =>
      cases Ev.det h0 k0
    | binaryL k0 =>
      cases Ev.det h0 k0; rfl
    | binaryR k0 k1 =>
      cases Ev.det h0 k0
  | _, _, _, _, .binaryR h0 h1, h => by
    cases h with
    | binary k0 k1 =>
      cases Ev.det h0 k0; cases Ev.det h1 k1
    | binaryL k0 =>
      cases Ev.det h0 k0
    | binaryR k0 k1 =>
      cases Ev.det h0 k0; cases Ev.det h1 k1; rfl
  | _, _, _, _, .let_ h0 h1, h => by
    cases h with
    | let_ k0 k1 =>
      cases Ev.det h0 k0; cases Ev.det h1 k1; rfl
    | letL k0 =>
      cases Ev.det h0 k0
  | _, _, _, _, .letL h0, h => by
    cases h with
    | let_ k0 k1 =>
      cases Ev.det h0 k0
    | letL k0 =>
      cases Ev.det h0 k0; rfl
  | _, _, _, _, .match_ h0 h1 h2 h3, h => by
    cases h with
    | match_ k0 k1 k2 k3 =>
      cases Ev.det h0 k0; cases h1.symm.trans k1; cases Ev.det h3 k3; rfl
    | matchL k0 =>
      cases Ev.det h0 k0
  | _, _, _, _, .matchL h0, h => by
    cases h with
    | match_ k0 k1 k2 k3 =>
      cases Ev.det h0 k0
    | matchL k0 =>
      cases Ev.det h0 k0; rfl
  | _, _, _, _, .iteT h0 h1, h => by
    cases h with
    | iteT k0 k1 =>
      cases Ev.det h0 k0; cases Ev.det h1 k1; rfl
    | iteF k0 k1 =>
      cases Ev.det h0 k0
    | iteL k0 =>
      cases Ev.det h0 k0
  | _, _, _, _, .iteF h0 h1, h => by
    cases h with
    | iteT k0 k1 =>
      cases Ev.det h0 k0
    | iteF k0 k1 =>
      cases Ev.det h0 k0; cases Ev.det h1 k1; rfl
    | iteL k0 =>
      cases Ev.det h0 k0
  | _, _, _, _, .iteL h0, h => by
    cases h with
    | iteT k0 k1 =>
      cases Ev.det h0 k0
    | iteF k0 k1 =>
      cases Ev.det h0 k0
    | iteL k0 =>
      cases Ev.det h0 k0; rfl
  | _, _, _, _, .bool, h => by
    cases h with
    | bool  =>
      rfl
  | _, _, _, _, .number, h => by
    cases h with
    | number  =>
      rfl
  | _, _, _, _, .str, h => by
    cases h with
    | str  =>
      rfl
  | _, _, _, _, .lambda, h => by
    cases h with
    | lambda  =>
      rfl
  | _, _, _, _, .fold, h => by
    cases h with
    | fold  =>
      rfl
  | _, _, _, _, .paren h0, h => by
    cases h with
    | paren k0 =>
      cases Ev.det h0 k0; rfl
  | _, _, _, _, .hole, h => by
    cases h with
    | hole  =>
      rfl
termination_by structural _ _ _ _ h => h
/-- ... applying a function ... -/
theorem Ap.det {T : Symbol → Option (List Field)} : ∀ {f a o o'}, Ap T f a o → Ap T f a o' → o = o'
  | _, _, _, _, .fn h0, h => by
    cases h with
    | fn k0 =>
      cases Ev.det h0 k0; rfl
  | _, _, _, _, .plain h0, h => by
    cases h with
    | plain k0 =>
      cases Ev.det h0 k0; rfl
  | _, _, _, _, .fold h0 h1 h2, h => by
    cases h with
    | fold k0 k1 k2 =>
      cases h0.symm.trans k0; cases Folds.det h1 k1; cases Ev.det h2 k2; rfl
    | foldL k0 k1 =>
      cases h0.symm.trans k0; cases Folds.det h1 k1
  | _, _, _, _, .foldL h0 h1, h => by
    cases h with
    | fold k0 k1 k2 =>
      cases h0.symm.trans k0; cases Folds.det h1 k1
    | foldL k0 k1 =>
      cases h0.symm.trans k0; cases Folds.det h1 k1; rfl
  | _, _, _, _, .more h0, h => by
    cases h with
    | more k0 =>
      rfl
    | full k0 k1 =>
      omega
    | iterate k0 =>
      simp [Head.arity] at h0
  | _, _, _, _, .full h0 h1, h => by
    cases h with
    | more k0 =>
      omega
    | full k0 k1 =>
      cases h1.symm.trans k1; rfl
    | iterate k0 =>
      simp [Head.result] at h1
  | _, _, _, _, .iterate h0, h => by
    cases h with
    | more k0 =>
      simp [Head.arity] at k0
    | full k0 k1 =>
      simp [Head.result] at k1
    | iterate k0 =>
      cases Iter.det h0 k0; rfl
termination_by structural _ _ _ _ h => h
/-- ... folding fields ... -/
theorem Folds.det {T : Symbol → Option (List Field)} : ∀ {f fs vs o o'}, Folds T f fs vs o → Folds T f fs vs o' → o = o'
  | _, _, _, _, _, .nil, h => by
    cases h with
    | nil  =>
      rfl
  | _, _, _, _, _, .ty h0, h => by
    cases h with
    | ty k0 =>
      cases Folds.det h0 k0; rfl
    | tyR k0 =>
      cases Folds.det h0 k0
  | _, _, _, _, _, .tyR h0, h => by
    cases h with
    | ty k0 =>
      cases Folds.det h0 k0
    | tyR k0 =>
      cases Folds.det h0 k0; rfl
  | _, _, _, _, _, .rec_ h0 h1, h => by
    cases h with
    | rec_ k0 k1 =>
      cases Ap.det h0 k0; cases Folds.det h1 k1; rfl
    | recL k0 =>
      cases Ap.det h0 k0
    | recR k0 k1 =>
      cases Ap.det h0 k0; cases Folds.det h1 k1
  | _, _, _, _, _, .recL h0, h => by
    cases h with
    | rec_ k0 k1 =>
      cases Ap.det h0 k0
    | recL k0 =>
      cases Ap.det h0 k0; rfl
    | recR k0 k1 =>
      cases Ap.det h0 k0
  | _, _, _, _, _, .recR h0 h1, h => by
    cases h with
    | rec_ k0 k1 =>
      cases Ap.det h0 k0; cases Folds.det h1 k1
    | recL k0 =>
      cases Ap.det h0 k0
    | recR k0 k1 =>
      cases Ap.det h0 k0; cases Folds.det h1 k1; rfl
termination_by structural _ _ _ _ _ h => h
/-- ... and iterating. -/
theorem Iter.det {T : Symbol → Option (List Field)} : ∀ {n f x o o'}, Iter T n f x o → Iter T n f x o' → o = o'
  | _, _, _, _, _, .zero, h => by
    cases h with
    | zero  =>
      rfl
  | _, _, _, _, _, .succ h0 h1, h => by
    cases h with
    | succ k0 k1 =>
      cases Ap.det h0 k0; cases Iter.det h1 k1; rfl
    | succL k0 =>
      cases Ap.det h0 k0
  | _, _, _, _, _, .succL h0, h => by
    cases h with
    | succ k0 k1 =>
      cases Ap.det h0 k0
    | succL k0 =>
      cases Ap.det h0 k0; rfl
termination_by structural _ _ _ _ _ h => h
end

mutual
/-- An item has at most one outcome. -/
theorem Runs.det {T : Symbol → Option (List Field)} {I : Symbol → Option Builtin} : ∀ {w σ i o o'}, Runs T I w σ i o → Runs T I w σ i o' → o = o'
  | _, _, _, _, _, .builtin h0, h => by
    cases h with
    | builtin k0 => cases h0.symm.trans k0; rfl
    | value k0 => rw [h0] at k0; cases k0
    | valueL k0 => rw [h0] at k0; cases k0
  | _, _, _, _, _, .value h0 h1, h => by
    cases h with
    | builtin k0 => rw [h0] at k0; cases k0
    | value _ k1 => cases Ev.det h1 k1; rfl
    | valueL _ k1 => cases Ev.det h1 k1
  | _, _, _, _, _, .valueL h0 h1, h => by
    cases h with
    | builtin k0 => rw [h0] at k0; cases k0
    | value _ k1 => cases Ev.det h1 k1
    | valueL _ k1 => cases Ev.det h1 k1; rfl
  | _, _, _, _, _, .type, h => by cases h; rfl
  | _, _, _, _, _, .again h0, h => by
    cases h with
    | again => rfl
    | imports k0 => exact absurd h0 k0
  | _, _, _, _, _, .imports h0 h1, h => by
    cases h with
    | again k0 => exact absurd k0 h0
    | imports _ k1 => exact RunsAll.det h1 k1
termination_by structural _ _ _ _ _ h => h
/-- ... and so have several items. -/
theorem RunsAll.det {T : Symbol → Option (List Field)} {I : Symbol → Option Builtin} : ∀ {w σ is o o'}, RunsAll T I w σ is o → RunsAll T I w σ is o' → o = o'
  | _, _, _, _, _, .nil, h => by cases h; rfl
  | _, _, _, _, _, .cons h0 h1, h => by
    cases h with
    | cons k0 k1 => cases Runs.det h0 k0; exact RunsAll.det h1 k1
    | consL k0 => cases Runs.det h0 k0
  | _, _, _, _, _, .consL h0, h => by
    cases h with
    | cons k0 k1 => cases Runs.det h0 k0
    | consL k0 => cases Runs.det h0 k0; rfl
termination_by structural _ _ _ _ _ h => h
end

/-- A module means at most one thing. -/
theorem means_unique {I : Symbol → Option Builtin} {items : List Item} {o o' : Out SEnv} (h : Means I items o) (h' : Means I items o') : o = o' := RunsAll.det h h'

end Tic.Front
