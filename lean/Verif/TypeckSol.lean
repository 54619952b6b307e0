import Verif.TypeckInv
import Verif.Typeck
/-
Solutions of the unifier as types, and what the pieces of the type checker guarantee about them.
-/
namespace Tic.Front
open Tic.Unify

/-- The tree is a fully known type that still takes `k` arguments. -/
def WK (count : Symbol → Nat) : Nat → Term → Prop
  | k, .int => k = 0
  | k, .bool => k = 0
  | k, .str => k = 0
  | k, .named s => k = count s
  | k, .apply a b => WK count (k + 1) a ∧ WK count 0 b
  | k, .fn a b => k = 0 ∧ WK count 0 a ∧ WK count 0 b
  | k, .folded a b => k = 0 ∧ WK count 0 a ∧ WK count 0 b
  | _, .var _ => False
  | _, .error => False

/-- The type a tree stands for. -/
def Tm.ty : Term → IrTy
  | .var _ => .infer
  | .bool => .bool
  | .int => .int
  | .str => .str
  | .named s => .named s []
  | .apply a b => match Tm.ty a with
    | .named s xs => .named s (xs ++ [Tm.ty b])
    | t => t
  | .fn a b => .fn (Tm.ty a) (Tm.ty b)
  | .folded a b => .folded (Tm.ty a) (Tm.ty b)
  | .error => .error

theorem WK.noError {count} : ∀ {t k}, WK count k t → NoError t
  | .int, _, _ => trivial
  | .bool, _, _ => trivial
  | .str, _, _ => trivial
  | .named _, _, _ => trivial
  | .apply _ _, _, h => ⟨h.1.noError, h.2.noError⟩
  | .fn _ _, _, h => ⟨h.2.1.noError, h.2.2.noError⟩
  | .folded _ _, _, h => ⟨h.2.1.noError, h.2.2.noError⟩
  | .var _, _, h => h.elim
  | .error, _, h => h.elim

theorem wellKindeds_append {count} : ∀ {xs ys}, WellKindeds count xs → WellKindeds count ys → WellKindeds count (xs ++ ys)
  | [], _, _, h => h
  | _ :: _, _, h, h' => ⟨h.1, wellKindeds_append h.2 h'⟩

/-- What the type of a well-kinded tree looks like. -/
theorem WK.ty {count} : ∀ {t k}, WK count k t →
    (k = 0 → WellKinded count (Tm.ty t)) ∧
    ((∃ s xs, Tm.ty t = .named s xs ∧ xs.length + k = count s ∧ WellKindeds count xs) ∨ k = 0)
  | .int, _, h => ⟨fun _ => trivial, .inr h⟩
  | .bool, _, h => ⟨fun _ => trivial, .inr h⟩
  | .str, _, h => ⟨fun _ => trivial, .inr h⟩
  | .named s, k, h => ⟨fun hk => ⟨by simp [← hk, h.symm], trivial⟩, .inl ⟨s, [], rfl, by simpa [WK] using h, trivial⟩⟩
  | .fn a b, _, h => ⟨fun _ => ⟨(WK.ty h.2.1).1 rfl, (WK.ty h.2.2).1 rfl⟩, .inr h.1⟩
  | .folded a b, _, h => ⟨fun _ => ⟨(WK.ty h.2.1).1 rfl, (WK.ty h.2.2).1 rfl⟩, .inr h.1⟩
  | .apply a b, k, h => by
    rcases (WK.ty h.1).2 with ⟨s, xs, hx, hl, hk⟩ | h0
    · have hb := (WK.ty h.2).1 rfl
      have he : Tm.ty (.apply a b) = .named s (xs ++ [Tm.ty b]) := by simp only [Tm.ty, hx]
      refine ⟨fun h0 => ?_, .inl ⟨s, _, he, by simp; omega, wellKindeds_append hk ⟨hb, trivial⟩⟩⟩
      rw [he]
      exact ⟨by simp; omega, wellKindeds_append hk ⟨hb, trivial⟩⟩
    · omega
  | .var _, _, h => h.elim
  | .error, _, h => h.elim

theorem WK.apply_ty {count a b k} (h : WK count k (.apply a b)) {s xs} (ha : Tm.ty a = .named s xs) :
    Tm.ty (.apply a b) = .named s (xs ++ [Tm.ty b]) := by
  simp only [Tm.ty, ha]

mutual
/-- The type of a fully known tree whose symbols are in scope is well formed. -/
theorem wfTy_of {Δ : List TypeDecl} {vs} : ∀ {t k}, WK (arity Δ) k t → k = 0 → (∀ s ∈ tySyms (Tm.ty t), s ∈ vs ∨ (declOf Δ s).isSome) →
    WfTy Δ vs (Tm.ty t)
  | .int, _, _, _, _ => trivial
  | .bool, _, _, _, _ => trivial
  | .str, _, _, _, _ => trivial
  | .named s, k, h, h0, hs => by
    have := hs s (by simp [Tm.ty, tySyms])
    exact ⟨this, by simp [← h0, h.symm], trivial⟩
  | .fn a b, _, h, _, hs => by
    simp only [Tm.ty, tySyms, List.mem_append] at hs
    exact ⟨wfTy_of h.2.1 rfl fun s hm => hs s (.inl hm), wfTy_of h.2.2 rfl fun s hm => hs s (.inr hm)⟩
  | .folded a b, _, h, _, hs => by
    simp only [Tm.ty, tySyms, List.mem_append] at hs
    exact ⟨wfTy_of h.2.1 rfl fun s hm => hs s (.inl hm), wfTy_of h.2.2 rfl fun s hm => hs s (.inr hm)⟩
  | .apply a b, k, h, h0, hs => by
    obtain ⟨s, xs, he, h1, h2, h3⟩ := wfHead_of (t := .apply a b) h (.inr ⟨a, b, rfl⟩) hs
    rw [he]
    exact ⟨h1, by omega, h3⟩
  | .var _, _, h, _, _ => h.elim
  | .error, _, h, _, _ => h.elim
theorem wfHead_of {Δ : List TypeDecl} {vs} : ∀ {t k}, WK (arity Δ) k t → ((∃ s, t = .named s) ∨ ∃ a b, t = .apply a b) →
    (∀ s ∈ tySyms (Tm.ty t), s ∈ vs ∨ (declOf Δ s).isSome) →
    ∃ s xs, Tm.ty t = .named s xs ∧ (s ∈ vs ∨ (declOf Δ s).isSome) ∧ xs.length + k = arity Δ s ∧ WfTys Δ vs xs
  | .named s, k, h, _, hs => ⟨s, [], rfl, hs s (by simp [Tm.ty, tySyms]), by simpa [WK] using h, trivial⟩
  | .apply a b, k, h, _, hs => by
    have ha : (∃ s, a = .named s) ∨ ∃ c d, a = .apply c d := by
      cases a with
      | named s => exact .inl ⟨s, rfl⟩
      | apply c d => exact .inr ⟨c, d, rfl⟩
      | _ => have := h.1; simp [WK] at this
    obtain ⟨s, xs, hx, hl, -⟩ : ∃ s xs, Tm.ty a = .named s xs ∧ xs.length + (k + 1) = arity Δ s ∧ WellKindeds (arity Δ) xs := by
      rcases (WK.ty h.1).2 with h | h
      · exact h
      · omega
    have he : Tm.ty (.apply a b) = .named s (xs ++ [Tm.ty b]) := by simp only [Tm.ty, hx]
    rw [he] at hs ⊢
    have hmem : ∀ (ys zs : List IrTy) q, q ∈ tysSyms (ys ++ zs) ↔ q ∈ tysSyms ys ∨ q ∈ tysSyms zs := by
      intro ys zs q
      induction ys with
      | nil => simp [tysSyms]
      | cons y ys ih => simp [tysSyms, ih, or_assoc]
    simp only [tySyms, List.mem_cons, hmem, tysSyms, List.append_nil] at hs
    obtain ⟨s', xs', he', h1, h2, h3⟩ := wfHead_of h.1 ha (by
      rw [hx]; intro q hq
      simp only [tySyms, List.mem_cons] at hq
      exact hs q (hq.imp_right .inl))
    rw [hx] at he'; cases he'
    have hb := wfTy_of h.2 rfl fun q hq => hs q (.inr (.inr hq))
    refine ⟨s, _, rfl, h1, by simp; omega, ?_⟩
    have : ∀ (ys zs : List IrTy), WfTys Δ vs ys → WfTys Δ vs zs → WfTys Δ vs (ys ++ zs) := by
      intro ys zs h1 h2
      induction ys with
      | nil => exact h2
      | cons y ys ih => exact ⟨h1.1, ih h1.2⟩
    exact this _ _ h3 ⟨hb, trivial⟩
  | .int, _, _, h, _ => by simp at h
  | .bool, _, _, h, _ => by simp at h
  | .str, _, _, h, _ => by simp at h
  | .fn .., _, _, h, _ => by simp at h
  | .folded .., _, _, h, _ => by simp at h
  | .var _, _, h, _, _ => h.elim
  | .error, _, h, _, _ => h.elim
end

/-! ### Solutions -/

/-- A choice of fully known types for everything in the unifier. -/
structure Sol (count : Symbol → Nat) (u : Unifier) (ar : Nat → Nat) (θ : Nat → Term) : Prop where
  sat : Sat u θ
  wk : ∀ i, i < u.slots.length → WK count (ar i) (θ i)

theorem Evo.sol {count a ra b rb} (h : Evo count a ra b rb) {θ} (hs : Sol count b rb θ) : Sol count a ra θ :=
  ⟨h.sat θ hs.sat, fun i hi => by rw [← h.agree i hi]; exact hs.wk i (Nat.lt_of_lt_of_le hi h.len)⟩

/-- There is one: the unknown types become `Int`, as in code generation. -/
theorem sol_exists {count u ar} (h : Good count u ar) : ∃ θ, Sol count u ar θ ∧ ∀ i t, Denotes u i t → θ i = t.subst (fun _ => .int) := by
  obtain ⟨θ, h1, -, h3⟩ := sat_exists h.reach.reach (fun _ => .int)
  refine ⟨θ, ⟨h1, fun i hi => ?_⟩, h3⟩
  obtain ⟨t, ht, -⟩ := denotes_total h.reach.reach hi
  rw [h3 i t ht]
  clear h3 h1 hi
  induction ht with
  | @infer i hg => have := h.slots i _ hg; exact this
  | @next i j t hg _ ih => have := h.slots i _ hg; simp only [SlotOK] at this; rw [this]; exact ih
  | @bool i hg => exact h.slots i _ hg
  | @int i hg => exact h.slots i _ hg
  | @str i hg => exact h.slots i _ hg
  | @named i s hg => exact h.slots i _ hg
  | @apply i a b s t hg _ _ iha ihb =>
    have := h.slots i _ hg; simp only [SlotOK] at this
    rw [this.1] at iha; rw [this.2] at ihb
    exact ⟨iha, ihb⟩
  | @fn i a b s t hg _ _ iha ihb =>
    have := h.slots i _ hg; simp only [SlotOK] at this
    rw [this.2.1] at iha; rw [this.2.2] at ihb
    exact ⟨this.1, iha, ihb⟩
  | @folded i a b s t hg _ _ iha ihb =>
    have := h.slots i _ hg; simp only [SlotOK] at this
    rw [this.2.1] at iha; rw [this.2.2] at ihb
    exact ⟨this.1, iha, ihb⟩
  | @error i hg => exact (h.slots i _ hg).elim

/-! ### Instances -/

mutual
theorem instTy_ty {Δ : List TypeDecl} {vs} {ρ : Symbol → Option Term} {σ : List (Symbol × IrTy)}
    (h0 : ∀ s t, ρ s = some t → arity Δ s = 0) (hσ : ∀ s, findTy σ s = (ρ s).map Tm.ty) :
    ∀ {ty t}, InstTy ρ ty t → WfTy Δ vs ty → Tm.ty t = substTy σ ty
  | _, _, .int, _ => rfl
  | _, _, .bool, _ => rfl
  | _, _, .str, _ => rfl
  | _, _, .error, h => h.elim
  | _, _, .infer _, h => h.elim
  | _, _, .fn ha hb, h => by
    simp only [Tm.ty, substTy, instTy_ty h0 hσ ha h.1, instTy_ty h0 hσ hb h.2]
  | _, _, .folded ha hb, h => by
    simp only [Tm.ty, substTy, instTy_ty h0 hσ ha h.1, instTy_ty h0 hσ hb h.2]
  | _, _, .named (s := s) (args := args) ha, h => by
    simp only [substTy, hσ]
    cases hr : ρ s with
    | some r =>
      have : args = [] := List.length_eq_zero_iff.mp (h.2.1.trans (h0 s r hr))
      subst this
      simp only [hr, Option.getD_some] at ha
      cases ha
      rfl
    | none =>
      simp only [hr, Option.getD_none] at ha
      have := instArgs_ty h0 hσ ha h.2.2 (s := s) (xs := []) rfl
      simpa using this
theorem instArgs_ty {Δ : List TypeDecl} {vs} {ρ : Symbol → Option Term} {σ : List (Symbol × IrTy)}
    (h0 : ∀ s t, ρ s = some t → arity Δ s = 0) (hσ : ∀ s, findTy σ s = (ρ s).map Tm.ty) :
    ∀ {head args t}, InstArgs ρ head args t → WfTys Δ vs args → ∀ {s xs}, Tm.ty head = .named s xs →
      Tm.ty t = .named s (xs ++ substTys σ args)
  | _, _, _, .nil, _, s, xs, hh => by simpa [substTys] using hh
  | _, _, _, .cons (h := head) (s := a') ha hr, h, s, xs, hh => by
    have h1 := instTy_ty h0 hσ ha h.1
    have := instArgs_ty h0 hσ hr h.2 (s := s) (xs := xs ++ [Tm.ty a']) (by simp only [Tm.ty, hh])
    rw [this, h1]
    simp [substTys]
end

/-! ### The state of the checker -/

/-- One state of the checker and a later one. -/
structure Step (count : Symbol → Nat) (st : TcSt) (ar : Nat → Nat) (st' : TcSt) (ar' : Nat → Nat) : Prop where
  evo : Evo count st.u ar st'.u ar'
  quiet : st'.diags = [] → st.diags = []

theorem Step.refl {count st ar} (h : Good count st.u ar) : Step count st ar st ar := ⟨.refl h, id⟩

theorem Step.trans {count a ra b rb c rc} (h : Step count a ra b rb) (h' : Step count b rb c rc) : Step count a ra c rc :=
  ⟨h.evo.trans h'.evo, fun hq => h.quiet (h'.quiet hq)⟩

theorem step_unify {count st ar n a b st'} (h : Good count st.u ar) (ha : a < st.u.slots.length) (hb : b < st.u.slots.length) (hab : ar a = ar b)
    (hu : st.unify n a b = some st') :
    Step count st ar st' ar ∧ (st'.diags = [] → ∀ θ, Sol count st'.u ar θ → θ a = θ b) := by
  simp only [TcSt.unify, Option.map_eq_some_iff] at hu
  obtain ⟨⟨u', ok⟩, hu, rfl⟩ := hu
  have e := evo_unify h ha hb hab hu
  cases ok with
  | true =>
    refine ⟨⟨e, by simp⟩, fun _ θ hθ => ?_⟩
    exact unify_sound_eq h.reach.reach ha hb hu θ hθ.sat (hθ.wk a (Nat.lt_of_lt_of_le ha e.len)).noError (hθ.wk b (Nat.lt_of_lt_of_le hb e.len)).noError
  | false => exact ⟨⟨e, by simp⟩, by simp⟩

theorem step_fresh {count st ar} (h : Good count st.u ar) :
    ∃ ar', Step count st ar st.fresh.1 ar' ∧ Typ st.fresh.1.u ar' st.fresh.2 := by
  obtain ⟨ar', h1, h2⟩ := evo_fresh h
  exact ⟨ar', ⟨h1, id⟩, h2⟩

theorem step_base {count st ar} (h : Good count st.u ar) (t : Ty) (ht : t = .int ∨ t = .bool ∨ t = .str) :
    ∃ ar', Step count st ar (st.alloc t).1 ar' ∧ Typ (st.alloc t).1.u ar' (st.alloc t).2 ∧
      ∀ θ, Sat (st.alloc t).1.u θ → θ (st.alloc t).2 = t.under θ := by
  obtain ⟨ar', h1, h2, h3, h4⟩ := evo_alloc h (t := t) (k := 0) (by rcases ht with rfl | rfl | rfl <;> simp [Ty.refs])
    (by rcases ht with rfl | rfl | rfl <;> simp) (by rcases ht with rfl | rfl | rfl <;> simp [SlotOK, arSet])
  exact ⟨ar', ⟨h1, id⟩, ⟨h2, h3⟩, h4⟩

theorem step_fn {count st ar a b} (h : Good count st.u ar) (ha : Typ st.u ar a) (hb : Typ st.u ar b) :
    ∃ ar', Step count st ar (st.alloc (.fn a b)).1 ar' ∧ Typ (st.alloc (.fn a b)).1.u ar' (st.alloc (.fn a b)).2 ∧
      ∀ θ, Sat (st.alloc (.fn a b)).1.u θ → θ (st.alloc (.fn a b)).2 = .fn (θ a) (θ b) := by
  obtain ⟨ar', h1, h2, h3, h4⟩ := evo_alloc h (t := .fn a b) (k := 0) (by simp [Ty.refs, ha.1, hb.1]) (by simp)
    (by simp [SlotOK, arSet, ha.2, hb.2])
  exact ⟨ar', ⟨h1, id⟩, ⟨h2, h3⟩, h4⟩

theorem step_folded {count st ar a b} (h : Good count st.u ar) (ha : Typ st.u ar a) (hb : Typ st.u ar b) :
    ∃ ar', Step count st ar (st.alloc (.folded a b)).1 ar' ∧ Typ (st.alloc (.folded a b)).1.u ar' (st.alloc (.folded a b)).2 ∧
      ∀ θ, Sat (st.alloc (.folded a b)).1.u θ → θ (st.alloc (.folded a b)).2 = .folded (θ a) (θ b) := by
  obtain ⟨ar', h1, h2, h3, h4⟩ := evo_alloc h (t := .folded a b) (k := 0) (by simp [Ty.refs, ha.1, hb.1]) (by simp)
    (by simp [SlotOK, arSet, ha.2, hb.2])
  exact ⟨ar', ⟨h1, id⟩, ⟨h2, h3⟩, h4⟩

/-! ### Instantiating -/

theorem arity_none {Δ : List TypeDecl} {s} (h : declOf Δ s = none) : arity Δ s = 0 := by simp [arity, h]

/-- The symbols that are instantiated are type variables. -/
def VarsOK (Δ : List TypeDecl) (u : Unifier) (ar : Nat → Nat) (vars : List (Symbol × Nat)) : Prop :=
  ∀ p ∈ vars, declOf Δ p.1 = none ∧ Typ u ar p.2

theorem VarsOK.evo {Δ : List TypeDecl} {count u ar u' ar' vars} (h : VarsOK Δ u ar vars) (e : Evo count u ar u' ar') : VarsOK Δ u' ar' vars :=
  fun p hp => ⟨(h p hp).1, e.typ (h p hp).2⟩

mutual
theorem evo_inst {Δ : List TypeDecl} {vars : List (Symbol × Nat)} {vs} : ∀ (ty : IrTy) {u ar}, Good (arity Δ) u ar → VarsOK Δ u ar vars →
    WfTy Δ vs ty → ∃ ar', Evo (arity Δ) u ar (instantiate vars ty u).1 ar' ∧ Typ (instantiate vars ty u).1 ar' (instantiate vars ty u).2
  | .int, u, ar, h, _, _ => by
    obtain ⟨ar', h1, h2, h3, -⟩ := evo_alloc h (t := .int) (k := 0) (by simp [Ty.refs]) (by simp) (by simp [SlotOK, arSet])
    exact ⟨ar', h1, h2, h3⟩
  | .bool, u, ar, h, _, _ => by
    obtain ⟨ar', h1, h2, h3, -⟩ := evo_alloc h (t := .bool) (k := 0) (by simp [Ty.refs]) (by simp) (by simp [SlotOK, arSet])
    exact ⟨ar', h1, h2, h3⟩
  | .str, u, ar, h, _, _ => by
    obtain ⟨ar', h1, h2, h3, -⟩ := evo_alloc h (t := .str) (k := 0) (by simp [Ty.refs]) (by simp) (by simp [SlotOK, arSet])
    exact ⟨ar', h1, h2, h3⟩
  | .error, _, _, _, _, h => h.elim
  | .infer, _, _, _, _, h => h.elim
  | .fn a b, u, ar, h, hv, hw => by
    obtain ⟨a1, e1, t1⟩ := evo_inst a h hv hw.1
    obtain ⟨a2, e2, t2⟩ := evo_inst b e1.good (hv.evo e1) hw.2
    have t1' := e2.typ t1
    obtain ⟨a3, e3, h2, h3, -⟩ := evo_alloc e2.good (t := .fn (instantiate vars a u).2 (instantiate vars b (instantiate vars a u).1).2) (k := 0)
      (by simp [Ty.refs, t1'.1, t2.1]) (by simp) (by simp [SlotOK, arSet, t1'.2, t2.2])
    exact ⟨a3, (e1.trans e2).trans e3, h2, h3⟩
  | .folded a b, u, ar, h, hv, hw => by
    obtain ⟨a1, e1, t1⟩ := evo_inst a h hv hw.1
    obtain ⟨a2, e2, t2⟩ := evo_inst b e1.good (hv.evo e1) hw.2
    have t1' := e2.typ t1
    obtain ⟨a3, e3, h2, h3, -⟩ := evo_alloc e2.good (t := .folded (instantiate vars a u).2 (instantiate vars b (instantiate vars a u).1).2) (k := 0)
      (by simp [Ty.refs, t1'.1, t2.1]) (by simp) (by simp [SlotOK, arSet, t1'.2, t2.2])
    exact ⟨a3, (e1.trans e2).trans e3, h2, h3⟩
  | .named s args, u, ar, h, hv, hw => by
    simp only [instantiate]
    cases hf : findVar vars s with
    | some i =>
      have hm := hv _ (findVar_mem hf)
      have : args = [] := List.length_eq_zero_iff.mp (hw.2.1.trans (arity_none hm.1))
      subst this
      exact ⟨ar, .refl h, hm.2⟩
    | none =>
      obtain ⟨a1, e1, h2, h3, -⟩ := evo_alloc h (t := .named s) (k := arity Δ s) (by simp [Ty.refs]) (by simp) (by simp [SlotOK, arSet])
      obtain ⟨a2, e2, t2⟩ := evo_instArgs args e1.good (hv.evo e1) hw.2.2 h2
        (.inl ⟨s, (grows_alloc h.reach.reach (t := .named s) (by simp [Ty.refs])).2.2⟩) (by rw [h3, hw.2.1])
      exact ⟨a2, e1.trans e2, t2⟩
theorem evo_instArgs {Δ : List TypeDecl} {vars : List (Symbol × Nat)} {vs} : ∀ (args : List IrTy) {i u ar}, Good (arity Δ) u ar → VarsOK Δ u ar vars →
    WfTys Δ vs args → i < u.slots.length → ((∃ s, u.get i = some (.ty (.named s))) ∨ (∃ c d, u.get i = some (.ty (.apply c d)))) →
    ar i = args.length →
    ∃ ar', Evo (arity Δ) u ar (instArgs vars args i u).1 ar' ∧ Typ (instArgs vars args i u).1 ar' (instArgs vars args i u).2
  | [], i, u, ar, h, _, _, hi, _, ha => ⟨ar, .refl h, hi, ha⟩
  | a :: as, i, u, ar, h, hv, hw, hi, hh, ha => by
    obtain ⟨a1, e1, t1⟩ := evo_inst a h hv hw.1
    have g1 := instantiate_spec vars a u h.reach.reach (fun p hp => (hv p hp).2.1)
    have hi' := Nat.lt_of_lt_of_le hi e1.len
    have har : a1 i = as.length + 1 := by rw [e1.agree i hi, ha]; rfl
    obtain ⟨a2, e2, h2, h3, -⟩ := evo_alloc e1.good (t := .apply i (instantiate vars a u).2) (k := as.length)
      (by simp [Ty.refs, hi', t1.1])
      (by intro x y hxy; cases hxy; rw [g1.1.get i hi]; exact hh)
      (by
        have n1 : i ≠ (instantiate vars a u).1.slots.length := Nat.ne_of_lt hi'
        have n2 : (instantiate vars a u).2 ≠ (instantiate vars a u).1.slots.length := Nat.ne_of_lt t1.1
        simp [SlotOK, arSet, n1, n2, har, t1.2])
    obtain ⟨a3, e3, t3⟩ := evo_instArgs as e2.good ((hv.evo e1).evo e2) hw.2 h2
      (.inr ⟨_, _, (grows_alloc e1.good.reach.reach (t := .apply i (instantiate vars a u).2) (by simp [Ty.refs, hi', t1.1])).2.2⟩) h3
    exact ⟨a3, (e1.trans e2).trans e3, t3⟩
end

theorem findTy_zip {θ : Nat → Term} (vars : List (Symbol × Nat)) (s : Symbol) :
    findTy ((vars.map (·.1)).zip (vars.map fun p => Tm.ty (θ p.2))) s = (varsUnder vars θ s).map Tm.ty := by
  induction vars with
  | nil => rfl
  | cons p vars ih =>
    simp only [List.map_cons, List.zip_cons_cons, findTy, varsUnder, findVar]
    by_cases h : p.1 = s
    · simp [h]
    · simp only [if_neg h]; exact ih

/-- Instantiating the type variables `vars` in a type. -/
theorem step_inst {Δ : List TypeDecl} {vs st ar} {vars : List (Symbol × Nat)} {ty} (h : Good (arity Δ) st.u ar) (hv : VarsOK Δ st.u ar vars)
    (hw : WfTy Δ vs ty) :
    ∃ ar', Step (arity Δ) st ar (st.inst vars ty).1 ar' ∧ Typ (st.inst vars ty).1.u ar' (st.inst vars ty).2 ∧
      ∀ θ, Sat (st.inst vars ty).1.u θ →
        Tm.ty (θ (st.inst vars ty).2) = substTy ((vars.map (·.1)).zip (vars.map fun p => Tm.ty (θ p.2))) ty := by
  obtain ⟨ar', e, t⟩ := evo_inst ty h hv hw
  refine ⟨ar', ⟨e, id⟩, t, fun θ hθ => ?_⟩
  have := (instantiate_spec vars ty st.u h.reach.reach (fun p hp => (hv p hp).2.1)).2.2 θ hθ
  refine instTy_ty (Δ := Δ) (vs := vs) (fun s t hs => ?_) (fun s => findTy_zip vars s) this hw
  simp only [varsUnder, Option.map_eq_some_iff] at hs
  obtain ⟨i, hi, -⟩ := hs
  exact arity_none (hv _ (findVar_mem hi)).1

theorem freshAll_fst (vs : List Symbol) (st : TcSt) : (st.freshAll vs).2.map (·.1) = vs := by
  induction vs generalizing st with
  | nil => rfl
  | cons v vs ih => simp [TcSt.freshAll, ih]

theorem step_freshAll {Δ : List TypeDecl} (vs : List Symbol) {st ar} (h : Good (arity Δ) st.u ar) (hv : ∀ v ∈ vs, declOf Δ v = none) :
    ∃ ar', Step (arity Δ) st ar (st.freshAll vs).1 ar' ∧ VarsOK Δ (st.freshAll vs).1.u ar' (st.freshAll vs).2 := by
  induction vs generalizing st ar with
  | nil => exact ⟨ar, .refl h, by simp [VarsOK, TcSt.freshAll]⟩
  | cons v vs ih =>
    obtain ⟨a1, s1, t1⟩ := step_fresh h
    obtain ⟨a2, s2, t2⟩ := ih s1.evo.good (fun w hw => hv w (by simp [hw]))
    refine ⟨a2, s1.trans s2, fun p hp => ?_⟩
    simp only [TcSt.freshAll, List.mem_cons] at hp
    rcases hp with rfl | hp
    · exact ⟨hv v (by simp), s2.evo.typ t1⟩
    · exact t2 p hp

theorem applyVars_fst (vs : List Symbol) (st : TcSt) (t : Nat) : (applyVars st t vs).2.2.map (·.1) = vs := by
  induction vs generalizing st t with
  | nil => rfl
  | cons v vs ih => simp [applyVars, ih]

/-- The type of a constructor's patterns. -/
theorem step_applyVars {Δ : List TypeDecl} (vs : List Symbol) {st ar t} (h : Good (arity Δ) st.u ar) (hv : ∀ v ∈ vs, declOf Δ v = none)
    (hi : t < st.u.slots.length) (hh : (∃ s, st.u.get t = some (.ty (.named s))) ∨ (∃ c d, st.u.get t = some (.ty (.apply c d))))
    (ha : ar t = vs.length) :
    ∃ ar', Step (arity Δ) st ar (applyVars st t vs).1 ar' ∧ Typ (applyVars st t vs).1.u ar' (applyVars st t vs).2.1 ∧
      VarsOK Δ (applyVars st t vs).1.u ar' (applyVars st t vs).2.2 ∧
      ∀ θ, Sol (arity Δ) (applyVars st t vs).1.u ar' θ → ∀ s xs, Tm.ty (θ t) = .named s xs →
        Tm.ty (θ (applyVars st t vs).2.1) = .named s (xs ++ (applyVars st t vs).2.2.map fun p => Tm.ty (θ p.2)) := by
  induction vs generalizing st ar t with
  | nil => exact ⟨ar, .refl h, ⟨hi, ha⟩, by simp [VarsOK, applyVars], fun θ _ s xs hs => by simpa [applyVars] using hs⟩
  | cons v vs ih =>
    obtain ⟨a1, s1, t1⟩ := step_fresh h
    have hi' := Nat.lt_of_lt_of_le hi s1.evo.len
    have g1 := grows_fresh h.reach.reach
    have har : a1 t = vs.length + 1 := by rw [s1.evo.agree t hi, ha]; rfl
    obtain ⟨a2, e2, h2, h3, h4⟩ := evo_alloc s1.evo.good (t := .apply t st.fresh.2) (k := vs.length)
      (by simp [Ty.refs, hi', t1.1])
      (by intro x y hxy; cases hxy
          rw [show st.fresh.1.u.get t = st.u.get t from g1.1.get t hi]; exact hh)
      (by
        have n1 : t ≠ st.fresh.1.u.slots.length := Nat.ne_of_lt hi'
        have n2 : st.fresh.2 ≠ st.fresh.1.u.slots.length := Nat.ne_of_lt t1.1
        simp [SlotOK, arSet, n1, n2, har, t1.2])
    have s2 : Step (arity Δ) st.fresh.1 a1 (st.fresh.1.alloc (.apply t st.fresh.2)).1 a2 := ⟨e2, id⟩
    obtain ⟨a3, s3, t3, v3, p3⟩ := ih (st := (st.fresh.1.alloc (.apply t st.fresh.2)).1) (t := (st.fresh.1.alloc (.apply t st.fresh.2)).2)
      e2.good (fun w hw => hv w (by simp [hw])) h2
      (.inr ⟨_, _, (grows_alloc s1.evo.good.reach.reach (t := .apply t st.fresh.2) (by simp [Ty.refs, hi', t1.1])).2.2⟩) h3
    refine ⟨a3, (s1.trans s2).trans s3, t3, fun p hp => ?_, fun θ hθ s xs hs => ?_⟩
    · simp only [applyVars, List.mem_cons] at hp
      rcases hp with rfl | hp
      · exact ⟨hv v (by simp), s3.evo.typ (e2.typ t1)⟩
      · exact v3 p hp
    · have := p3 θ hθ s (xs ++ [Tm.ty (θ st.fresh.2)]) (by
        rw [show θ (st.fresh.1.alloc (.apply t st.fresh.2)).2 = _ from h4 θ (s3.evo.sat θ hθ.sat)]
        simp only [Ty.under, Tm.ty, hs])
      simpa [applyVars] using this

end Tic.Front
