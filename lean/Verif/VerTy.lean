import Verif.GenItems
import Verif.PropVerify
/-
The types the generator writes into core, seen by the verifier: instances of types, well-formedness
and comparison of types.
-/
namespace Tic.Front
open Tic.Unify (Symbol IrTy)
open Tic.Core

mutual
/-- The core type of a written type, given the names of declared types and the types that stand for
type variables. -/
def tyIn (N : Symbol → Option Name) (θ : Symbol → Option Ty) : IrTy → Option Ty
  | .int => some .int
  | .bool => some .bool
  | .str => some .string
  | .named s args => match θ s with
    | some T => if args.isEmpty then some T else none
    | none => (N s).bind fun n => (tysIn N θ args).map fun ts => .named n ts
  | .fn a b => (tyIn N θ a).bind fun a => (tyIn N θ b).map fun b => .fn [a] b
  | _ => none
/-- ... of a list of types. -/
def tysIn (N : Symbol → Option Name) (θ : Symbol → Option Ty) : List IrTy → Option (List Ty)
  | [] => some []
  | t :: ts => (tyIn N θ t).bind fun t => (tysIn N θ ts).map fun ts => t :: ts
end

mutual
theorem genTy_tyIn (g : Gen) : ∀ {t}, Plain t → genTy g t = tyIn g.symNames (fun v => (g.tyVars v).map .var) t
  | .int, _ | .bool, _ | .str, _ => by simp [genTy, tyIn]
  | .named s args, h => by
    simp only [Plain] at h
    simp only [genTy, tyIn, genTys_tyIn g h]
    cases g.tyVars s <;> rfl
  | .fn a b, h => by
    simp only [Plain] at h
    simp only [genTy, tyIn, genTy_tyIn g h.1, genTy_tyIn g h.2]
  | .folded .., h | .error, h | .infer, h => by simp [Plain] at h
theorem genTys_tyIn (g : Gen) : ∀ {ts}, Plains ts → genTys g ts = tysIn g.symNames (fun v => (g.tyVars v).map .var) ts
  | [], _ => rfl
  | t :: ts, h => by
    simp only [Plains] at h
    simp only [genTys, tysIn, genTy_tyIn g h.1, genTys_tyIn g h.2]
end

theorem replaceAll_named : ∀ (ws : List TyVar) (us : List Ty) (n : Name) (ts : List Ty), replaceAll ws us (.named n ts) = .named n (ts.map (replaceAll ws us))
  | [], us, n, ts => by simp [replaceAll]
  | w :: ws, [], n, ts => by simp [replaceAll]
  | w :: ws, u :: us, n, ts => by
    have hl : ∀ ts : List Ty, replaceL w u ts = ts.map (replace w u) := fun ts => by
      induction ts with
      | nil => simp [replaceL]
      | cons t ts ih => simp [replaceL, ih]
    simp only [replaceAll, replace, replaceAll_named ws us, hl, List.map_map]
    rfl

theorem replaceAll_fn : ∀ (ws : List TyVar) (us : List Ty) (a b : Ty), replaceAll ws us (.fn [a] b) = .fn [replaceAll ws us a] (replaceAll ws us b)
  | [], us, a, b => by simp [replaceAll]
  | w :: ws, [], a, b => by simp [replaceAll]
  | w :: ws, u :: us, a, b => by simp only [replaceAll, replace, replaceL, replaceAll_fn ws us]

theorem replaceAll_base : ∀ (ws : List TyVar) (us : List Ty), replaceAll ws us .int = .int ∧ replaceAll ws us .bool = .bool ∧ replaceAll ws us .string = .string
  | [], us => by simp [replaceAll]
  | w :: ws, [] => by simp [replaceAll]
  | w :: ws, u :: us => by simp only [replaceAll, replace]; exact replaceAll_base ws us

mutual
theorem tyIn_replaceAll {N θ} (ws : List TyVar) (us : List Ty) : ∀ {t T}, tyIn N θ t = some T →
    tyIn N (fun s => (θ s).map (replaceAll ws us)) t = some (replaceAll ws us T)
  | .int, T, h | .bool, T, h | .str, T, h => by
    simp only [tyIn, Option.some.injEq] at h ⊢
    subst h
    obtain ⟨h1, h2, h3⟩ := replaceAll_base ws us
    simp [h1, h2, h3]
  | .named s args, T, h => by
    simp only [tyIn] at h ⊢
    cases hs : θ s with
    | some U =>
      rw [hs] at h
      simp only [Option.map_some] at h ⊢
      split at h
      · rename_i he
        cases h
        rw [if_pos he]
      · cases h
    | none =>
      rw [hs] at h
      simp only [Option.bind_eq_some_iff, Option.map_eq_some_iff, Option.map_none] at h ⊢
      obtain ⟨n, hn, ts, ht, rfl⟩ := h
      exact ⟨n, hn, _, tysIn_replaceAll ws us ht, (replaceAll_named ws us n ts).symm⟩
  | .fn a b, T, h => by
    simp only [tyIn, Option.bind_eq_some_iff, Option.map_eq_some_iff] at h ⊢
    obtain ⟨A, ha, B, hb, rfl⟩ := h
    exact ⟨_, tyIn_replaceAll ws us ha, _, tyIn_replaceAll ws us hb, (replaceAll_fn ws us A B).symm⟩
  | .folded .., T, h | .error, T, h | .infer, T, h => by simp [tyIn] at h
theorem tysIn_replaceAll {N θ} (ws : List TyVar) (us : List Ty) : ∀ {ts Ts}, tysIn N θ ts = some Ts →
    tysIn N (fun s => (θ s).map (replaceAll ws us)) ts = some (Ts.map (replaceAll ws us))
  | [], Ts, h => by simp only [tysIn, Option.some.injEq] at h; subst h; rfl
  | t :: ts, Ts, h => by
    simp only [tysIn, Option.bind_eq_some_iff, Option.map_eq_some_iff] at h ⊢
    obtain ⟨A, ha, B, hb, rfl⟩ := h
    exact ⟨_, tyIn_replaceAll ws us ha, _, tysIn_replaceAll ws us hb, rfl⟩
end

mutual
theorem tyIn_congr {Δ : List TypeDecl} {vs : List Symbol} {N N' : Symbol → Option Name} {θ θ' : Symbol → Option Ty}
    (hv : ∀ s ∈ vs, θ s = θ' s ∧ (θ s).isSome) (hd : ∀ s d, declOf Δ s = some d → N s = N' s ∧ (s ∉ vs → θ s = θ' s)) : ∀ {t}, WfTy Δ vs t → tyIn N θ t = tyIn N' θ' t
  | .int, _ | .bool, _ | .str, _ => by simp [tyIn]
  | .named s args, h => by
    simp only [WfTy] at h
    obtain ⟨h1, -, h3⟩ := h
    simp only [tyIn, tysIn_congr hv hd h3]
    by_cases hs : s ∈ vs
    · obtain ⟨e1, e2⟩ := hv s hs
      obtain ⟨T, hT⟩ := Option.isSome_iff_exists.mp e2
      rw [← e1, hT]
    · obtain ⟨d, hd'⟩ := Option.isSome_iff_exists.mp (h1.resolve_left hs)
      rw [(hd s d hd').1, (hd s d hd').2 hs]
  | .fn a b, h => by
    simp only [WfTy] at h
    simp only [tyIn, tyIn_congr hv hd h.1, tyIn_congr hv hd h.2]
  | .folded .., h => by simp only [tyIn]
  | .error, h | .infer, h => by simp [WfTy] at h
theorem tysIn_congr {Δ : List TypeDecl} {vs : List Symbol} {N N' : Symbol → Option Name} {θ θ' : Symbol → Option Ty}
    (hv : ∀ s ∈ vs, θ s = θ' s ∧ (θ s).isSome) (hd : ∀ s d, declOf Δ s = some d → N s = N' s ∧ (s ∉ vs → θ s = θ' s)) : ∀ {ts}, WfTys Δ vs ts → tysIn N θ ts = tysIn N' θ' ts
  | [], _ => rfl
  | t :: ts, h => by
    simp only [WfTys] at h
    simp only [tysIn, tyIn_congr hv hd h.1, tysIn_congr hv hd h.2]
end

mutual
theorem genTy_subst {Δ : List TypeDecl} {vs : List Symbol} (g : Gen) (σ : List (Symbol × IrTy)) (hσ : ∀ s u, findTy σ s = some u → declOf Δ s = none ∧ (genTy g u).isSome) :
    ∀ {t}, Plain t → WfTy Δ vs t → genTy g (substTy σ t) =
      tyIn g.symNames (fun s => match findTy σ s with | some u => genTy g u | none => (g.tyVars s).map .var) t
  | .int, _, _ | .bool, _, _ | .str, _, _ => by simp [substTy, genTy, tyIn]
  | .named s args, hp, h => by
    simp only [WfTy] at h
    simp only [Plain] at hp
    obtain ⟨-, h2, h3⟩ := h
    simp only [substTy, tyIn]
    cases hf : findTy σ s with
    | some u =>
      obtain ⟨hn, hu⟩ := hσ s u hf
      obtain ⟨U, hU⟩ := Option.isSome_iff_exists.mp hu
      rw [arity_none hn] at h2
      have : args = [] := List.eq_nil_of_length_eq_zero h2
      simp [hU, this]
    | none =>
      simp only [genTy, ← genTys_subst g σ hσ hp h3]
      have hem : (substTys σ args).isEmpty = args.isEmpty := by cases args <;> simp [substTys]
      rw [hem]
      cases g.tyVars s <;> rfl
  | .fn a b, hp, h => by
    simp only [WfTy] at h
    simp only [Plain] at hp
    simp only [substTy, genTy, tyIn, genTy_subst g σ hσ hp.1 h.1, genTy_subst g σ hσ hp.2 h.2]
  | .folded .., h, _ | .error, h, _ | .infer, h, _ => by simp [Plain] at h
theorem genTys_subst {Δ : List TypeDecl} {vs : List Symbol} (g : Gen) (σ : List (Symbol × IrTy)) (hσ : ∀ s u, findTy σ s = some u → declOf Δ s = none ∧ (genTy g u).isSome) :
    ∀ {ts}, Plains ts → WfTys Δ vs ts → genTys g (substTys σ ts) =
      tysIn g.symNames (fun s => match findTy σ s with | some u => genTy g u | none => (g.tyVars s).map .var) ts
  | [], _, _ => rfl
  | t :: ts, hp, h => by
    simp only [WfTys] at h
    simp only [Plains] at hp
    simp only [substTys, genTys, tysIn, genTy_subst g σ hσ hp.1 h.1, genTys_subst g σ hσ hp.2 h.2]
end

/-- The generator `h` says the same as `g` about the declared types and the type variables `vs`. -/
structure Older (Δ : List TypeDecl) (vs : List Symbol) (h g : Gen) : Prop where
  ty : ∀ v ∈ vs, h.tyVars v = g.tyVars v ∧ (g.tyVars v).isSome
  decl : ∀ s d, declOf Δ s = some d → h.tyVars s = none ∧ g.tyVars s = none ∧ h.symNames s = g.symNames s ∧ h.foldedNames s = g.foldedNames s

mutual
theorem genTy_older {Δ : List TypeDecl} {vs : List Symbol} {h g : Gen} (ho : Older Δ vs h g) : ∀ {t}, WfTy Δ vs t → genTy h t = genTy g t
  | .int, _ | .bool, _ | .str, _ => by simp [genTy]
  | .named s args, hw => by
    simp only [WfTy] at hw
    obtain ⟨h1, -, h3⟩ := hw
    simp only [genTy, genTys_older ho h3]
    rcases h1 with h1 | h1
    · obtain ⟨e1, e2⟩ := ho.ty s h1
      obtain ⟨T, hT⟩ := Option.isSome_iff_exists.mp e2
      rw [e1, hT]
    · obtain ⟨d, hd⟩ := Option.isSome_iff_exists.mp h1
      obtain ⟨e1, e2, e3, -⟩ := ho.decl s d hd
      rw [e1, e2, e3]
  | .fn a b, hw => by
    simp only [WfTy] at hw
    simp only [genTy, genTy_older ho hw.1, genTy_older ho hw.2]
  | .folded (.named s args) b, hw => by
    simp only [WfTy] at hw
    obtain ⟨⟨h1, -, h3⟩, hb⟩ := hw
    simp only [genTy, genTys_older ho h3, genTy_older ho hb]
    rcases h1 with h1 | h1
    · obtain ⟨e1, e2⟩ := ho.ty s h1
      obtain ⟨T, hT⟩ := Option.isSome_iff_exists.mp e2
      rw [e1, hT]
    · obtain ⟨d, hd⟩ := Option.isSome_iff_exists.mp h1
      obtain ⟨e1, e2, -, e3⟩ := ho.decl s d hd
      rw [e1, e2, e3]
  | .folded .int _, _ | .folded .bool _, _ | .folded .str _, _ => by simp [genTy]
  | .folded (.fn a b) _, hw => by
    rw [WfTy] at hw
    have := genTy_older ho hw.1
    simpa only [genTy] using this
  | .folded (.folded a b) _, hw => by
    rw [WfTy] at hw
    have := genTy_older ho hw.1
    simpa only [genTy] using this
  | .error, hw | .infer, hw => by simp [WfTy] at hw
  | .folded .error _, hw | .folded .infer _, hw => by simp [WfTy] at hw
theorem genTys_older {Δ : List TypeDecl} {vs : List Symbol} {h g : Gen} (ho : Older Δ vs h g) : ∀ {ts}, WfTys Δ vs ts → genTys h ts = genTys g ts
  | [], _ => rfl
  | t :: ts, hw => by
    simp only [WfTys] at hw
    simp only [genTys, genTy_older ho hw.1, genTys_older ho hw.2]
end

mutual
/-- Generated types are not polymorphic. -/
theorem genTy_mono0 {g : Gen} : ∀ {t T}, genTy g t = some T → Mono0 T
  | .int, T, h | .bool, T, h | .str, T, h | .infer, T, h => by simp only [genTy, Option.some.injEq] at h; subst h; simp [Mono0]
  | .named s args, T, h => by
    simp only [genTy] at h
    split at h
    · split at h
      · cases h; simp [Mono0]
      · cases h
    · simp only [Option.bind_eq_some_iff, Option.map_eq_some_iff] at h
      obtain ⟨n, -, ts, ht, rfl⟩ := h
      simp only [Mono0]
      exact genTys_mono0 ht
  | .fn a b, T, h => by
    simp only [genTy, Option.bind_eq_some_iff, Option.map_eq_some_iff] at h
    obtain ⟨A, ha, B, hb, rfl⟩ := h
    simp only [Mono0, Mono0L]
    exact ⟨⟨genTy_mono0 ha, trivial⟩, genTy_mono0 hb⟩
  | .folded (.named s args) b, T, h => by
    simp only [genTy] at h
    split at h
    · split at h
      · cases h; simp [Mono0]
      · cases h
    · simp only [Option.bind_eq_some_iff, Option.map_eq_some_iff] at h
      obtain ⟨n, -, B, hb, ts, ht, rfl⟩ := h
      simp only [Mono0]
      have h1 := genTys_mono0 ht
      have h2 := genTy_mono0 hb
      clear ht
      induction ts with
      | nil => exact ⟨h2, trivial⟩
      | cons t ts ih => exact ⟨h1.1, ih h1.2⟩
  | .folded .int _, T, h | .folded .bool _, T, h | .folded .str _, T, h | .folded .infer _, T, h => by
    simp only [genTy, Option.some.injEq] at h; subst h; simp [Mono0]
  | .folded (.fn a b) _, T, h => by
    have h : genTy g (.fn a b) = some T := by simpa only [genTy] using h
    exact genTy_mono0 h
  | .folded (.folded a b) _, T, h => by
    have h : genTy g (.folded a b) = some T := by simpa only [genTy] using h
    exact genTy_mono0 h
  | .error, T, h | .folded .error _, T, h => by simp [genTy] at h
theorem genTys_mono0 {g : Gen} : ∀ {ts Ts}, genTys g ts = some Ts → Mono0L Ts
  | [], Ts, h => by simp only [genTys, Option.some.injEq] at h; subst h; simp [Mono0L]
  | t :: ts, Ts, h => by
    simp only [genTys, Option.bind_eq_some_iff, Option.map_eq_some_iff] at h
    obtain ⟨A, ha, B, hb, rfl⟩ := h
    simp only [Mono0L]
    exact ⟨genTy_mono0 ha, genTys_mono0 hb⟩
end

mutual
theorem replace_absent {a : TyVar} {u : Ty} : ∀ {t : Ty}, Mono0 t → a ∉ tfv t → replace a u t = t
  | .bool, _, _ | .int, _, _ | .string, _, _ => by simp [replace]
  | .var v, _, h => by
    simp only [tfv, List.mem_singleton] at h
    simp only [replace, if_neg (fun e : v = a => h e.symm)]
  | .named n ts, hm, h => by
    simp only [Mono0] at hm
    simp only [tfv] at h
    simp only [replace, replaceL_absent hm h]
  | .fn ps out, hm, h => by
    simp only [Mono0] at hm
    simp only [tfv, List.mem_append, not_or] at h
    simp only [replace, replaceL_absent hm.1 h.1, replace_absent hm.2 h.2]
  | .abs .., hm, _ => by simp [Mono0] at hm
theorem replaceL_absent {a : TyVar} {u : Ty} : ∀ {ts : List Ty}, Mono0L ts → a ∉ tfvL ts → replaceL a u ts = ts
  | [], _, _ => by simp [replaceL]
  | t :: ts, hm, h => by
    simp only [Mono0L] at hm
    simp only [tfvL, List.mem_append, not_or] at h
    simp only [replaceL, replace_absent hm.1 h.1, replaceL_absent hm.2 h.2]
end

theorem replaceAll_absent : ∀ {ws : List TyVar} {us : List Ty} {t : Ty}, Mono0 t → (∀ w ∈ ws, w ∉ tfv t) → replaceAll ws us t = t
  | [], us, t, _, _ => by simp [replaceAll]
  | w :: ws, [], t, _, _ => by simp [replaceAll]
  | w :: ws, u :: us, t, hm, h => by
    simp only [replaceAll, replace_absent hm (h w (by simp))]
    exact replaceAll_absent hm fun x hx => h x (by simp [hx])

theorem replaceAll_get : ∀ {ws : List TyVar} {us : List Ty} {i : Nat} {w u}, ws.Nodup → (∀ u ∈ us, Mono0 u ∧ ∀ w ∈ ws, w ∉ tfv u) →
    ws[i]? = some w → us[i]? = some u → replaceAll ws us (.var w) = u
  | x :: ws, y :: us, 0, w, u, hn, hu, h1, h2 => by
    simp only [List.getElem?_cons_zero, Option.some.injEq] at h1 h2
    subst h1; subst h2
    simp only [replaceAll, replace, if_pos]
    exact replaceAll_absent (hu y (by simp)).1 fun z hz => (hu y (by simp)).2 z (by simp [hz])
  | x :: ws, y :: us, i + 1, w, u, hn, hu, h1, h2 => by
    simp only [List.getElem?_cons_succ] at h1 h2
    have hne : w ≠ x := by
      rintro rfl
      exact (List.nodup_cons.mp hn).1 (List.mem_of_getElem? h1)
    simp only [replaceAll, replace, if_neg hne]
    exact replaceAll_get (List.nodup_cons.mp hn).2 (fun u hu' => ⟨(hu u (by simp [hu'])).1, fun z hz => (hu u (by simp [hu'])).2 z (by simp [hz])⟩) h1 h2
  | [], _, i, w, u, _, _, h1, _ => by simp at h1
  | _ :: _, [], i, w, u, _, _, _, h2 => by simp at h2

theorem replaceAll_varNotMem : ∀ {ws : List TyVar} {us : List Ty} {w}, w ∉ ws → replaceAll ws us (.var w) = .var w := by
  intro ws us w h
  refine replaceAll_absent (by simp [Mono0]) fun x hx => ?_
  simp only [tfv, List.mem_singleton]
  rintro rfl
  exact h hx

/-- Where a list of type arguments has the type of a variable. -/
theorem findTy_gen {g h : Gen} : ∀ {vars : List Symbol} {inst : List IrTy} {ws us s}, inst.length = vars.length → mapOpt h.tyVars vars = some ws → genTys g inst = some us → s ∈ vars →
    ∃ (i : Nat) (w : TyVar) (u : IrTy) (U : Ty), findTy (vars.zip inst) s = some u ∧ genTy g u = some U ∧ h.tyVars s = some w ∧ ws[i]? = some w ∧ us[i]? = some U
  | [], _, ws, us, s, _, _, _, hs => by cases hs
  | v :: vars, [], ws, us, s, hl, _, _, hs => by simp at hl
  | v :: vars, t :: inst, ws, us, s, hl, hw, hu, hs => by
    simp only [mapOpt, genTys, Option.bind_eq_some_iff, Option.map_eq_some_iff] at hw hu
    obtain ⟨w, e1, ws, e2, rfl⟩ := hw
    obtain ⟨U, e3, us, e4, rfl⟩ := hu
    by_cases he : v = s
    · subst he
      exact ⟨0, w, t, U, by simp [findTy], e3, e1, by simp, by simp⟩
    · obtain ⟨i, w', u', U', f1, f2, f3, f4, f5⟩ := findTy_gen (s := s) (by simpa using hl) e2 e4 (by simpa [Ne.symm he] using hs)
      exact ⟨i + 1, w', u', U', by simp [findTy, he, f1], f2, f3, by simpa using f4, by simpa using f5⟩

theorem findTy_zip_none {s} : ∀ {vars : List Symbol} {inst : List IrTy}, s ∉ vars → findTy (vars.zip inst) s = none
  | [], _, _ => rfl
  | v :: vars, [], _ => rfl
  | v :: vars, t :: inst, h => by
    simp only [List.mem_cons, not_or] at h
    simp only [List.zip_cons_cons, findTy, if_neg (fun e : v = s => h.1 e.symm)]
    exact findTy_zip_none h.2

/-- A generated type with its variables replaced is the generated instance. -/
theorem inst_ty {Δ : List TypeDecl} {vs vars : List Symbol} {h g : Gen} {ws us inst t T} (hp : Plain t) (hw : WfTy Δ (vars ++ vs) t) (ho : Older Δ vs h g)
    (hx : ∀ x ∈ vars, x ∉ vs ∧ declOf Δ x = none) (hv : ∀ x ∈ vs, declOf Δ x = none) (hws : mapOpt h.tyVars vars = some ws) (hus : genTys g inst = some us) (hl : inst.length = vars.length)
    (hn : ws.Nodup) (ha : ∀ u ∈ us, ∀ w ∈ ws, w ∉ tfv u) (hb : ∀ v ∈ vs, ∀ w, g.tyVars v = some w → w ∉ ws) (ht : genTy h t = some T) :
    genTy g (substTy (vars.zip inst) t) = some (replaceAll ws us T) := by
  have hm := genTys_mono0 hus
  have hm' : ∀ u ∈ us, Mono0 u := by
    clear ha hus
    induction us with
    | nil => simp
    | cons u us ih =>
      simp only [Mono0L] at hm
      intro x hx
      rcases List.mem_cons.mp hx with rfl | hx
      · exact hm.1
      · exact ih hm.2 x hx
  have hσ : ∀ s u, findTy (vars.zip inst) s = some u → declOf Δ s = none ∧ (genTy g u).isSome := by
    intro s u hu
    have hs : s ∈ vars := by
      apply Classical.byContradiction
      intro hs
      rw [findTy_zip_none hs] at hu; cases hu
    obtain ⟨i, w, u', U, f1, f2, -⟩ := findTy_gen hl hws hus hs
    rw [hu] at f1; cases f1
    exact ⟨(hx s hs).2, by simp [f2]⟩
  rw [genTy_subst g _ hσ hp hw]
  rw [genTy_tyIn h hp] at ht
  rw [← tyIn_replaceAll ws us ht]
  refine tyIn_congr (Δ := Δ) (vs := vars ++ vs) ?_ ?_ hw
  · intro s hs
    by_cases hsv : s ∈ vars
    · obtain ⟨i, w, u', U, f1, f2, f3, f4, f5⟩ := findTy_gen hl hws hus hsv
      simp only [f1, f2, f3, Option.map_some, Option.isSome_some, and_true]
      rw [replaceAll_get hn (fun u hu => ⟨hm' u hu, ha u hu⟩) f4 f5]
    · have hs := (List.mem_append.mp hs).resolve_left hsv
      obtain ⟨e1, e2⟩ := ho.ty s hs
      obtain ⟨w, hw'⟩ := Option.isSome_iff_exists.mp e2
      simp only [findTy_zip_none hsv, e1, hw', Option.map_some, Option.isSome_some, and_true]
      rw [replaceAll_varNotMem (hb s hs w hw')]
  · intro s d hd
    obtain ⟨e1, e2, e3, -⟩ := ho.decl s d hd
    refine ⟨e3.symm, fun _ => ?_⟩
    have : s ∉ vars := fun hs => by rw [(hx s hs).2] at hd; cases hd
    simp only [findTy_zip_none this, e1, e2, Option.map_none]

end Tic.Front
