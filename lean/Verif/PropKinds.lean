/-
C32: instantiating type schemes, and turning inferred types back into types without a panic.
Models `ticc/src/compiler/kindck.rs` as far as it cleans types.
-/
import Verif.PropUnify

namespace Tic.Unify

/-! ### What an instance of a type is -/

mutual
/-- `t` is an instance of the type `ty`: the type variables stand for `ρ`, each unknown part of
`ty` for anything. -/
inductive InstTy (ρ : Symbol → Option Term) : IrTy → Term → Prop
  | int : InstTy ρ .int .int
  | bool : InstTy ρ .bool .bool
  | str : InstTy ρ .str .str
  | error : InstTy ρ .error .error
  | infer (t) : InstTy ρ .infer t
  | fn {a b s t} : InstTy ρ a s → InstTy ρ b t → InstTy ρ (.fn a b) (.fn s t)
  | folded {a b s t} : InstTy ρ a s → InstTy ρ b t → InstTy ρ (.folded a b) (.folded s t)
  | named {s args t} : InstArgs ρ ((ρ s).getD (.named s)) args t → InstTy ρ (.named s args) t
/-- `t` is `head` applied to instances of the arguments. -/
inductive InstArgs (ρ : Symbol → Option Term) : Term → List IrTy → Term → Prop
  | nil {h} : InstArgs ρ h [] h
  | cons {h a as s t} : InstTy ρ a s → InstArgs ρ (.apply h s) as t → InstArgs ρ h (a :: as) t
end

/-- What the variables stand for. -/
def varsUnder (vars : List (Symbol × Nat)) (θ : Nat → Term) (s : Symbol) : Option Term := (findVar vars s).map θ

/-- What an operation that only adds types guarantees. -/
structure Grows (u u' : Unifier) : Prop where
  reach : Reachable u'
  len : u.slots.length ≤ u'.slots.length
  get : ∀ i, i < u.slots.length → u'.get i = u.get i

theorem Grows.refl {u : Unifier} (h : Reachable u) : Grows u u := ⟨h, Nat.le_refl _, fun _ _ => rfl⟩

theorem Grows.trans {a b c : Unifier} (h : Grows a b) (h' : Grows b c) : Grows a c :=
  ⟨h'.reach, Nat.le_trans h.len h'.len, fun i hi => by rw [h'.get i (Nat.lt_of_lt_of_le hi h.len), h.get i hi]⟩

theorem Grows.sat {u u' : Unifier} (hu : Reachable u) (h : Grows u u') {θ} (hθ : Sat u' θ) : Sat u θ := by
  intro i
  cases hg : u.get i with
  | none => trivial
  | some s =>
    have := hθ i
    rw [h.get i ((reachable_wf hu).1.lt hg), hg] at this
    exact this

theorem grows_alloc {u : Unifier} (hu : Reachable u) {t} (ht : ∀ j ∈ Ty.refs t, j < u.slots.length) :
    Grows u (u.allocate t).1 ∧ (u.allocate t).2 < (u.allocate t).1.slots.length ∧
      (u.allocate t).1.get (u.allocate t).2 = some (.ty t) := by
  have hp := (reachable_wf hu).2
  refine ⟨⟨.alloc hu ht, by simp [Unifier.allocate], fun i hi => ?_⟩, by simp [Unifier.allocate], ?_⟩
  · simp only [Unifier.allocate]; rw [get_push hp, if_neg (by omega)]
  · simp only [Unifier.allocate]; rw [get_push hp, if_pos rfl]

theorem grows_fresh {u : Unifier} (hu : Reachable u) :
    Grows u u.freshVar.1 ∧ u.freshVar.2 < u.freshVar.1.slots.length ∧ u.freshVar.1.get u.freshVar.2 = some .infer := by
  have hp := (reachable_wf hu).2
  refine ⟨⟨.fresh hu, by simp [Unifier.freshVar], fun i hi => ?_⟩, by simp [Unifier.freshVar], ?_⟩
  · simp only [Unifier.freshVar]; rw [get_push hp, if_neg (by omega)]
  · simp only [Unifier.freshVar]; rw [get_push hp, if_pos rfl]

theorem sat_get_ty {u : Unifier} {θ i t} (hθ : Sat u θ) (hg : u.get i = some (.ty t)) : θ i = t.under θ := by
  have := hθ i; simpa only [hg] using this

theorem findVar_mem {vars : List (Symbol × Nat)} {s i} (h : findVar vars s = some i) : (s, i) ∈ vars := by
  induction vars with
  | nil => simp [findVar] at h
  | cons p vs ih =>
    obtain ⟨v, j⟩ := p
    simp only [findVar] at h
    split at h
    · rename_i hv; cases h; subst hv; simp
    · exact List.mem_cons_of_mem _ (ih h)

theorem lt_of_vars {u u' : Unifier} (h : Grows u u') {vars : List (Symbol × Nat)} (hv : ∀ p ∈ vars, p.2 < u.slots.length) :
    ∀ p ∈ vars, p.2 < u'.slots.length := fun p hp => Nat.lt_of_lt_of_le (hv p hp) h.len

mutual
/-- Instantiating a type only adds types, and the result stands for instances of it. -/
theorem instantiate_spec (vars : List (Symbol × Nat)) : ∀ (ty : IrTy) (u : Unifier), Reachable u → (∀ p ∈ vars, p.2 < u.slots.length) →
    Grows u (instantiate vars ty u).1 ∧ (instantiate vars ty u).2 < (instantiate vars ty u).1.slots.length ∧
      ∀ θ, Sat (instantiate vars ty u).1 θ → InstTy (varsUnder vars θ) ty (θ (instantiate vars ty u).2)
  | .int, u, hu, _ => by
    have := grows_alloc hu (t := .int) (by simp [Ty.refs])
    exact ⟨this.1, this.2.1, fun θ hθ => by simp only [instantiate]; rw [sat_get_ty hθ this.2.2]; exact .int⟩
  | .bool, u, hu, _ => by
    have := grows_alloc hu (t := .bool) (by simp [Ty.refs])
    exact ⟨this.1, this.2.1, fun θ hθ => by simp only [instantiate]; rw [sat_get_ty hθ this.2.2]; exact .bool⟩
  | .str, u, hu, _ => by
    have := grows_alloc hu (t := .str) (by simp [Ty.refs])
    exact ⟨this.1, this.2.1, fun θ hθ => by simp only [instantiate]; rw [sat_get_ty hθ this.2.2]; exact .str⟩
  | .error, u, hu, _ => by
    have := grows_alloc hu (t := .error) (by simp [Ty.refs])
    exact ⟨this.1, this.2.1, fun θ hθ => by simp only [instantiate]; rw [sat_get_ty hθ this.2.2]; exact .error⟩
  | .infer, u, hu, _ => by
    have := grows_fresh hu
    exact ⟨this.1, this.2.1, fun θ hθ => .infer _⟩
  | .fn a b, u, hu, hv => by
    have ha := instantiate_spec vars a u hu hv
    have hb := instantiate_spec vars b _ ha.1.reach (lt_of_vars ha.1 hv)
    have hal : (instantiate vars a u).2 < (instantiate vars b (instantiate vars a u).1).1.slots.length := Nat.lt_of_lt_of_le ha.2.1 hb.1.len
    have hc := grows_alloc hb.1.reach (t := .fn (instantiate vars a u).2 (instantiate vars b (instantiate vars a u).1).2)
      (by simp [Ty.refs, hal, hb.2.1])
    refine ⟨(ha.1.trans hb.1).trans hc.1, hc.2.1, fun θ hθ => ?_⟩
    have hb' := hc.1.sat hb.1.reach hθ
    have ha' := hb.1.sat ha.1.reach hb'
    simp only [instantiate] at hθ ⊢
    rw [sat_get_ty hθ hc.2.2]
    exact .fn (ha.2.2 θ ha') (hb.2.2 θ hb')
  | .folded a b, u, hu, hv => by
    have ha := instantiate_spec vars a u hu hv
    have hb := instantiate_spec vars b _ ha.1.reach (lt_of_vars ha.1 hv)
    have hal : (instantiate vars a u).2 < (instantiate vars b (instantiate vars a u).1).1.slots.length := Nat.lt_of_lt_of_le ha.2.1 hb.1.len
    have hc := grows_alloc hb.1.reach (t := .folded (instantiate vars a u).2 (instantiate vars b (instantiate vars a u).1).2)
      (by simp [Ty.refs, hal, hb.2.1])
    refine ⟨(ha.1.trans hb.1).trans hc.1, hc.2.1, fun θ hθ => ?_⟩
    have hb' := hc.1.sat hb.1.reach hθ
    have ha' := hb.1.sat ha.1.reach hb'
    simp only [instantiate] at hθ ⊢
    rw [sat_get_ty hθ hc.2.2]
    exact .folded (ha.2.2 θ ha') (hb.2.2 θ hb')
  | .named s args, u, hu, hv => by
    simp only [instantiate]
    cases hf : findVar vars s with
    | some i =>
      have := instArgs_spec vars args i u hu hv (hv _ (findVar_mem hf))
      refine ⟨this.1, this.2.1, fun θ hθ => .named ?_⟩
      simpa [varsUnder, hf] using this.2.2 θ hθ
    | none =>
      have h1 := grows_alloc hu (t := .named s) (by simp [Ty.refs])
      have := instArgs_spec vars args _ _ h1.1.reach (lt_of_vars h1.1 hv) h1.2.1
      refine ⟨h1.1.trans this.1, this.2.1, fun θ hθ => .named ?_⟩
      have hh := this.2.2 θ hθ
      rw [sat_get_ty (this.1.sat h1.1.reach hθ) h1.2.2] at hh
      simpa [varsUnder, hf, Ty.under] using hh
theorem instArgs_spec (vars : List (Symbol × Nat)) : ∀ (args : List IrTy) (i : Nat) (u : Unifier), Reachable u →
    (∀ p ∈ vars, p.2 < u.slots.length) → i < u.slots.length →
    Grows u (instArgs vars args i u).1 ∧ (instArgs vars args i u).2 < (instArgs vars args i u).1.slots.length ∧
      ∀ θ, Sat (instArgs vars args i u).1 θ → InstArgs (varsUnder vars θ) (θ i) args (θ (instArgs vars args i u).2)
  | [], i, u, hu, _, hi => ⟨.refl hu, hi, fun θ _ => .nil⟩
  | a :: as, i, u, hu, hv, hi => by
    have ha := instantiate_spec vars a u hu hv
    have hc := grows_alloc ha.1.reach (t := .apply i (instantiate vars a u).2)
      (by simp [Ty.refs, ha.2.1, Nat.lt_of_lt_of_le hi ha.1.len])
    have := instArgs_spec vars as _ _ hc.1.reach (lt_of_vars (ha.1.trans hc.1) hv) hc.2.1
    refine ⟨(ha.1.trans hc.1).trans this.1, this.2.1, fun θ hθ => ?_⟩
    have hc' := this.1.sat hc.1.reach hθ
    have ha' := hc.1.sat ha.1.reach hc'
    have hh := this.2.2 θ hθ
    rw [sat_get_ty hc' hc.2.2] at hh
    exact .cons (ha.2.2 θ ha') hh
end

/-! ### Kinds -/

/-- Every application in the unifier is of a named type (or of such an application). -/
def Kinded (u : Unifier) : Prop :=
  ∀ i a b, u.get i = some (.ty (.apply a b)) → (∃ s, u.get a = some (.ty (.named s))) ∨ (∃ c d, u.get a = some (.ty (.apply c d)))

/-- A tree whose applications are all of named types. -/
def Term.Kinded : Term → Prop
  | .apply a b => ((∃ s, a = .named s) ∨ (∃ c d, a = .apply c d)) ∧ a.Kinded ∧ b.Kinded
  | .fn a b => a.Kinded ∧ b.Kinded
  | .folded a b => a.Kinded ∧ b.Kinded
  | _ => True

theorem Term.Kinded.ir : ∀ {t : Term}, t.Kinded → (∃ r, t.ir = some r) ∧
    ((∃ s, t = .named s) ∨ (∃ c d, t = .apply c d) → ∃ s xs, t.ir = some (.named s xs))
  | .var _, _ => ⟨⟨_, rfl⟩, by simp⟩
  | .bool, _ => ⟨⟨_, rfl⟩, by simp⟩
  | .int, _ => ⟨⟨_, rfl⟩, by simp⟩
  | .str, _ => ⟨⟨_, rfl⟩, by simp⟩
  | .error, _ => ⟨⟨_, rfl⟩, by simp⟩
  | .named s, _ => ⟨⟨_, rfl⟩, fun _ => ⟨_, _, rfl⟩⟩
  | .fn a b, h => by
    obtain ⟨ra, ha⟩ := (Term.Kinded.ir h.1).1
    obtain ⟨rb, hb⟩ := (Term.Kinded.ir h.2).1
    exact ⟨⟨_, by simp only [Term.ir, ha, hb]; rfl⟩, by simp⟩
  | .folded a b, h => by
    obtain ⟨ra, ha⟩ := (Term.Kinded.ir h.1).1
    obtain ⟨rb, hb⟩ := (Term.Kinded.ir h.2).1
    exact ⟨⟨_, by simp only [Term.ir, ha, hb]; rfl⟩, by simp⟩
  | .apply a b, h => by
    obtain ⟨s, xs, ha⟩ := (Term.Kinded.ir h.2.1).2 h.1
    obtain ⟨rb, hb⟩ := (Term.Kinded.ir h.2.2).1
    have : (Term.apply a b).ir = some (.named s (xs ++ [rb])) := by simp only [Term.ir, ha, hb]; rfl
    exact ⟨⟨_, this⟩, fun _ => ⟨_, _, this⟩⟩

theorem Kinded.denotes {u : Unifier} (hk : Kinded u) {i t} (h : Denotes u i t) : t.Kinded := by
  induction h with
  | next _ _ ih => exact ih
  | fn _ _ _ iha ihb => exact ⟨iha, ihb⟩
  | folded _ _ _ iha ihb => exact ⟨iha, ihb⟩
  | @apply i a b s t hg ha hb iha ihb =>
    refine ⟨?_, iha, ihb⟩
    rcases hk i a b hg with ⟨s', hs⟩ | ⟨c, d, hs⟩
    · exact .inl ⟨s', ha.det (.named hs)⟩
    · right
      cases ha <;> simp_all
  | _ => trivial

/-- The histories in which only named types are applied. -/
inductive KReachable : Unifier → Prop
  | init : KReachable {}
  | fresh {u} : KReachable u → KReachable u.freshVar.1
  | alloc {u t} : KReachable u → (∀ j ∈ Ty.refs t, j < u.slots.length) →
      (∀ a b, t = .apply a b → (∃ s, u.get a = some (.ty (.named s))) ∨ (∃ c d, u.get a = some (.ty (.apply c d)))) →
      KReachable (u.allocate t).1
  | unify {u u' n a b ok} : KReachable u → a < u.slots.length → b < u.slots.length →
      unifyTop n u a b = some (u', ok) → KReachable u'
  | taint {u u' n a} : KReachable u → a < u.slots.length → Tic.Unify.taint n u a = some u' → KReachable u'

theorem KReachable.reach {u : Unifier} (h : KReachable u) : Reachable u := by
  induction h with
  | init => exact .init
  | fresh _ ih => exact .fresh ih
  | alloc _ h _ ih => exact .alloc ih h
  | unify _ ha hb h ih => exact .unify ih ha hb h
  | taint _ ha h ih => exact .taint ih ha h

/-- Everything a run of `unify` writes is a link. -/
theorem unify_ty {n u a b u' ok} (hw : WF u) (ha : a < u.slots.length) (hb : b < u.slots.length)
    (h : unify n u a b = some (u', ok)) : ∀ i t, u'.get i = some (.ty t) ↔ u.get i = some (.ty t) := by
  induction n generalizing u a b u' ok with
  | zero => simp [Tic.Unify.unify] at h
  | succ n ih =>
    simp only [Tic.Unify.unify, Option.bind_eq_some_iff] at h
    obtain ⟨f1, hf1, f2, hf2, h⟩ := h
    have F1 := finalIdx_spec hf1
    have F2 := finalIdx_spec hf2
    obtain ⟨r, hr⟩ := hw.rank
    have bnd : ∀ {f g}, u.get f = some .infer → ∀ i t, (u.bind f g).get i = some (.ty t) ↔ u.get i = some (.ty t) := by
      intro f g hf i t
      rw [get_bind]
      by_cases hi : i = f
      · subst hi; simp [hf]
      · simp [hi]
    split at h
    · cases h; exact fun _ _ => Iff.rfl
    · simp only [Option.bind_eq_some_iff] at h
      obtain ⟨n1, hn1, n2, hn2, h⟩ := h
      have N1 := normalize_spec F1.fin hn1
      have N2 := normalize_spec F2.fin hn2
      cases n1 with
      | none =>
        simp only [Option.bind_eq_some_iff] at h N1
        obtain ⟨o, -, h⟩ := h
        cases o with
        | false => cases h; exact bnd N1
        | true =>
          cases n2 with
          | some t => cases h; exact fun _ _ => Iff.rfl
          | none =>
            simp only [Bool.true_eq_false, if_false, Option.bind_eq_some_iff] at h N2
            obtain ⟨o, -, h⟩ := h
            cases o with
            | false => cases h; exact bnd N2
            | true => cases h; exact fun _ _ => Iff.rfl
      | some x =>
        cases n2 with
        | none =>
          simp only [Option.bind_eq_some_iff] at h N2
          obtain ⟨o, -, h⟩ := h
          cases o with
          | false => cases h; exact bnd N2
          | true => cases h; exact fun _ _ => Iff.rfl
        | some y =>
          simp only at h N1 N2
          cases hps : unifyTys x y with
          | none => simp only [hps] at h; cases h; exact fun _ _ => Iff.rfl
          | some ps =>
            simp only [hps] at h
            have p1 := (unifyTys_some hps).1
            have hb : ∀ p ∈ ps, p.1 < u.slots.length ∧ p.2 < u.slots.length := fun p hp =>
              ⟨(hr f1 _ (by simpa [Unifier.refs, N1] using (p1 p hp).1)).1, (hr f2 _ (by simpa [Unifier.refs, N2] using (p1 p hp).2)).1⟩
            clear p1 hps N1 N2 bnd F1 F2 hf1 hf2 hn1 hn2 hr
            induction ps generalizing u u' ok with
            | nil => simp only [unifyAll] at h; cases h; exact fun _ _ => Iff.rfl
            | cons p ps ihp =>
              simp only [unifyAll, Option.bind_eq_some_iff] at h
              obtain ⟨⟨u1, ok1⟩, h1, h⟩ := h
              have hp := hb p (by simp)
              have o1 := unify_spec hw hp.1 hp.2 h1
              have e1 := ih hw hp.1 hp.2 h1
              cases ok1 with
              | false => cases h; exact e1
              | true =>
                simp only [if_true] at h
                have e2 := ihp o1.wf (by rw [o1.slots]; exact ha) (by rw [o1.slots]; omega) h
                  (fun q hq => by rw [o1.slots]; exact hb q (by simp [hq]))
                exact fun i t => (e2 i t).trans (e1 i t)

/-- In such histories only named types are applied. -/
theorem kinded_reachable {u : Unifier} (h : KReachable u) : Kinded u := by
  induction h with
  | init => intro i a b h; simp [Unifier.get, pend] at h
  | @fresh u hu ih =>
    have hw := (reachable_wf hu.reach).1
    have hp := (reachable_wf hu.reach).2
    intro i a b h
    simp only [Unifier.freshVar] at h ⊢
    simp only [get_push hp] at h ⊢
    by_cases hi : i = u.slots.length
    · simp [hi] at h
    · rw [if_neg hi] at h
      obtain ⟨r, hr⟩ := hw.rank
      have ha : a ≠ u.slots.length := Nat.ne_of_lt (hr i a (by simp [Unifier.refs, h, Ty.refs])).1
      simpa [ha] using ih i a b h
  | @alloc u t hu ht hk ih =>
    have hw := (reachable_wf hu.reach).1
    have hp := (reachable_wf hu.reach).2
    intro i a b h
    simp only [Unifier.allocate] at h ⊢
    simp only [get_push hp] at h ⊢
    by_cases hi : i = u.slots.length
    · simp only [hi, if_true, Option.some.injEq, Slot.ty.injEq] at h
      have ha : a ≠ u.slots.length := Nat.ne_of_lt (ht a (by simp [h, Ty.refs]))
      simpa [ha] using hk a b h
    · rw [if_neg hi] at h
      obtain ⟨r, hr⟩ := hw.rank
      have ha : a ≠ u.slots.length := Nat.ne_of_lt (hr i a (by simp [Unifier.refs, h, Ty.refs])).1
      simpa [ha] using ih i a b h
  | @unify u u' n a b ok hu ha hb h ih =>
    have hw := (reachable_wf hu.reach).1
    have key : ∀ i t, u'.get i = some (.ty t) ↔ u.get i = some (.ty t) := by
      obtain ⟨u1, h1, rfl⟩ := unifyTop_cases h
      have o := unify_spec hw ha hb h1
      cases ok with
      | true =>
        intro i t
        simp only [if_true, get_commit o.wf]
        exact unify_ty hw ha hb h1 i t
      | false =>
        have := unify_failure_no_trace hu.reach ha hb h
        intro i t
        rw [this]
    intro i x y hg
    rw [key] at hg
    simpa only [key] using ih i x y hg
  | @taint u u' n a hu ha h ih =>
    have hw := (reachable_wf hu.reach).1
    have hp := (reachable_wf hu.reach).2
    obtain ⟨f, hf, hfl, ⟨hg, rfl⟩ | ⟨-, rfl⟩⟩ := taint_spec hw hp ha h
    · intro i x y hi
      simp only [get_set hp hfl] at hi ⊢
      by_cases he : i = f
      · simp [he] at hi
      · rw [if_neg he] at hi
        rcases ih i x y hi with ⟨s, hs⟩ | ⟨c, d, hs⟩
        · exact .inl ⟨s, by rw [if_neg (fun hx => by subst hx; rw [hg] at hs; cases hs)]; exact hs⟩
        · exact .inr ⟨c, d, by rw [if_neg (fun hx => by subst hx; rw [hg] at hs; cases hs)]; exact hs⟩
    · exact ih

/-- `to_ir` never panics and always terminates, in every history in which only named types are
applied. -/
theorem toIr_never_panics {u : Unifier} (hu : KReachable u) {i} (hi : i < u.slots.length) :
    ∃ n r, ∀ m, n ≤ m → toIr m u i = some (some r) := by
  obtain ⟨t, ht, -⟩ := denotes_total hu.reach hi
  obtain ⟨n, hn⟩ := toIr_denotes ht
  obtain ⟨r, hr⟩ := ((kinded_reachable hu).denotes ht).ir.1
  exact ⟨n, r, fun m hm => by rw [hn m hm, hr]⟩

/-! ### Kind checking makes instantiation safe -/

mutual
/-- `check_ty`, `kindck.rs:29-55`; `count` is the number of parameters of a named type. -/
def checkTy (count : Symbol → Nat) : IrTy → IrTy
  | .named s ts => if (checkTys count ts).length = count s then .named s (checkTys count ts) else .error
  | .fn a b => .fn (checkTy count a) (checkTy count b)
  | .folded a b => .folded (checkTy count a) (checkTy count b)
  | t => t
def checkTys (count : Symbol → Nat) : List IrTy → List IrTy
  | [] => []
  | t :: ts => checkTy count t :: checkTys count ts
end

mutual
/-- Every named type has as many arguments as it has parameters. -/
def WellKinded (count : Symbol → Nat) : IrTy → Prop
  | .named s ts => ts.length = count s ∧ WellKindeds count ts
  | .fn a b => WellKinded count a ∧ WellKinded count b
  | .folded a b => WellKinded count a ∧ WellKinded count b
  | _ => True
def WellKindeds (count : Symbol → Nat) : List IrTy → Prop
  | [] => True
  | t :: ts => WellKinded count t ∧ WellKindeds count ts
end

mutual
/-- Kind checking leaves only well-kinded types. -/
theorem checkTy_wellKinded (count : Symbol → Nat) : ∀ t, WellKinded count (checkTy count t)
  | .named s ts => by
    simp only [checkTy]
    split
    · rename_i h; exact ⟨h, checkTys_wellKinded count ts⟩
    · trivial
  | .fn a b => ⟨checkTy_wellKinded count a, checkTy_wellKinded count b⟩
  | .folded a b => ⟨checkTy_wellKinded count a, checkTy_wellKinded count b⟩
  | .int => trivial
  | .bool => trivial
  | .str => trivial
  | .error => trivial
  | .infer => trivial
theorem checkTys_wellKinded (count : Symbol → Nat) : ∀ ts, WellKindeds count (checkTys count ts)
  | [] => trivial
  | t :: ts => ⟨checkTy_wellKinded count t, checkTys_wellKinded count ts⟩
end

mutual
/-- ... and does not touch a type that already is. -/
theorem checkTy_id (count : Symbol → Nat) : ∀ t, WellKinded count t → checkTy count t = t
  | .named s ts, h => by simp only [checkTy, checkTys_id count ts h.2, if_pos h.1]
  | .fn a b, h => by simp only [checkTy, checkTy_id count a h.1, checkTy_id count b h.2]
  | .folded a b, h => by simp only [checkTy, checkTy_id count a h.1, checkTy_id count b h.2]
  | .int, _ => rfl
  | .bool, _ => rfl
  | .str, _ => rfl
  | .error, _ => rfl
  | .infer, _ => rfl
theorem checkTys_id (count : Symbol → Nat) : ∀ ts, WellKindeds count ts → checkTys count ts = ts
  | [], _ => rfl
  | t :: ts, h => by simp only [checkTys, checkTy_id count t h.1, checkTys_id count ts h.2]
end

mutual
/-- Instantiating a well-kinded type whose variables take no arguments keeps the history safe. -/
theorem instantiate_safe (count : Symbol → Nat) (vars : List (Symbol × Nat)) (h0 : ∀ p ∈ vars, count p.1 = 0) :
    ∀ (ty : IrTy) (u : Unifier), KReachable u → (∀ p ∈ vars, p.2 < u.slots.length) → WellKinded count ty →
      KReachable (instantiate vars ty u).1
  | .int, u, hu, _, _ => .alloc hu (by simp [Ty.refs]) (by simp)
  | .bool, u, hu, _, _ => .alloc hu (by simp [Ty.refs]) (by simp)
  | .str, u, hu, _, _ => .alloc hu (by simp [Ty.refs]) (by simp)
  | .error, u, hu, _, _ => .alloc hu (by simp [Ty.refs]) (by simp)
  | .infer, u, hu, _, _ => .fresh hu
  | .fn a b, u, hu, hv, hk => by
    have ha := instantiate_spec vars a u hu.reach hv
    have hb := instantiate_spec vars b _ ha.1.reach (lt_of_vars ha.1 hv)
    have ka := instantiate_safe count vars h0 a u hu hv hk.1
    have kb := instantiate_safe count vars h0 b _ ka (lt_of_vars ha.1 hv) hk.2
    exact .alloc kb (by simp [Ty.refs, Nat.lt_of_lt_of_le ha.2.1 hb.1.len, hb.2.1]) (by simp)
  | .folded a b, u, hu, hv, hk => by
    have ha := instantiate_spec vars a u hu.reach hv
    have hb := instantiate_spec vars b _ ha.1.reach (lt_of_vars ha.1 hv)
    have ka := instantiate_safe count vars h0 a u hu hv hk.1
    have kb := instantiate_safe count vars h0 b _ ka (lt_of_vars ha.1 hv) hk.2
    exact .alloc kb (by simp [Ty.refs, Nat.lt_of_lt_of_le ha.2.1 hb.1.len, hb.2.1]) (by simp)
  | .named s args, u, hu, hv, hk => by
    simp only [instantiate]
    cases hf : findVar vars s with
    | some i =>
      have : args = [] := List.length_eq_zero_iff.mp (hk.1.trans (h0 _ (findVar_mem hf)))
      subst this
      exact hu
    | none =>
      have h1 := grows_alloc hu.reach (t := .named s) (by simp [Ty.refs])
      exact instArgs_safe count vars h0 args _ _ (.alloc hu (by simp [Ty.refs]) (by simp)) (lt_of_vars h1.1 hv) h1.2.1
        (.inl ⟨s, h1.2.2⟩) hk.2
theorem instArgs_safe (count : Symbol → Nat) (vars : List (Symbol × Nat)) (h0 : ∀ p ∈ vars, count p.1 = 0) :
    ∀ (args : List IrTy) (i : Nat) (u : Unifier), KReachable u → (∀ p ∈ vars, p.2 < u.slots.length) → i < u.slots.length →
      ((∃ s, u.get i = some (.ty (.named s))) ∨ (∃ c d, u.get i = some (.ty (.apply c d)))) → WellKindeds count args →
      KReachable (instArgs vars args i u).1
  | [], i, u, hu, _, _, _, _ => hu
  | a :: as, i, u, hu, hv, hi, hh, hk => by
    have ha := instantiate_spec vars a u hu.reach hv
    have ka := instantiate_safe count vars h0 a u hu hv hk.1
    have hbd : ∀ j ∈ Ty.refs (.apply i (instantiate vars a u).2), j < (instantiate vars a u).1.slots.length := by
      simp [Ty.refs, ha.2.1, Nat.lt_of_lt_of_le hi ha.1.len]
    have hc := grows_alloc ha.1.reach hbd
    have kc : KReachable ((instantiate vars a u).1.allocate (.apply i (instantiate vars a u).2)).1 := by
      refine .alloc ka hbd fun x y hxy => ?_
      cases hxy
      rw [ha.1.get i hi]
      exact hh
    exact instArgs_safe count vars h0 as _ _ kc (lt_of_vars (ha.1.trans hc.1) hv) hc.2.1 (.inr ⟨_, _, hc.2.2⟩) hk.2
end

/-! ### A panic the code does have

`kind_check` cleans the fields of a constructor but not its function type (`fn_ty`, `resolve.rs:267-289`),
which is what `lookup_name`/`instantiate_name` instantiate.  For `type Box a = MkBox (a int)` the
type of `MkBox` applies the type variable `a`; reporting the mismatch of `MkBox 5` then panics. -/

/-- `(a int) -> Box a`, for `type Box a = MkBox (a int)`; `Box` is 0, `a` is 1. -/
def badCtorTy : IrTy := .fn (.named 1 [.int]) (.named 0 [.named 1 []])

/-- Instantiating that type as `instantiate_name` does (a fresh variable for `a`). -/
def badState : Unifier × Nat := instantiate [(1, 0)] badCtorTy ({} : Unifier).freshVar.1

theorem badState_reachable : Reachable badState.1 :=
  (instantiate_spec [(1, 0)] badCtorTy _ (.fresh .init) (by decide)).1.reach

/-- `to_ir` panics on it ("can only apply to named types"). -/
theorem toIr_panics_on_ill_kinded_constructor : toIr 9 badState.1 badState.2 = some none := rfl

/-! ### Non-vacuity -/

/-- `?0`, `?1`, `?0 -> ?1`, `int -> bool` are created, then the last two are unified. -/
def demo : Unifier :=
  { slots := [.infer, .infer, .ty (.fn 0 1), .ty .int, .ty .bool, .ty (.fn 3 4)] }

theorem demo_reachable : KReachable demo :=
  .alloc (u := { slots := [.infer, .infer, .ty (.fn 0 1), .ty .int, .ty .bool] }) (t := .fn 3 4)
    (.alloc (u := { slots := [.infer, .infer, .ty (.fn 0 1), .ty .int] }) (t := .bool)
      (.alloc (u := { slots := [.infer, .infer, .ty (.fn 0 1)] }) (t := .int)
        (.alloc (u := { slots := [.infer, .infer] }) (t := .fn 0 1) (.fresh (.fresh .init)) (by decide) (by simp))
        (by decide) (by simp)) (by decide) (by simp)) (by decide) (by simp)

/-- Unifying `?0 -> ?1` with `int -> bool` makes `?0` the type `int` and `?1` the type `bool`. -/
example : unifyTop 5 demo 2 5 = some ({ slots := [.next 3, .next 4, .ty (.fn 0 1), .ty .int, .ty .bool, .ty (.fn 3 4)] }, true) := rfl

/-- Unifying `?0` with `?0 -> ?1` fails and changes nothing. -/
example : unifyTop 5 demo 0 2 = some (demo, false) := rfl

/-- Unifying `int` with `bool` fails. -/
example : unifyTop 5 demo 3 4 = some (demo, false) := rfl

example : toIr 5 demo 5 = some (some (.fn .int .bool)) := rfl

end Tic.Unify
