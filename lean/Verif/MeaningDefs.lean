import Verif.MeaningApply
import Verif.GenTypes
/-
The definitions of constructors and built-in functions stand for what they mean.
-/
namespace Tic.Front
open Tic.Unify (Symbol IrTy)
open Tic.Core

mutual
theorem Ex.map_map {α β γ : Type} (f : α → β) (g : β → γ) : ∀ e : Ex α, (e.map f).map g = e.map (fun x => g (f x))
  | .name .. => by simp only [Ex.map, List.map_map, Function.comp_def]
  | .bool _ | .number _ | .str _ | .hole .. => by simp only [Ex.map]
  | .apply h a => by simp only [Ex.map, Ex.map_map f g h, Ex.map_map f g a]
  | .binary _ l r => by simp only [Ex.map, Ex.map_map f g l, Ex.map_map f g r]
  | .pipe l r => by simp only [Ex.map, Ex.map_map f g l, Ex.map_map f g r]
  | .let_ _ _ _ _ v r => by simp only [Ex.map, Ex.map_map f g v, Ex.map_map f g r]
  | .match_ d _ cs => by simp only [Ex.map, Ex.map_map f g d, casesMap_map f g cs]
  | .ite c t e => by simp only [Ex.map, Ex.map_map f g c, Ex.map_map f g t, Ex.map_map f g e]
  | .lambda _ _ _ _ b => by simp only [Ex.map, Ex.map_map f g b]
  | .paren e => by simp only [Ex.map, Ex.map_map f g e]
theorem casesMap_map {α β γ : Type} (f : α → β) (g : β → γ) : ∀ cs : List (Case α), casesMap g (casesMap f cs) = casesMap (fun x => g (f x)) cs
  | [] => rfl
  | .mk c vs b :: cs => by simp only [casesMap, Ex.map_map f g b, casesMap_map f g cs, List.map_map, Function.comp_def]
end

/-- Filling in unknown types does not change whether a function goes over a declared type. -/
theorem overData_fill (Δ : List TypeDecl) (t : IrTy) : overData Δ (fill t) = overData Δ t := by
  cases t with
  | fn a b => cases a <;> simp [fill, overData]
  | _ => simp [fill, overData]

theorem map_fill (Δ : List TypeDecl) (e : Ex IrTy) : (e.map fill).map (overData Δ) = e.map (overData Δ) := by
  rw [Ex.map_map]
  congr 1
  funext t
  exact overData_fill Δ t

/-- The definition of a constructor or a built-in function. -/
theorem post_head {M T} {h : Head} {ns : List Name} {tys : List Ty} {body : Expr} {vs : List TyVar} {ρ : Env} {n : Nat} {E : String → Prop}
    (hn : ns.Nodup) (hb : HeadBody M h ns body) (hl : tys.length = ns.length) :
    Post (eval n ρ (pis vs (lams (ns.zip tys) body))) (fun v => Rel M T h.value v) E := by
  refine post_pis fun j _ => ?_
  cases j with
  | zero => trivial
  | succ j =>
  match ns, tys, hl with
  | [], [], _ =>
    cases hb with
    | @ctor c k m tys _ hr hk =>
      simp only [List.length_nil] at hk
      subst hk
      simp only [List.zip_nil_left, lams, List.foldr_nil, List.map_nil]
      rw [eval_con]
      simp only [evalList, Res.bind_ok, List.length_nil, Nat.zero_le, if_true]
      exact Rel.comp hr rfl (by simp)
    | @intr b i _ hi hk => cases b <;> simp [Head.arity] at hk
  | x :: ns, t :: tys, hl =>
    show Post (.ok (Val.clo ρ [x] (lams (ns.zip tys) body))) _ _
    have hv : h.value = .part h [] := by
      have hlen := hb.length
      cases h with
      | ctor c k =>
        cases k with
        | zero => simp [Head.arity] at hlen
        | succ k => rfl
      | builtin b => rfl
    rw [hv]
    have hz : (ns.zip tys).map (·.1) = ns := List.map_fst_zip (by simpa using Nat.le_of_eq hl.symm)
    show Rel M T (.part h []) (.clo ρ [x] (lams (ns.zip tys) body))
    exact Rel.part (pre := []) (ps := ns.zip tys) (v := fun _ => .int 0) (by simpa [hz] using hn) (by simpa [hz] using hb) rfl (by simp) (by simp)

theorem freshes_spec : ∀ (k : Nat) (g : Gen), (g.freshes k).2.length = k ∧ (g.freshes k).2.Nodup := by
  intro k g
  rw [freshes_range]
  exact ⟨by simp, List.nodup_range'⟩

/-- The built-in functions. -/
theorem post_builtin {M T} (g : Gen) (b : Builtin) {ρ : Env} {n : Nat} {E : String → Prop} :
    Post (eval n ρ (genBuiltin g b).2) (fun v => Rel M T (Head.builtin b).value v) E := by
  cases b
  case iterate =>
    exact post_head (vs := [g.tys]) (ns := [g.names, g.names + 1, g.names + 2]) (tys := [.int, .fn [.var g.tys] (.var g.tys), .var g.tys])
      (by simp) (HeadBody.iterate (a := g.tys)) rfl
  all_goals
    exact post_head (vs := []) (freshes_spec _ g).2 (HeadBody.intr rfl (freshes_spec _ g).1) (freshes_spec _ g).1.symm

/-- The definitions of the constructors of a type. -/
theorem ctors_sim {M T} {n : Nat} : ∀ {b cs ns ds} {ρ : Env}, CtorDefs b cs ns ds → (∀ p ∈ (cs.map (·.1)).zip ns, M.reg p.1 = some p.2) →
    Post (evalDefs n ds ρ) (fun ρ' => (∀ k, k < b → lookup k ρ' = lookup k ρ) ∧
      ∀ (i : Nat) c e, cs[i]? = some c → ds[i]? = some e → ∃ v, lookup e.name ρ' = .ok v ∧ Rel M T (Head.ctor c.1 c.2.length).value v) (fun _ => False) := by
  intro b cs ns ds ρ h
  induction h generalizing ρ with
  | nil => intro _; exact ⟨fun _ _ => rfl, by simp⟩
  | @cons b c n' cs ns ds e tvs ps ts tys h1 h2 h3 h4 h5 _ ih =>
    intro hr
    simp only [evalDefs]
    refine Post.bind ?_
    rw [h2]
    refine (post_head (M := M) (T := T) (h := .ctor c.1 c.2.length) h3 (.ctor (.inl (hr (c.1, n') (by simp))) h4) (by rw [h4, h5])).mono (fun v hv => ?_) fun _ h => h
    refine (ih (ρ := (e.name, v) :: ρ) fun p hp => hr p (by simp only [List.map_cons, List.zip_cons_cons]; exact List.mem_cons_of_mem _ hp)).mono ?_ fun _ h => h
    rintro ρ' ⟨k1, k2⟩
    refine ⟨fun k hk => ?_, fun i c' e' hc he => ?_⟩
    · rw [k1 k (Nat.lt_succ_of_lt (Nat.lt_of_lt_of_le hk h1))]
      have : e.name ≠ k := fun e' => absurd (Nat.lt_of_lt_of_le hk h1) (by rw [e']; exact Nat.lt_irrefl _)
      simp only [lookup, if_neg this]
    · cases i with
      | zero =>
        simp only [List.getElem?_cons_zero, Option.some.injEq] at hc he
        subst hc; subst he
        exact ⟨v, by rw [k1 _ (Nat.lt_succ_self _)]; simp [lookup], hv⟩
      | succ i => exact k2 i c' e' (by simpa using hc) (by simpa using he)

/-! ### The values of constructors by name -/

theorem SEnv.find_append {σ σ' : SEnv} {s} : SEnv.find (σ ++ σ') s = (SEnv.find σ s).orElse fun _ => SEnv.find σ' s := by
  induction σ with
  | nil => rfl
  | cons p σ ih =>
    obtain ⟨k, v⟩ := p
    simp only [List.cons_append, SEnv.find]
    split
    · rfl
    · exact ih

theorem SEnv.find_none {σ : SEnv} {s} (h : s ∉ σ.map (·.1)) : SEnv.find σ s = none := by
  induction σ with
  | nil => rfl
  | cons p σ ih =>
    obtain ⟨k, v⟩ := p
    simp only [List.map_cons, List.mem_cons, not_or] at h
    simp only [SEnv.find]
    exact (if_neg fun e => h.1 e.symm).trans (ih h.2)

theorem SEnv.find_mem {σ : SEnv} {s v} (hn : (σ.map (·.1)).Nodup) (h : (s, v) ∈ σ) : SEnv.find σ s = some v := by
  induction σ with
  | nil => cases h
  | cons p σ ih =>
    obtain ⟨k, u⟩ := p
    simp only [List.map_cons, List.nodup_cons] at hn
    simp only [SEnv.find]
    rcases List.mem_cons.mp h with h | h
    · cases h; exact if_pos rfl
    · exact (if_neg fun (e : k = s) => hn.1 (e ▸ List.mem_map_of_mem (f := (·.1)) h)).trans (ih hn.2 h)

theorem ctorEnv_find {d : TypeDecl} (hn : (d.ctors.map (·.1)).Nodup) {c} (hc : c ∈ d.ctors) :
    SEnv.find (ctorEnv d) c.1 = some (Head.ctor c.1 c.2.length).value := by
  refine SEnv.find_mem ?_ ?_
  · have : (ctorEnv d).map (·.1) = (d.ctors.map (·.1)).reverse := by simp [ctorEnv, List.map_reverse, Function.comp_def]
    rw [this]
    exact (List.reverse_perm _).nodup_iff.mpr hn
  · simp only [ctorEnv, List.mem_reverse, List.mem_map]
    exact ⟨c, hc, rfl⟩

theorem ctorEnv_none {d : TypeDecl} {s} (h : s ∉ d.ctors.map (·.1)) : SEnv.find (ctorEnv d) s = none := by
  refine SEnv.find_none ?_
  simpa [ctorEnv, List.map_reverse, Function.comp_def] using h

end Tic.Front
