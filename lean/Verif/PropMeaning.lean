import Verif.GenChecked
/-
C39: the generated program computes what the source program means.
-/
namespace Tic.Front
open Tic.Unify (Symbol IrTy)
open Tic.Core

/-- What one observes of a core value is what the source value is: the same number, boolean or
string; the core constructor that stands for the source constructor, with fields that are again the
same; and a function for a function. -/
inductive Shows (R : Symbol → Option Name) : SVal → Obs → Prop
  | int {x} : Shows R (.int x) (.int x)
  | bool {x} : Shows R (.bool x) (.bool x)
  | str {x} : Shows R (.str x) (.str x)
  | comp {c n Vs os} : R c = some n → Vs.length = os.length → (∀ (i : Nat) V o, Vs[i]? = some V → os[i]? = some o → Shows R V o) → Shows R (.comp c Vs) (.comp n os)
  | fn {σ p body} : Shows R (.fn σ p body) .fn
  | foldFn {d σ p body} : Shows R (.foldFn d σ p body) .fn
  | part {h args} : Shows R (.part h args) .fn

/-- The observed values of the exports are those of the environment `σ`. -/
def ShowsAll (R : Symbol → Option Name) (σ : SEnv) : List (String × Symbol × Scheme) → List Obs → Prop
  | [], [] => True
  | x :: xs, o :: os => (∃ V, SEnv.find σ x.2.1 = some V ∧ Shows R V o) ∧ ShowsAll R σ xs os
  | _, _ => False

/-- The result of a run is the outcome `o` of the source program. -/
def Does (R : Symbol → Option Name) (xs : List (String × Symbol × Scheme)) : Out SEnv → Res (List Obs) → Prop
  | .ok σ, .ok os => ShowsAll R σ xs os
  | .trap m, .trap m' => m = m'
  | _, _ => False

theorem rel_shows {M : Sem} {T} {Δ : List TypeDecl} (hM : Tags M) {t o} (h : OfTy Δ M.reg t o) : ∀ {V v}, Rel M T V v → v.obs = o → Shows M.reg V o := by
  induction h with
  | int => intro V v h e; cases h <;> simp [Val.obs] at e; subst e; exact .int
  | bool => intro V v h e; cases h <;> simp [Val.obs] at e; subst e; exact .bool
  | str => intro V v h e; cases h <;> simp [Val.obs] at e; subst e; exact .str
  | fn =>
    intro V v h e
    cases h with
    | fn => exact .fn
    | foldFn => exact .foldFn
    | part => exact .part
    | _ => simp [Val.obs] at e
  | @named d args c fields n os h1 h2 h3 h4 h5 h6 ih =>
    intro V v h e
    cases h with
    | @comp c' n' Fs fs k1 k2 k3 =>
      simp only [Val.obs, obsList_map, Obs.comp.injEq] at e
      obtain ⟨rfl, rfl⟩ := e
      have : c' = c := hM c' c n' k1 (.inl h4)
      subst this
      refine .comp h4 (by simpa using k2) fun i V o hV ho => ?_
      have hi : i < fields.length := by rw [← h5]; exact (List.getElem?_eq_some_iff.mp ho).1
      have hf := List.getElem?_eq_getElem hi
      simp only [List.getElem?_map, Option.map_eq_some_iff] at ho
      obtain ⟨w, hw, rfl⟩ := ho
      exact ih i _ _ hf (by simp [hw]) (k3 i V w hV hw) rfl
    | _ => simp [Val.obs] at e

theorem mem_declOf : ∀ {Δ : List TypeDecl}, DeclsOK Δ → ∀ d ∈ Δ, declOf Δ d.sym = some d
  | d0 :: Δ, ⟨h1, _, _, h4⟩, d, hd => by
    rw [declOf_cons]
    rcases List.mem_cons.mp hd with rfl | hd
    · exact if_pos rfl
    · have := mem_declOf h4 d hd
      exact (if_neg fun (e : d0.sym = d.sym) => by rw [e, this] at h1; cases h1).trans this

theorem lookup_mem {α β : Type} [BEq α] [LawfulBEq α] : ∀ {l : List (α × β)} {a b}, l.lookup a = some b → (a, b) ∈ l
  | (x, y) :: l, a, b, h => by
    simp only [List.lookup] at h
    split at h
    · rename_i e
      cases h
      rw [eq_of_beq e]
      simp
    · exact List.mem_cons_of_mem _ (lookup_mem h)

theorem lookup_isSome {α β : Type} [BEq α] [LawfulBEq α] : ∀ {l : List (α × β)} {a b}, (a, b) ∈ l → (l.lookup a).isSome
  | (x, y) :: l, a, b, h => by
    simp only [List.lookup]
    split
    · rfl
    · rename_i e
      rcases List.mem_cons.mp h with h | h
      · cases h; simp at e
      · exact lookup_isSome h

/-- The fields of a declared constructor are those of its declaration. -/
theorem fieldsIn_decl {w : World} {g : Gen} (h : Inv w g) : ∀ s d, declOf w.decls s = some d → ∀ c ∈ d.ctors, fieldsIn w.decls c.1 = some c.2 := by
  intro s d hd c hc
  have hm : (c.1, c.2) ∈ w.decls.flatMap (·.ctors) := List.mem_flatMap.mpr ⟨d, declOf_mem hd, hc⟩
  obtain ⟨f, hf⟩ := Option.isSome_iff_exists.mp (lookup_isSome hm)
  have hf' := lookup_mem hf
  obtain ⟨d', hd', hc'⟩ := List.mem_flatMap.mp hf'
  obtain ⟨-, -, -, h1⟩ := h.gen.ok.ctor _ _ hd c hc
  obtain ⟨-, -, -, h2⟩ := h.gen.ok.ctor _ _ (mem_declOf h.decls d' hd') _ hc'
  rw [h1] at h2
  cases h2
  exact hf

theorem wfTys_replicate {Δ : List TypeDecl} : ∀ n : Nat, WfTys Δ [] (List.replicate n .int)
  | 0 => by simp [WfTys]
  | n + 1 => by simp [List.replicate_succ, WfTys, WfTy, wfTys_replicate n]

theorem plains_replicate : ∀ n : Nat, Plains (List.replicate n .int)
  | 0 => by simp [Plains]
  | n + 1 => by simp [List.replicate_succ, Plains, Plain, plains_replicate n]

/-- The values of the exports, in order. -/
theorem exports_eval {n : Nat} {ρ : Env} {R σ} {N : Symbol → Option Name} : ∀ {ds : List ValueDef} {xs : List (String × Symbol × Scheme)},
    ds.filterMap expo = xs.map (fun p => (p.1, N p.2.1)) →
    (∀ x ∈ xs, ∃ V v k, SEnv.find σ x.2.1 = some V ∧ N x.2.1 = some k ∧ lookup k ρ = .ok v ∧ Shows R V v.obs) →
    ∃ vs, evalList (eval (n + 1) ρ) ((ds.filter fun d => d.exportName.isSome).map fun d => .name d.name) = .ok vs ∧ ShowsAll R σ xs (vs.map Val.obs)
  | [], xs, h, _ => by
    cases xs with
    | nil => exact ⟨[], rfl, trivial⟩
    | cons x xs => simp at h
  | d :: ds, xs, h, hx => by
    cases hd : d.exportName with
    | none =>
      have : expo d = none := by simp [expo, hd]
      rw [List.filterMap_cons_none this] at h
      rw [List.filter_cons_of_neg (by simp [hd])]
      exact exports_eval h hx
    | some y =>
      have : expo d = some (y, some d.name) := by simp [expo, hd]
      rw [List.filterMap_cons_some this] at h
      rw [List.filter_cons_of_pos (by simp [hd])]
      cases xs with
      | nil => simp at h
      | cons x xs =>
        simp only [List.map_cons, List.cons.injEq, Prod.mk.injEq] at h
        obtain ⟨V, v, k, h1, h2, h3, h4⟩ := hx x (by simp)
        obtain ⟨vs, r1, r2⟩ := exports_eval (n := n) h.2 fun x hm => hx x (by simp [hm])
        have hk : d.name = k := by
          have := h.1.2
          rw [h2] at this
          exact Option.some.inj this
        refine ⟨v :: vs, ?_, ?_⟩
        · simp only [List.map_cons, evalList, eval_name, hk, h3, Res.bind_ok, r1]
        · simp only [List.map_cons, ShowsAll]
          exact ⟨⟨V, h1, h4⟩, r2⟩

/-- **C39.**  Let every item of a program meet the conditions the checks establish.  Then the program
means something (exactly one thing), the generator generates a program whose exports are those of the
root module in order, and all long enough runs of the generated program do the same: if the source
program gives names their values, the run gives each export what one can see of its value, with
constructors called as `R` says; if the source program stops at a hole, the run stops with the same
message. -/
theorem program_means {I : Symbol → Option Builtin} {items : List Item} (h : ItemsOK I {} items) :
    ∃ o p R N, Means I items o ∧ (∀ o', Means I items o' → o' = o) ∧ generateCore I items = some p ∧
      p.defs.filterMap (·.exportName) = (exportsOf items).map (·.1) ∧
      (∀ c c' n, R c = some n → R c' = some n → c = c') ∧
      ∀ n, N ≤ n → Does R (exportsOf items) o (runExports n p) := by
  obtain ⟨g, h1, st⟩ := items_step items (ee := true) inv_empty h
  obtain ⟨ds, hds, hrun⟩ := st.run
  let M : Sem := ⟨fun m => ∃ t ∈ (World.items I {} items).texts, m = "encountered " ++ t, fun c => (g.ctors c).map (·.regular), fun c => (g.ctors c).map (·.folded)⟩
  have hM : SemOK M := by
    refine ⟨fun c c' n hc hc' => ?_, fun c c' n hc hc' => ?_⟩ <;>
    · obtain ⟨k, hk, rfl⟩ := Option.map_eq_some_iff.mp hc
      obtain ⟨k', hk', he⟩ := Option.map_eq_some_iff.mp hc'
      exact st.inv.inj c c' k k' hk hk' (by simp [he])
  have hG : Tags M := by
    intro c c' n hc hc'
    have key : ∀ {a}, (M.reg a = some n ∨ M.fold a = some n) → ∃ k, g.ctors a = some k ∧ (k.regular = n ∨ k.folded = n) := by
      rintro a (ha | ha) <;> obtain ⟨k, hk, rfl⟩ := Option.map_eq_some_iff.mp ha
      · exact ⟨k, hk, .inl rfl⟩
      · exact ⟨k, hk, .inr rfl⟩
    obtain ⟨k, hk, he⟩ := key hc
    obtain ⟨k', hk', he'⟩ := key hc'
    rcases he with he | he <;> rcases he' with he' | he'
    · exact st.inv.inj c c' k k' hk hk' (.inl (he.trans he'.symm))
    · exact st.inv.inj c c' k k' hk hk' (.inr (.inr (he.trans he'.symm)))
    · exact (st.inv.inj c' c k' k hk' hk (.inr (.inr (he'.trans he.symm)))).symm
    · exact st.inv.inj c c' k k' hk hk' (.inr (.inl (he.trans he'.symm)))
  have hA : Agrees M g := fun c k hk => by simp [M, hk]
  have hr := hrun M hM hA (fun t ht => ⟨t, ht, rfl⟩) [] (fun _ _ => False) (by intro s sch hs; cases hs)
  have hsim := fun n => st.sim ds hds M (fieldsIn (World.items I {} items).decls) hG hA (fieldsIn_decl st.inv) n [] [] (by intro s sch hs; cases hs)
  have hds' : ds = g.defs := by simpa using hds.symm
  rw [hds'] at hr hsim
  have hexp := st.exports.1
  simp only [itemsExports, if_true, List.filterMap_nil, List.nil_append, List.map_map] at hexp
  have hgen : generateCore I items = some ⟨g.types, g.defs⟩ := by
    simp only [generateCore]
    rw [show emitItems I true ([], {}) items = _ from h1]
    rfl
  have hnames : g.defs.filterMap (·.exportName) = (exportsOf items).map (·.1) := by
    have := congrArg (List.map (·.1)) hexp
    simp only [List.map_map, List.map_filterMap] at this
    rw [show (fun p : String × Symbol × Scheme => p.1) = ((fun x => x.1) ∘ (fun p : String × Symbol => (p.1, g.symNames p.2)) ∘ fun p : String × Symbol × Scheme => (p.1, p.2.1)) from rfl,
      ← this]
    congr 1
    funext d
    cases hd : d.exportName <;> simp [expo, hd]
  obtain ⟨N, ⟨ρ, he, hv⟩ | ⟨m, he, -⟩⟩ := hr
  · have hs := hsim N
    rw [show evalDefs N g.defs [] = _ from he] at hs
    obtain ⟨σ, s1, s2⟩ := hs
    refine ⟨.ok σ, ⟨g.types, g.defs⟩, M.reg, N + 1, s1, fun o' ho' => means_unique ho' s1, hgen, hnames, hM.1, fun n hn => ?_⟩
    obtain ⟨n, rfl⟩ : ∃ k, n = k + 1 := ⟨n - 1, by omega⟩
    have he' : evalDefs (n + 1) g.defs [] = .ok ρ := (monoR_evalDefs g.defs []).get (by omega) he (by simp)
    obtain ⟨vs, r1, r2⟩ := exports_eval (n := n) (ρ := ρ) (R := M.reg) (σ := σ) hexp fun x hx => by
      obtain ⟨x, s, sch⟩ := x
      obtain ⟨hctx, hpl⟩ := exportsOf_ctx h x s sch hx
      obtain ⟨a1, a2, a3, k, v, a4, a5, a6, a7⟩ := hv s sch hctx
      obtain ⟨V, v', k', b1, b2, b3, b4, b5⟩ := s2 s sch hctx
      rw [a4] at b2
      cases b2
      rw [a6] at b4
      cases b4
      refine ⟨V, v, k, b1, a4, a6, ?_⟩
      rw [List.append_nil] at a1
      have hlen : (List.replicate sch.vars.length IrTy.int).length = sch.vars.length := by simp
      refine rel_shows (T := fieldsIn (World.items I {} items).decls) hG
        (interp_obs (st.inv.fix hM) (η := fun _ _ => False) v (wfTy_subst hlen.symm (wfTys_replicate _) a1) (plain_subst (plains_mem (plains_replicate _)) hpl) ?_) b5 rfl
      rw [interp_subst (fun v hv' => tyEnv_none.mpr (a3 v hv')) hpl]
      exact a7 _ (by rw [interps_length, hlen])
    have : runExports (n + 1) ⟨g.types, g.defs⟩ = .ok (vs.map Val.obs) := by simp only [runExports, evalProgram, he', Res.bind_ok, r1]
    rw [this]
    exact r2
  · have hs := hsim N
    rw [show evalDefs N g.defs [] = _ from he] at hs
    refine ⟨.trap m, ⟨g.types, g.defs⟩, M.reg, N, hs, fun o' ho' => means_unique ho' hs, hgen, hnames, hM.1, fun n hn => ?_⟩
    have he' : evalDefs n g.defs [] = .trap m := (monoR_evalDefs g.defs []).get hn he (by simp)
    have : runExports n ⟨g.types, g.defs⟩ = .trap m := by
      simp only [runExports, evalProgram, he']
      rfl
    rw [this]
    rfl

/-- A run that has ended ends the same way with more steps. -/
theorem runExports_mono {n m : Nat} (h : n ≤ m) {p : Program} {r} (hr : runExports n p = r) (ht : r ≠ .timeout) : runExports m p = r := by
  have hM : MonoR fun n => evalProgram n p ((p.defs.filter fun d => d.exportName.isSome).map fun d => .name d.name) :=
    fun n m h => (evalDefs_le h p.defs []).bind fun ρ _ => evalList_le (fun e => eval_le h ρ e) _
  unfold runExports at hr ⊢
  cases he : evalProgram n p ((p.defs.filter fun d => d.exportName.isSome).map fun d => .name d.name) with
  | timeout => rw [he] at hr; exact absurd hr.symm ht
  | _ => rw [hM.get h he (by simp)]; rw [he] at hr; exact hr

/-- **C39 for accepted programs.**  What the compiler accepts means exactly one thing, and the
generated program does that: see `program_means`. -/
theorem accepted_program_means {I : Symbol → Option Builtin} {items : List Item} (h : Accepteds I {} items) :
    ∃ o p R N, Means I items o ∧ (∀ o', Means I items o' → o' = o) ∧ generateCore I items = some p ∧
      p.defs.filterMap (·.exportName) = (exportsOf items).map (·.1) ∧
      (∀ c c' n, R c = some n → R c' = some n → c = c') ∧
      ∀ n, N ≤ n → Does R (exportsOf items) o (runExports n p) := program_means (accepteds_ok items h)

end Tic.Front
