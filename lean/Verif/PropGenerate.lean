import Verif.GenItems
/-
C38: programs that pass the checks are compiled without a failure, and the generated program
computes a value of the declared type for everything it exports, unless it reaches a hole.
-/
namespace Tic.Front
open Tic.Unify (Symbol IrTy)
open Tic.Core

mutual
theorem plain_subst {vars : List Symbol} {inst : List IrTy} (hi : ∀ t ∈ inst, Plain t) : ∀ {t}, Plain t → Plain (substTy (vars.zip inst) t)
  | .int, _ | .bool, _ | .str, _ => by simp only [substTy, Plain]
  | .named s args, h => by
    simp only [substTy]
    split
    · rename_i u hu
      refine hi u ?_
      generalize vars = vs at hu
      clear h hi
      induction vs generalizing inst with
      | nil => simp [findTy] at hu
      | cons v vs ih =>
        cases inst with
        | nil => simp [findTy] at hu
        | cons t ts =>
          simp only [List.zip_cons_cons, findTy] at hu
          split at hu
          · cases hu; simp
          · exact List.mem_cons_of_mem _ (ih hu)
    · simp only [Plain] at h ⊢
      exact plains_subst hi h
  | .fn a b, h => by
    simp only [Plain] at h
    simp only [substTy, Plain]
    exact ⟨plain_subst hi h.1, plain_subst hi h.2⟩
theorem plains_subst {vars : List Symbol} {inst : List IrTy} (hi : ∀ t ∈ inst, Plain t) : ∀ {ts}, Plains ts → Plains (substTys (vars.zip inst) ts)
  | [], _ => by simp only [substTys, Plains]
  | t :: ts, h => by
    simp only [Plains] at h
    simp only [substTys, Plains]
    exact ⟨plain_subst hi h.1, plains_subst hi h.2⟩
end

theorem plains_mem : ∀ {ts : List IrTy}, Plains ts → ∀ t ∈ ts, Plain t
  | t :: ts, h, x, hx => by
    simp only [Plains] at h
    rcases List.mem_cons.mp hx with rfl | hx
    · exact h.1
    · exact plains_mem h.2 x hx

theorem obsList_map : ∀ vs : List Val, obsList vs = vs.map Val.obs
  | [] => rfl
  | v :: vs => by simp [obsList, obsList_map vs]

/-- What can be observed of a value in the logical relation. -/
theorem interp_obs_lt {M : Sem} {Δ : List TypeDecl} (F : Fix M Δ) {η : Symbol → VSet} : ∀ (k : Nat) (v : Val) {t : IrTy}, sizeOf v < k → WfTy Δ [] t → Plain t →
    interp M (tyEnv M Δ) η t v → OfTy Δ M.reg t v.obs
  | k, v, .int, _, _, _, h => by simp only [interp] at h; obtain ⟨x, rfl⟩ := h; exact .int
  | k, v, .bool, _, _, _, h => by simp only [interp] at h; obtain ⟨x, rfl⟩ := h; exact .bool
  | k, v, .str, _, _, _, h => by simp only [interp] at h; obtain ⟨x, rfl⟩ := h; exact .str
  | k, v, .fn a b, _, _, _, h => by
    simp only [interp] at h
    have := h.1
    cases v with
    | clo => exact .fn
    | rclo => exact .fn
    | _ => cases this
  | k + 1, v, .named s args, hk, hw, hp, h => by
    simp only [WfTy] at hw
    obtain ⟨hs, hl, ha⟩ := hw
    obtain ⟨d, hd⟩ := Option.isSome_iff_exists.mp (hs.resolve_left (by simp))
    have hsym := declOf_sym hd
    subst hsym
    have hl' : args.length = d.vars.length := by rw [hl]; simp [arity, hd]
    have hint : interp M (tyEnv M Δ) η (.named d.sym args) = Mu M.reg (declSig M (tyEnv M Δ) d (interps M (tyEnv M Δ) η args)) := by
      simp only [interp, tyEnv_some F.decls F.vars hd]
    have h0 := h
    rw [hint] at h
    obtain ⟨c, n, fields, fs, rfl, h1, h2, h3, h4⟩ := mu_lay.mp h
    obtain ⟨fds, hc, rfl⟩ := mem_declSig h1
    simp only [Plain] at hp
    simp only [Val.obs, obsList_map]
    refine .named hd hl' hc h2 (by simpa using h3) fun i f o hf ho => ?_
    simp only [List.getElem?_map, Option.map_eq_some_iff] at ho
    obtain ⟨w, hw, rfl⟩ := ho
    have hwr : WfTy Δ [] (.named d.sym args) := by simp only [WfTy]; exact ⟨hs, hl, ha⟩
    have hmem : f ∈ fds := List.mem_of_getElem? hf
    have hlt : sizeOf w < sizeOf fs := List.sizeOf_lt_of_mem (List.mem_of_getElem? hw)
    refine interp_obs_lt (η := η) F k w (by simp only [Val.comp.sizeOf_spec] at hk; omega) (wfTy_field F hd hl' hc hmem ha hwr) ?_ ?_
    · cases f with
      | rec_ => simpa only [fieldTy, Plain] using hp
      | ty t => exact plain_subst (plains_mem hp) (((F.decls.field hd).2 _ hc).2 t hmem)
    · rw [← fieldSem_ty F hd hl' hc hmem, hint]
      exact h4 i _ w (by simp [hf]) hw

/-- What can be observed of a value in the logical relation. -/
theorem interp_obs {M : Sem} {Δ : List TypeDecl} (F : Fix M Δ) {η : Symbol → VSet} (v : Val) {t : IrTy} (hw : WfTy Δ [] t) (hp : Plain t)
    (h : interp M (tyEnv M Δ) η t v) : OfTy Δ M.reg t v.obs := interp_obs_lt F (sizeOf v + 1) v (Nat.lt_succ_self _) hw hp h

/-- The result of running a program: a value of each exported definition. -/
def Delivers (I : Symbol → Option Builtin) (items : List Item) (R : Symbol → Option Name) (n : Nat) (p : Program) : Prop :=
  ∀ x s sch, (x, s, sch) ∈ exportsOf items → ∃ d ∈ p.defs, d.exportName = some x ∧ ∃ v, evalProgram n p [.name d.name] = .ok [v] ∧
    ∀ inst : List IrTy, inst.length = sch.vars.length → WfTys (World.items I {} items).decls [] inst → Plains inst →
      OfTy (World.items I {} items).decls R (substTy (sch.vars.zip inst) sch.ty) v.obs

mutual
theorem item_ctx {I : Symbol → Option Builtin} : ∀ (i : Item) {w : World}, ItemOK I w i → ∀ s ∈ w.used,
    s ∈ (w.item I i).used ∧ (w.item I i).ctx.find s = w.ctx.find s
  | .value x ex sch body, w, h, s, hs => by
    simp only [ItemOK] at h
    have hx := h.new.2 x (by simp)
    simp only [World.item, Ctx.find]
    exact ⟨by simp [hs], if_neg fun (e : x = s) => hx (e ▸ hs)⟩
  | .type d, w, h, s, hs => by
    simp only [ItemOK] at h
    simp only [World.item]
    refine ⟨by simp [hs], ?_⟩
    rw [find_append, find_none_of (s := s) (Γ := ctorCtx d)]
    · rfl
    · intro hm
      simp only [ctorCtx, List.map_reverse, List.map_map, List.mem_reverse] at hm
      exact h.new.2 s (List.mem_cons_of_mem _ (List.mem_append.mpr (.inr hm))) hs
  | .imports key items, w, h, s, hs => by
    simp only [ItemOK] at h
    simp only [World.item]
    split
    · exact ⟨hs, rfl⟩
    · rename_i hk
      exact items_ctx items (w := { w with done := key :: w.done }) (h.resolve_left hk) s hs
theorem items_ctx {I : Symbol → Option Builtin} : ∀ (is : List Item) {w : World}, ItemsOK I w is → ∀ s ∈ w.used,
    s ∈ (w.items I is).used ∧ (w.items I is).ctx.find s = w.ctx.find s
  | [], w, _, s, hs => by simp only [World.items]; exact ⟨hs, trivial⟩
  | i :: is, w, h, s, hs => by
    simp only [ItemsOK] at h
    simp only [World.items]
    have h1 := item_ctx i h.1 s hs
    have h2 := items_ctx is h.2 s h1.1
    exact ⟨h2.1, h2.2.trans h1.2⟩
end

theorem exportsOf_ctx {I : Symbol → Option Builtin} : ∀ {items : List Item} {w : World}, ItemsOK I w items → ∀ x s sch, (x, s, sch) ∈ exportsOf items →
    (w.items I items).ctx.find s = some sch ∧ Plain sch.ty
  | .value s0 ex sch0 body :: is, w, h, x, s, sch, hm => by
    simp only [ItemsOK] at h
    simp only [World.items]
    cases ex with
    | none => exact exportsOf_ctx h.2 x s sch hm
    | some y =>
      simp only [exportsOf, List.mem_cons] at hm
      rcases hm with hm | hm
      · cases hm
        refine ⟨?_, h.1.plain⟩
        rw [(items_ctx is h.2 s0 (by simp [World.item])).2]
        simp [World.item, Ctx.find]
      · exact exportsOf_ctx h.2 x s sch hm
  | .type d :: is, w, h, x, s, sch, hm => by
    simp only [ItemsOK] at h
    simp only [World.items]
    exact exportsOf_ctx h.2 x s sch hm
  | .imports k items :: is, w, h, x, s, sch, hm => by
    simp only [ItemsOK] at h
    simp only [World.items]
    exact exportsOf_ctx h.2 x s sch hm

/-- **C38.**  Let every item of a program meet the conditions the checks establish.  Then code
generation succeeds, the generated program exports the exported values of the root module (in
order), each declared type becomes a type whose constructors have the names `R` gives them, all
different, and with enough steps the program either has run to the end, with a value of the declared
type for each export (for a polymorphic one, of every instance of its type), or has stopped with the
message of one of its holes.  In particular it never panics and never runs forever. -/
theorem program_runs {I : Symbol → Option Builtin} {items : List Item} (h : ItemsOK I {} items) :
    ∃ p R, generateCore I items = some p ∧
      p.defs.filterMap (·.exportName) = (exportsOf items).map (·.1) ∧
      (∀ c c' n, R c = some n → R c' = some n → c = c') ∧
      (∀ d ∈ (World.items I {} items).decls, ∃ td ∈ p.types, mapOpt R (d.ctors.map (·.1)) = some (td.cases.map (·.name))) ∧
      ∃ n, (∃ ρ, evalDefs n p.defs [] = .ok ρ ∧ Delivers I items R n p) ∨
        ∃ t ∈ (World.items I {} items).texts, evalDefs n p.defs [] = .trap ("encountered " ++ t) := by
  obtain ⟨g, h1, st⟩ := items_step items (ee := true) inv_empty h
  obtain ⟨ds, hds, hrun⟩ := st.run
  let M : Sem := ⟨fun m => ∃ t ∈ (World.items I {} items).texts, m = "encountered " ++ t, fun c => (g.ctors c).map (·.regular), fun c => (g.ctors c).map (·.folded)⟩
  have hM : SemOK M := by
    refine ⟨fun c c' n hc hc' => ?_, fun c c' n hc hc' => ?_⟩ <;>
    · obtain ⟨k, hk, rfl⟩ := Option.map_eq_some_iff.mp hc
      obtain ⟨k', hk', he⟩ := Option.map_eq_some_iff.mp hc'
      exact st.inv.inj c c' k k' hk hk' (by simp [he])
  have hA : Agrees M g := fun c k hk => by simp [M, hk]
  have hr := hrun M hM hA (fun t ht => ⟨t, ht, rfl⟩) [] (fun _ _ => False) (by intro s sch hs; cases hs)
  have hds' : ds = g.defs := by simpa using hds.symm
  rw [hds'] at hr
  have hexp := st.exports.1
  simp only [itemsExports, if_true, List.filterMap_nil, List.nil_append, List.map_map] at hexp
  refine ⟨⟨g.types, g.defs⟩, M.reg, ?_, ?_, hM.1, st.inv.types, ?_⟩
  · simp only [generateCore]
    rw [show emitItems I true ([], {}) items = _ from h1]
    rfl
  · have := congrArg (List.map (·.1)) hexp
    simp only [List.map_map, List.map_filterMap] at this
    rw [show (fun p : String × Symbol × Scheme => p.1) = ((fun x => x.1) ∘ (fun p : String × Symbol => (p.1, g.symNames p.2)) ∘ fun p : String × Symbol × Scheme => (p.1, p.2.1)) from rfl,
      ← this]
    congr 1
    funext d
    cases hd : d.exportName <;> simp [expo, hd]
  · obtain ⟨n, ⟨ρ, he, hv⟩ | ⟨m, he, t, ht, rfl⟩⟩ := hr
    · refine ⟨n + 1, .inl ⟨ρ, ?_, ?_⟩⟩
      · exact (monoR_evalDefs g.defs []).get (Nat.le_succ n) he (by simp)
      · have he' : evalDefs (n + 1) g.defs [] = .ok ρ := (monoR_evalDefs g.defs []).get (Nat.le_succ n) he (by simp)
        intro x s sch hm
        obtain ⟨a1, a2, a3, k, v, a4, a5, a6, a7⟩ := hv s sch (exportsOf_ctx h x s sch hm).1
        have hx : (x, g.symNames s) ∈ g.defs.filterMap expo := by
          rw [hexp]
          exact List.mem_map.mpr ⟨(x, s, sch), hm, rfl⟩
        obtain ⟨d, hd, hde⟩ := List.mem_filterMap.mp hx
        simp only [expo, Option.map_eq_some_iff, Prod.mk.injEq] at hde
        obtain ⟨y, hy, rfl, hdn⟩ := hde
        rw [a4] at hdn
        cases hdn
        refine ⟨d, hd, hy, v, ?_, fun inst hl hw hp => ?_⟩
        · simp only [evalProgram, he', Res.bind_ok, evalList, eval_name, a6]
        · rw [List.append_nil] at a1
          have hpl : Plain sch.ty := (exportsOf_ctx h _ s sch hm).2
          refine interp_obs (st.inv.fix hM) (η := fun _ _ => False) v (wfTy_subst hl.symm hw a1) (plain_subst (plains_mem hp) hpl) ?_
          rw [interp_subst (fun v hv' => tyEnv_none.mpr (a3 v hv')) hpl]
          exact a7 _ (by rw [interps_length, hl])
    · exact ⟨n, .inr ⟨t, ht, he⟩⟩

end Tic.Front
