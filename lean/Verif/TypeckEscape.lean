import Verif.TypeckTotal
/-
C37: without local definitions that have type variables of their own, no type variable escapes.
-/
namespace Tic.Front
open Tic.Unify

/-- The slot mentions only named types and type variables from `S`. -/
def SlotSym (S : Symbol → Prop) : Slot → Prop
  | .ty (.named s) => S s
  | _ => True

/-- ... all slots. -/
structure Syms (S : Symbol → Prop) (u : Unifier) : Prop where
  slots : ∀ s ∈ u.slots, SlotSym S s
  pending : ∀ p ∈ u.pending, SlotSym S p.2

theorem pend_mem {i s} : ∀ {ps : List (Nat × Slot)}, pend ps i = some s → ∃ p ∈ ps, p.2 = s
  | [], h => by simp [pend] at h
  | (k, v) :: ps, h => by
    simp only [pend] at h
    split at h
    · cases h; exact ⟨_, List.mem_cons_self, rfl⟩
    · obtain ⟨p, hp, he⟩ := pend_mem h; exact ⟨p, List.mem_cons_of_mem _ hp, he⟩

theorem Syms.get {S u i s} (h : Syms S u) (hg : u.get i = some s) : SlotSym S s := by
  unfold Unifier.get at hg
  split at hg
  · rename_i s' hp
    cases hg
    obtain ⟨p, hm, rfl⟩ := pend_mem hp
    exact h.pending p hm
  · exact h.slots s (List.mem_of_getElem? hg)

theorem Syms.bind {S u i j} (h : Syms S u) : Syms S (u.bind i j) :=
  ⟨h.slots, fun p hp => by
    rcases List.mem_cons.mp hp with rfl | hp
    · trivial
    · exact h.pending p hp⟩

theorem unify_syms {S n u a b r} (h : Syms S u) (hu : unify n u a b = some r) : Syms S r.1 := by
  induction n generalizing u a b r with
  | zero => simp [Tic.Unify.unify] at hu
  | succ n ih =>
    have all : ∀ (ps : List (Nat × Nat)) {u r}, Syms S u → unifyAll (Tic.Unify.unify n) ps u = some r → Syms S r.1 := by
      intro ps
      induction ps with
      | nil => intro u r h hu; simp only [unifyAll, Option.some.injEq] at hu; subst hu; exact h
      | cons p ps ihp =>
        intro u r h hu
        simp only [unifyAll, Option.bind_eq_some_iff] at hu
        obtain ⟨r1, h1, hu⟩ := hu
        split at hu
        · exact ihp (ih h h1) hu
        · cases hu; exact (ih h h1 :)
    simp only [Tic.Unify.unify, Option.bind_eq_some_iff] at hu
    obtain ⟨f1, -, f2, -, hu⟩ := hu
    split at hu
    · cases hu; exact h
    · simp only [Option.bind_eq_some_iff] at hu
      obtain ⟨n1, -, n2, -, hu⟩ := hu
      cases n1 with
      | none =>
        simp only [Option.bind_eq_some_iff] at hu
        obtain ⟨o, -, hu⟩ := hu
        split at hu
        · cases hu; exact h.bind
        · split at hu
          · simp only [Option.bind_eq_some_iff] at hu
            obtain ⟨o, -, hu⟩ := hu
            split at hu
            · cases hu; exact h.bind
            · cases hu; exact h
          · cases hu; exact h
      | some x =>
        cases n2 with
        | none =>
          simp only [Option.bind_eq_some_iff] at hu
          obtain ⟨o, -, hu⟩ := hu
          split at hu
          · cases hu; exact h.bind
          · cases hu; exact h
        | some y =>
          simp only at hu
          split at hu
          · exact all _ h hu
          · cases hu; exact h

theorem setAll_syms {S} : ∀ {ps : List (Nat × Slot)} {ss : List Slot}, (∀ s ∈ ss, SlotSym S s) → (∀ p ∈ ps, SlotSym S p.2) →
    ∀ s ∈ setAll ps ss, SlotSym S s
  | [], _, h, _, s, hs => h s hs
  | (k, v) :: ps, ss, h, hp, s, hs => by
    simp only [setAll] at hs
    rcases List.mem_or_eq_of_mem_set hs with hs | rfl
    · exact setAll_syms h (fun p hq => hp p (by simp [hq])) s hs
    · exact hp _ List.mem_cons_self

theorem unify_step {S n} {st st' : TcSt} {a b} (h : Syms S st.u) (hu : st.unify n a b = some st') : Syms S st'.u := by
  simp only [TcSt.unify, unifyTop, Option.map_eq_some_iff] at hu
  obtain ⟨r, ⟨r1, h1, rfl⟩, rfl⟩ := hu
  have := unify_syms h h1
  cases hb : r1.2
  · simp only [hb, Bool.false_eq_true, if_false]
    exact ⟨this.slots, by simp [Unifier.rollback]⟩
  · simp only [if_true]
    exact ⟨setAll_syms this.slots this.pending, by simp [Unifier.commit]⟩

theorem alloc_syms {S u t} (h : Syms S u) (ht : SlotSym S (.ty t)) : Syms S (u.allocate t).1 :=
  ⟨fun s hs => by
    rcases List.mem_append.mp hs with hs | hs
    · exact h.slots s hs
    · rw [List.mem_singleton] at hs; subst hs; exact ht, h.pending⟩

theorem fresh_syms {S u} (h : Syms S u) : Syms S u.freshVar.1 :=
  ⟨fun s hs => by
    rcases List.mem_append.mp hs with hs | hs
    · exact h.slots s hs
    · rw [List.mem_singleton] at hs; subst hs; trivial, h.pending⟩

theorem findVar_none {vars : List (Symbol × Nat)} {s} (h : findVar vars s = none) : s ∉ vars.map (·.1) := by
  induction vars with
  | nil => simp
  | cons p vars ih =>
    obtain ⟨v, i⟩ := p
    simp only [findVar] at h
    split at h
    · cases h
    · rename_i hne
      simp only [List.map_cons, List.mem_cons, not_or]
      exact ⟨fun he => hne he.symm, ih h⟩

mutual
theorem inst_syms {S} (vars : List (Symbol × Nat)) : ∀ (t : IrTy) {u}, Syms S u → (∀ s ∈ tySyms t, s ∈ vars.map (·.1) ∨ S s) →
    Syms S (instantiate vars t u).1
  | .int, u, h, _ => alloc_syms h trivial
  | .bool, u, h, _ => alloc_syms h trivial
  | .str, u, h, _ => alloc_syms h trivial
  | .error, u, h, _ => alloc_syms h trivial
  | .infer, u, h, _ => fresh_syms h
  | .named s args, u, h, hs => by
    simp only [instantiate]
    split
    · exact instArgs_syms vars args _ h (fun k hk => hs k (by simp [tySyms, hk]))
    · rename_i hn
      refine instArgs_syms vars args _ (alloc_syms h ?_) (fun k hk => hs k (by simp [tySyms, hk]))
      rcases hs s (by simp [tySyms]) with h1 | h1
      · exact absurd h1 (findVar_none hn)
      · exact h1
  | .fn a b, u, h, hs => by
    simp only [instantiate]
    exact alloc_syms (inst_syms vars b (inst_syms vars a h fun k hk => hs k (by simp [tySyms, hk])) fun k hk => hs k (by simp [tySyms, hk])) trivial
  | .folded a b, u, h, hs => by
    simp only [instantiate]
    exact alloc_syms (inst_syms vars b (inst_syms vars a h fun k hk => hs k (by simp [tySyms, hk])) fun k hk => hs k (by simp [tySyms, hk])) trivial
theorem instArgs_syms {S} (vars : List (Symbol × Nat)) : ∀ (ts : List IrTy) (i : Nat) {u}, Syms S u → (∀ s ∈ tysSyms ts, s ∈ vars.map (·.1) ∨ S s) →
    Syms S (instArgs vars ts i u).1
  | [], _, _, h, _ => h
  | t :: ts, i, u, h, hs => by
    simp only [instArgs]
    exact instArgs_syms vars ts _ (alloc_syms (inst_syms vars t h fun k hk => hs k (by simp [tysSyms, hk])) trivial)
      fun k hk => hs k (by simp [tysSyms, hk])
end

theorem freshAll_syms {S} : ∀ (vs : List Symbol) {st : TcSt}, Syms S st.u → Syms S (st.freshAll vs).1.u
  | [], _, h => h
  | _ :: vs, _, h => freshAll_syms vs (fresh_syms h)

theorem applyVars_syms {S} : ∀ (vs : List Symbol) {st : TcSt} {t}, Syms S st.u → Syms S (applyVars st t vs).1.u
  | [], _, _, h => h
  | _ :: vs, _, _, h => applyVars_syms vs (alloc_syms (fresh_syms h) trivial)

/-- The tables mention only symbols from `S` and the type variables a scheme binds. -/
structure TabSyms (S : Symbol → Prop) (T : Tables) : Prop where
  inst : ∀ s sch, T.names s = some (.inst sch) → ∀ k ∈ tySyms sch.ty, k ∈ sch.vars ∨ S k
  ctor : ∀ c d, T.ctors c = some d → S d.tySym ∧ ∀ t, Field.ty t ∈ d.fields → ∀ k ∈ tySyms t, k ∈ d.vars ∨ S k

theorem instName_syms {S T st s} (hT : TabSyms S T) (h : Syms S st.u) : Syms S (instName T st s).1.u := by
  unfold instName
  split
  · exact h
  · rename_i sch hs
    refine inst_syms _ sch.ty (freshAll_syms sch.vars h) ?_
    intro k hk
    rw [freshAll_fst]
    exact hT.inst s sch hs k hk
  · exact alloc_syms h trivial

theorem checkVars_syms {S T n} {inst : List (Symbol × Nat)} {recTy : Nat} (hT : TabSyms S T) :
    ∀ (vs : List (Symbol × Unit)) (fs : List Field) {st r}, Syms S st.u → (∀ t, Field.ty t ∈ fs → ∀ k ∈ tySyms t, k ∈ inst.map (·.1) ∨ S k) →
    checkVars n T inst recTy vs fs st = some r → Syms S r.1.u
  | [], _, st, r, h, _, hc => by simp [checkVars] at hc; subst hc; exact h
  | _ :: _, [], st, r, h, _, hc => by simp [checkVars] at hc; subst hc; exact h
  | (v, ()) :: vs, f :: fs, st, r, h, hf, hc => by
    simp only [checkVars, Option.bind_eq_some_iff, Option.map_eq_some_iff] at hc
    obtain ⟨st2, hu, rs, hrs, rfl⟩ := hc
    have h1 := instName_syms (s := v) hT h
    have h2 : Syms S st2.u := by
      refine unify_step ?_ hu
      cases f with
      | rec_ => exact h1
      | ty t => exact inst_syms inst t h1 (hf t (by simp))
    exact (checkVars_syms hT vs fs h2 (fun t ht => hf t (by simp [ht])) hrs :)

mutual
/-- No local definition has type variables of its own. -/
def NoLetVars {α : Type} : Ex α → Prop
  | .apply f a => NoLetVars f ∧ NoLetVars a
  | .binary _ l r => NoLetVars l ∧ NoLetVars r
  | .pipe l r => NoLetVars l ∧ NoLetVars r
  | .let_ _ vars _ _ v rest => vars = [] ∧ NoLetVars v ∧ NoLetVars rest
  | .match_ d _ cases => NoLetVars d ∧ NoLetVarsCases cases
  | .ite c t e => NoLetVars c ∧ NoLetVars t ∧ NoLetVars e
  | .lambda _ _ _ _ body => NoLetVars body
  | .paren e => NoLetVars e
  | _ => True
/-- ... in match cases. -/
def NoLetVarsCases {α : Type} : List (Case α) → Prop
  | [] => True
  | .mk _ _ e :: cs => NoLetVars e ∧ NoLetVarsCases cs
end

mutual
theorem check_syms {S T n} (hT : TabSyms S T) :
    ∀ (e : Ex Unit) {Δ dom vs x st r}, Syms S st.u → NoLetVars e → Resolved Δ T dom vs e → check n T e x st = some r → Syms S r.1.u
  | .name s _, _, _, _, x, st, r, h, _, _, hc => by
    simp only [check, Option.map_eq_some_iff] at hc
    obtain ⟨st2, hu, rfl⟩ := hc
    exact unify_step (instName_syms hT h) hu
  | .apply f e, _, _, _, x, st, r, h, hL, hR, hc => by
    simp only [check, Option.bind_eq_some_iff, Option.map_eq_some_iff] at hc
    obtain ⟨rf, hf, re, he, st2, hu, rfl⟩ := hc
    exact unify_step (check_syms hT e (check_syms hT f (alloc_syms (t := .fn _ _) (fresh_syms (fresh_syms h)) trivial) hL.1 hR.1 hf) hL.2 hR.2 he) hu
  | .binary o l e, _, _, _, x, st, r, h, hL, hR, hc => by
    simp only [check, Option.bind_eq_some_iff] at hc
    obtain ⟨rl, hl, rr, hr, hc⟩ := hc
    have h2 := check_syms hT e (check_syms hT l (alloc_syms (t := .int) h trivial) hL.1 hR.1 hl) hL.2 hR.2 hr
    split at hc <;> simp only [Option.map_eq_some_iff] at hc <;> obtain ⟨st2, hu, rfl⟩ := hc
    · exact unify_step h2 hu
    · exact unify_step (alloc_syms (t := .bool) h2 trivial) hu
  | .pipe l e, _, _, _, x, st, r, h, hL, hR, hc => by
    simp only [check, Option.bind_eq_some_iff, Option.map_eq_some_iff] at hc
    obtain ⟨rl, hl, rr, hr, st2, hu, rfl⟩ := hc
    have h1 := check_syms hT l (fresh_syms h) hL.1 hR.1 hl
    exact unify_step (check_syms hT e (alloc_syms (t := .fn _ _) (fresh_syms h1) trivial) hL.2 hR.2 hr) hu
  | .let_ s vars ann _ v rest, _, _, _, x, st, r, h, hL, hR, hc => by
    simp only [check, Option.bind_eq_some_iff, Option.map_eq_some_iff] at hc
    obtain ⟨rv, hv, rr, hr, rfl⟩ := hc
    obtain ⟨rfl, hL1, hL2⟩ := hL
    obtain ⟨-, hann, hinf, hRv, hRr⟩ := hR
    have h1 : Syms S (opaqueName T st s).1.u := by
      cases ann with
      | none =>
        obtain ⟨-, i, hi⟩ := hinf rfl
        simp only [opaqueName, hi]
        exact h
      | some a =>
        obtain ⟨hi, -⟩ := hann a rfl
        simp only [opaqueName, hi]
        exact inst_syms [] a h (hT.inst s _ hi)
    exact (check_syms hT rest (check_syms hT v h1 hL1 hRv hv) hL2 hRr hr :)
  | .match_ d _ cases, _, _, _, x, st, r, h, hL, hR, hc => by
    simp only [check, Option.bind_eq_some_iff, Option.map_eq_some_iff] at hc
    obtain ⟨rd, hrd, nt, hnt, rc, hrc, rfl⟩ := hc
    exact (checkCases_syms hT cases (check_syms hT d (fresh_syms h) hL.1 hR.1 hrd) hL.2 hR.2 hrc :)
  | .ite c t e, _, _, _, x, st, r, h, hL, hR, hc => by
    simp only [check, Option.bind_eq_some_iff, Option.map_eq_some_iff] at hc
    obtain ⟨rc, hrc, rt, hrt, re, hre, rfl⟩ := hc
    have h1 := check_syms hT c (alloc_syms (t := .bool) h trivial) hL.1 hR.1 hrc
    exact (check_syms hT e (check_syms hT t h1 hL.2.1 hR.2.1 hrt) hL.2.2 hR.2.2 hre :)
  | .bool b, _, _, _, x, st, r, h, hL, hR, hc => by
    simp only [check, Option.map_eq_some_iff] at hc
    obtain ⟨st2, hu, rfl⟩ := hc
    exact unify_step (alloc_syms (t := .bool) h trivial) hu
  | .number b, _, _, _, x, st, r, h, hL, hR, hc => by
    simp only [check, Option.map_eq_some_iff] at hc
    obtain ⟨st2, hu, rfl⟩ := hc
    exact unify_step (alloc_syms (t := .int) h trivial) hu
  | .str b, _, _, _, x, st, r, h, hL, hR, hc => by
    simp only [check, Option.map_eq_some_iff] at hc
    obtain ⟨st2, hu, rfl⟩ := hc
    exact unify_step (alloc_syms (t := .str) h trivial) hu
  | .lambda fold p _ _ body, _, _, _, x, st, r, h, hL, hR, hc => by
    simp only [check, Option.bind_eq_some_iff, Option.map_eq_some_iff] at hc
    obtain ⟨st2, hu, st3, hu3, rb, hrb, rfl⟩ := hc
    have h1 := fresh_syms (fresh_syms (instName_syms (s := p) hT h))
    have h2 : Syms S st2.u := by
      refine unify_step ?_ hu
      cases fold with
      | true => exact alloc_syms (t := .folded _ _) h1 trivial
      | false => exact h1
    exact (check_syms hT body (unify_step (alloc_syms (t := .fn _ _) h2 trivial) hu3) hL hR.2 hrb :)
  | .paren e, _, _, _, x, st, r, h, hL, hR, hc => by
    simp only [check, Option.map_eq_some_iff] at hc
    obtain ⟨r', hc, rfl⟩ := hc
    exact (check_syms hT e h hL hR hc :)
  | .hole text u, _, _, _, x, st, r, h, hL, hR, hc => by
    simp only [check, Option.some.injEq] at hc
    subst hc
    exact h
theorem checkCases_syms {S T n} (hT : TabSyms S T) :
    ∀ (cs : List (Case Unit)) {Δ dom vs primary recTy x st r}, Syms S st.u → NoLetVarsCases cs → ResolvedCases Δ T dom vs cs →
    checkCases n T primary recTy x cs st = some r → Syms S r.1.u
  | [], _, _, _, _, _, x, st, r, h, _, _, hc => by
    simp only [checkCases, Option.some.injEq] at hc
    subst hc
    exact h
  | .mk c pvs body :: cs, _, _, _, primary, recTy, x, st, r, h, hL, hR, hc => by
    obtain ⟨⟨d, hctor⟩, hpv, hRb, hRc⟩ := hR
    simp only [checkCases, hctor, Option.bind_eq_some_iff, Option.map_eq_some_iff] at hc
    obtain ⟨rv, ⟨st2, hu, hrv⟩, rb, hrb, rc, hrc, rfl⟩ := hc
    obtain ⟨c1, c2⟩ := hT.ctor c d hctor
    have h1 := unify_step (applyVars_syms d.vars (alloc_syms (t := .named d.tySym) h c1)) hu
    have h2 : Syms S rv.1.u := by
      split at hrv
      · cases hrv; exact h1
      · exact checkVars_syms hT pvs d.fields h1 (by rw [applyVars_fst]; exact c2) hrv
    exact (checkCases_syms hT cs (check_syms hT body h2 hL.1 hRb hrb) hL.2 hRc hrc :)
end

theorem tysSyms_append : ∀ (xs ys : List IrTy), tysSyms (xs ++ ys) = tysSyms xs ++ tysSyms ys
  | [], _ => rfl
  | x :: xs, ys => by simp [tysSyms, tysSyms_append xs ys]

theorem normalize_syms {S u n i t} (h : Syms S u) (hn : normalize n u i = some (some t)) : SlotSym S (.ty t) := by
  simp only [normalize, Option.bind_eq_some_iff] at hn
  obtain ⟨j, -, hn⟩ := hn
  split at hn
  · rename_i hg; cases hn; exact h.get hg
  · cases hn
  · cases hn

theorem toIr_syms {S u n i t} (h : Syms S u) (ht : toIr n u i = some (some t)) : ∀ s ∈ tySyms t, S s := by
  induction n generalizing i t with
  | zero => simp [toIr] at ht
  | succ n ih =>
    simp only [toIr, Option.bind_eq_some_iff] at ht
    obtain ⟨nt, hnt, ht⟩ := ht
    cases nt with
    | none => cases ht; simp [tySyms]
    | some ty =>
      cases ty with
      | int => cases ht; simp [tySyms]
      | bool => cases ht; simp [tySyms]
      | str => cases ht; simp [tySyms]
      | error => cases ht; simp [tySyms]
      | named s =>
        cases ht
        intro k hk
        simp [tySyms, tysSyms] at hk
        subst hk
        exact normalize_syms h hnt
      | apply a b =>
        simp only [Option.bind_eq_some_iff] at ht
        obtain ⟨ra, ha, ht⟩ := ht
        split at ht
        · simp only [Option.bind_eq_some_iff, Option.some.injEq] at ht
          obtain ⟨rb, hb, ht⟩ := ht
          simp only [Option.map_eq_some_iff] at ht
          obtain ⟨b', rfl, rfl⟩ := ht
          intro k hk
          simp only [tySyms, tysSyms_append, List.mem_cons, List.mem_append, tysSyms, List.append_nil] at hk
          rcases hk with rfl | hk | hk
          · exact ih ha _ (by simp [tySyms])
          · exact ih ha _ (by simp [tySyms, hk])
          · exact ih hb _ hk
        · cases ht
      | fn a b =>
        simp only [Option.bind_eq_some_iff] at ht
        obtain ⟨ra, ha, ht⟩ := ht
        cases ra with
        | none => cases ht
        | some a' =>
          simp only [Option.bind_eq_some_iff, Option.some.injEq] at ht
          obtain ⟨rb, hb, ht⟩ := ht
          simp only [Option.map_eq_some_iff] at ht
          obtain ⟨b', rfl, rfl⟩ := ht
          intro k hk
          simp only [tySyms, List.mem_append] at hk
          rcases hk with hk | hk
          · exact ih ha _ hk
          · exact ih hb _ hk
      | folded a b =>
        simp only [Option.bind_eq_some_iff] at ht
        obtain ⟨ra, ha, ht⟩ := ht
        cases ra with
        | none => cases ht
        | some a' =>
          simp only [Option.bind_eq_some_iff, Option.some.injEq] at ht
          obtain ⟨rb, hb, ht⟩ := ht
          simp only [Option.map_eq_some_iff] at ht
          obtain ⟨b', rfl, rfl⟩ := ht
          intro k hk
          simp only [tySyms, List.mem_append] at hk
          rcases hk with hk | hk
          · exact ih ha _ hk
          · exact ih hb _ hk

/-! ### Putting it together -/

theorem mapOpt_all {α β : Type} {f : α → Option β} {P : β → Prop} (hf : ∀ a b, f a = some b → P b) :
    ∀ {as : List α} {bs : List β}, mapOpt f as = some bs → ∀ b ∈ bs, P b
  | [], _, hm => by simp [mapOpt] at hm; subst hm; simp
  | a :: as, _, hm => by
    simp only [mapOpt, Option.bind_eq_some_iff, Option.map_eq_some_iff] at hm
    obtain ⟨b, hb, bs, hbs, rfl⟩ := hm
    intro c hc
    rcases List.mem_cons.mp hc with rfl | hc
    · exact hf a _ hb
    · exact mapOpt_all hf hbs c hc

mutual
theorem read_all {α β : Type} {f : α → Option β} {P : β → Prop} (hf : ∀ a b, f a = some b → P b) :
    ∀ (e : Ex α) {e' : Ex β}, e.read f = some e' → e'.All P
  | .name s inst, e', hr => by
    simp only [Ex.read, Option.map_eq_some_iff] at hr
    obtain ⟨i, hi, rfl⟩ := hr
    exact mapOpt_all hf hi
  | .apply x y, e', hr => by
    simp only [Ex.read, Option.map_eq_some_iff, Option.bind_eq_some_iff] at hr
    obtain ⟨x', hx, y', hy, rfl⟩ := hr
    exact ⟨read_all hf x hx, read_all hf y hy⟩
  | .binary o x y, e', hr => by
    simp only [Ex.read, Option.map_eq_some_iff, Option.bind_eq_some_iff] at hr
    obtain ⟨x', hx, y', hy, rfl⟩ := hr
    exact ⟨read_all hf x hx, read_all hf y hy⟩
  | .pipe x y, e', hr => by
    simp only [Ex.read, Option.map_eq_some_iff, Option.bind_eq_some_iff] at hr
    obtain ⟨x', hx, y', hy, rfl⟩ := hr
    exact ⟨read_all hf x hx, read_all hf y hy⟩
  | .let_ s vars ann ty x y, e', hr => by
    simp only [Ex.read, Option.map_eq_some_iff, Option.bind_eq_some_iff] at hr
    obtain ⟨ty', ht, x', hx, y', hy, rfl⟩ := hr
    exact ⟨hf _ _ ht, read_all hf x hx, read_all hf y hy⟩
  | .match_ d ty cs, e', hr => by
    simp only [Ex.read, Option.map_eq_some_iff, Option.bind_eq_some_iff] at hr
    obtain ⟨x', hx, ty', ht, y', hy, rfl⟩ := hr
    exact ⟨read_all hf d hx, hf _ _ ht, casesRead_all hf cs hy⟩
  | .ite x y z, e', hr => by
    simp only [Ex.read, Option.map_eq_some_iff, Option.bind_eq_some_iff] at hr
    obtain ⟨x', hx, y', hy, z', hz, rfl⟩ := hr
    exact ⟨read_all hf x hx, read_all hf y hy, read_all hf z hz⟩
  | .bool b, e', hr => by simp only [Ex.read, Option.some.injEq] at hr; subst hr; trivial
  | .number b, e', hr => by simp only [Ex.read, Option.some.injEq] at hr; subst hr; trivial
  | .str b, e', hr => by simp only [Ex.read, Option.some.injEq] at hr; subst hr; trivial
  | .lambda fd p t1 t2 x, e', hr => by
    simp only [Ex.read, Option.map_eq_some_iff, Option.bind_eq_some_iff] at hr
    obtain ⟨t1', h1', t2', h2', x', hx, rfl⟩ := hr
    exact ⟨hf _ _ h1', hf _ _ h2', read_all hf x hx⟩
  | .paren x, e', hr => by
    simp only [Ex.read, Option.map_eq_some_iff] at hr
    obtain ⟨x', hx, rfl⟩ := hr
    exact (read_all hf x hx :)
  | .hole t ty, e', hr => by
    simp only [Ex.read, Option.map_eq_some_iff] at hr
    obtain ⟨x', hx, rfl⟩ := hr
    exact hf _ _ hx
theorem casesRead_all {α β : Type} {f : α → Option β} {P : β → Prop} (hf : ∀ a b, f a = some b → P b) :
    ∀ (cs : List (Case α)) {cs' : List (Case β)}, casesRead f cs = some cs' → casesAll P cs'
  | [], _, hr => by simp only [casesRead, Option.some.injEq] at hr; subst hr; trivial
  | .mk c vs x :: cs, _, hr => by
    simp only [casesRead, Option.map_eq_some_iff, Option.bind_eq_some_iff] at hr
    obtain ⟨vs', hvs, x', hx, cs', hcs, rfl⟩ := hr
    refine ⟨?_, read_all hf x hx, casesRead_all hf cs hcs⟩
    exact mapOpt_all (f := fun p : Symbol × α => (f p.2).map fun t => (p.1, t)) (P := fun q => P q.2) (fun p q hq => by
        simp only [Option.map_eq_some_iff] at hq
        obtain ⟨t, ht, rfl⟩ := hq
        exact hf _ _ ht) hvs
end

mutual
theorem nodes_all {P : IrTy → Prop} : ∀ (e : Ex IrTy) {vs}, e.All P → NoLetVars e →
    ∀ p ∈ nodes vs e, p.1 = vs ∧ ∀ t ∈ annots p.2, P t
  | .name s i, vs, h, _, p, hp => by simp only [nodes, List.mem_singleton] at hp; subst hp; exact ⟨rfl, h⟩
  | .apply f a, vs, h, hL, p, hp => by
    simp only [nodes, List.mem_cons, List.mem_append] at hp
    rcases hp with rfl | hp | hp
    · exact ⟨rfl, by simp [annots]⟩
    · exact nodes_all f h.1 hL.1 p hp
    · exact nodes_all a h.2 hL.2 p hp
  | .binary _ f a, vs, h, hL, p, hp => by
    simp only [nodes, List.mem_cons, List.mem_append] at hp
    rcases hp with rfl | hp | hp
    · exact ⟨rfl, by simp [annots]⟩
    · exact nodes_all f h.1 hL.1 p hp
    · exact nodes_all a h.2 hL.2 p hp
  | .pipe f a, vs, h, hL, p, hp => by
    simp only [nodes, List.mem_cons, List.mem_append] at hp
    rcases hp with rfl | hp | hp
    · exact ⟨rfl, by simp [annots]⟩
    · exact nodes_all f h.1 hL.1 p hp
    · exact nodes_all a h.2 hL.2 p hp
  | .let_ s vars ann ty f a, vs, h, hL, p, hp => by
    obtain ⟨rfl, hL1, hL2⟩ := hL
    simp only [nodes, List.mem_cons, List.mem_append] at hp
    rcases hp with rfl | hp | hp
    · exact ⟨rfl, by simpa [annots] using h.1⟩
    · exact nodes_all f h.2.1 hL1 p hp
    · exact nodes_all a h.2.2 hL2 p hp
  | .match_ d ty cs, vs, h, hL, p, hp => by
    simp only [nodes, List.mem_cons, List.mem_append] at hp
    rcases hp with rfl | hp | hp
    · exact ⟨rfl, by simpa [annots] using h.2.1⟩
    · exact nodes_all d h.1 hL.1 p hp
    · exact caseNodes_all cs h.2.2 hL.2 p hp
  | .ite a b c, vs, h, hL, p, hp => by
    simp only [nodes, List.mem_cons, List.mem_append] at hp
    rcases hp with rfl | hp | hp | hp
    · exact ⟨rfl, by simp [annots]⟩
    · exact nodes_all a h.1 hL.1 p hp
    · exact nodes_all b h.2.1 hL.2.1 p hp
    · exact nodes_all c h.2.2 hL.2.2 p hp
  | .bool _, vs, h, _, p, hp => by simp only [nodes, List.mem_singleton] at hp; subst hp; exact ⟨rfl, by simp [annots]⟩
  | .number _, vs, h, _, p, hp => by simp only [nodes, List.mem_singleton] at hp; subst hp; exact ⟨rfl, by simp [annots]⟩
  | .str _, vs, h, _, p, hp => by simp only [nodes, List.mem_singleton] at hp; subst hp; exact ⟨rfl, by simp [annots]⟩
  | .lambda _ _ _ _ b, vs, h, hL, p, hp => by
    simp only [nodes, List.mem_cons] at hp
    rcases hp with rfl | hp
    · exact ⟨rfl, by simpa [annots] using h.1⟩
    · exact nodes_all b h.2.2 hL p hp
  | .paren b, vs, h, hL, p, hp => by
    simp only [nodes, List.mem_cons] at hp
    rcases hp with rfl | hp
    · exact ⟨rfl, by simp [annots]⟩
    · exact nodes_all b h hL p hp
  | .hole _ _, vs, h, _, p, hp => by
    simp only [nodes, List.mem_singleton] at hp; subst hp
    exact ⟨rfl, fun t ht => by simp only [annots, List.mem_singleton] at ht; subst ht; exact h⟩
theorem caseNodes_all {P : IrTy → Prop} : ∀ (cs : List (Case IrTy)) {vs}, casesAll P cs → NoLetVarsCases cs →
    ∀ p ∈ caseNodes vs cs, p.1 = vs ∧ ∀ t ∈ annots p.2, P t
  | [], _, _, _, p, hp => by simp [caseNodes] at hp
  | .mk _ _ b :: cs, vs, h, hL, p, hp => by
    simp only [caseNodes, List.mem_append] at hp
    rcases hp with hp | hp
    · exact nodes_all b h.2.1 hL.1 p hp
    · exact caseNodes_all cs h.2.2 hL.2 p hp
end

mutual
theorem noLetVars_erase {α : Type} : ∀ (e : Ex α), NoLetVars e.erase → NoLetVars e
  | .name .., _ => trivial
  | .apply f a, h => ⟨noLetVars_erase f h.1, noLetVars_erase a h.2⟩
  | .binary _ f a, h => ⟨noLetVars_erase f h.1, noLetVars_erase a h.2⟩
  | .pipe f a, h => ⟨noLetVars_erase f h.1, noLetVars_erase a h.2⟩
  | .let_ _ _ _ _ f a, h => ⟨h.1, noLetVars_erase f h.2.1, noLetVars_erase a h.2.2⟩
  | .match_ d _ cs, h => ⟨noLetVars_erase d h.1, noLetVarsCases_erase cs h.2⟩
  | .ite a b c, h => ⟨noLetVars_erase a h.1, noLetVars_erase b h.2.1, noLetVars_erase c h.2.2⟩
  | .bool _, _ => trivial
  | .number _, _ => trivial
  | .str _, _ => trivial
  | .lambda _ _ _ _ b, h => noLetVars_erase b h
  | .paren e, h => noLetVars_erase e h
  | .hole .., _ => trivial
theorem noLetVarsCases_erase {α : Type} : ∀ (cs : List (Case α)), NoLetVarsCases (casesErase cs) → NoLetVarsCases cs
  | [], _ => trivial
  | .mk _ _ b :: cs, h => ⟨noLetVars_erase b h.1, noLetVarsCases_erase cs h.2⟩
end

mutual
theorem wfTy_syms {Δ : List TypeDecl} {vs} : ∀ {t}, WfTy Δ vs t → ∀ s ∈ tySyms t, s ∈ vs ∨ (declOf Δ s).isSome
  | .named k args, h, s, hs => by
    simp only [tySyms, List.mem_cons] at hs
    rcases hs with rfl | hs
    · exact h.1
    · exact wfTys_syms h.2.2 s hs
  | .fn a b, h, s, hs => by
    simp only [tySyms, List.mem_append] at hs
    rcases hs with hs | hs
    · exact wfTy_syms h.1 s hs
    · exact wfTy_syms h.2 s hs
  | .folded a b, h, s, hs => by
    simp only [tySyms, List.mem_append] at hs
    rcases hs with hs | hs
    · exact wfTy_syms h.1 s hs
    · exact wfTy_syms h.2 s hs
  | .int, _, _, hs => by simp [tySyms] at hs
  | .bool, _, _, hs => by simp [tySyms] at hs
  | .str, _, _, hs => by simp [tySyms] at hs
  | .error, _, _, hs => by simp [tySyms] at hs
  | .infer, _, _, hs => by simp [tySyms] at hs
theorem wfTys_syms {Δ : List TypeDecl} {vs} : ∀ {ts}, WfTys Δ vs ts → ∀ s ∈ tysSyms ts, s ∈ vs ∨ (declOf Δ s).isSome
  | [], _, _, hs => by simp [tysSyms] at hs
  | _ :: _, h, s, hs => by
    simp only [tysSyms, List.mem_append] at hs
    rcases hs with hs | hs
    · exact wfTy_syms h.1 s hs
    · exact wfTys_syms h.2 s hs
end

/-- **C37**, without the condition on type variables: if no local definition has type variables of
its own, then none can escape. -/
theorem typecheck_sound_simple {Δ : List TypeDecl} {D : Symbol → Option DefKind} {refs : List Symbol} {Γ : Ctx} {sch : Scheme} {e : Ex Unit}
    {n : Nat} {r : Checked} (hD : DefsOK Δ D) (hΓ : Globals D refs Γ) (hw : WfTy Δ sch.vars sch.ty)
    (hS : Scoped Δ D refs (Γ.map (·.1)) sch.vars e) (hL : NoLetVars e)
    (hC : ∀ s sc, D s = some (.value sc) → sc.ty ≠ .infer → WfTy Δ (sc.vars ++ sch.vars) sc.ty)
    (hrun : typeCheck n D refs sch.ty e = some r) (hq : r.diags = []) (hN : NoNestedFold r.expr) (hM : Covered Δ r.expr) :
    r.expr.erase = e ∧ HasTy Δ sch.vars Γ (r.expr.map fill) sch.ty := by
  obtain ⟨h1, h2⟩ := typecheck_sound hD hΓ hw hS hrun hq
  refine ⟨h1, h2 ?_ hN hM⟩
  obtain ⟨ar, hinv⟩ := refsInv (Δ := Δ) D refs
  simp only [typeCheck, Option.bind_eq_some_iff, Option.map_eq_some_iff] at hrun
  obtain ⟨c, hc, e', he', rfl⟩ := hrun
  have hT : TabSyms (fun s => s ∈ sch.vars ∨ (declOf Δ s).isSome) (addRefs D refs).1 := by
    constructor
    · intro s sc hs k hk
      rcases hinv.names s with h | h
      · rw [hs] at h; cases h
      · split at h
        · rename_i sc' hd
          by_cases hne : sc'.ty = .infer
          · obtain ⟨i, h⟩ := h.1 hne; rw [hs] at h; cases h
          · have h := h.2 hne
            rw [hs] at h; cases h
            rcases wfTy_syms (hC s sc hd hne) k hk with h | h
            · rcases List.mem_append.mp h with h | h
              · exact .inl h
              · exact .inr (.inl h)
            · exact .inr (.inr h)
        · rename_i d f hd
          rw [hs] at h; cases h
          obtain ⟨rfl, decl, h2, h3, -, h4, h5⟩ := hD.ctor s d f hd
          rcases wfTy_syms (wfTy_ctorTy h2 h3 h4 h5) k hk with h | h
          · exact .inl h
          · exact .inr (.inr h)
        · exact h.elim
    · intro c d hcd
      obtain ⟨f, hf⟩ := hinv.ctors c d hcd
      obtain ⟨-, decl, h2, h3, -, h4, h5⟩ := hD.ctor c d f hf
      refine ⟨.inr (by rw [h2]; rfl), fun t ht k hk => ?_⟩
      rcases wfTy_syms (h5 t ht) k hk with h | h
      · exact .inl h
      · exact .inr (.inr h)
  have h0 : Syms (fun s => s ∈ sch.vars ∨ (declOf Δ s).isSome) (addRefs D refs).2.u := by
    have : ∀ (rs : List Symbol) (p : Tables × TcSt), Syms (fun s => s ∈ sch.vars ∨ (declOf Δ s).isSome) p.2.u →
        Syms (fun s => s ∈ sch.vars ∨ (declOf Δ s).isSome) (rs.foldl (addRef D) p).2.u := by
      intro rs
      induction rs with
      | nil => intro p h; exact h
      | cons s rs ih =>
        intro p h
        refine ih _ ?_
        unfold addRef
        split
        · split
          · split
            · exact h
            · exact fresh_syms h
          · exact h
        · exact h
        · exact h
    exact this refs _ ⟨by simp, by simp⟩
  have hx := inst_syms (S := fun s => s ∈ sch.vars ∨ (declOf Δ s).isSome) [] sch.ty h0 (fun s hs => .inr (wfTy_syms hw s hs))
  have hu := check_syms hT e hx hL (resolved_of hinv e hS) hc
  have hall := read_all (P := fun t => ∀ s ∈ tySyms t, s ∈ sch.vars ∨ (declOf Δ s).isSome) (fun i b hb => by
    simp only [Option.join_eq_some_iff] at hb
    exact toIr_syms hu hb) c.2 he'
  have hL' : NoLetVars e' := noLetVars_erase e' (by rw [show e'.erase = e from h1]; exact hL)
  intro p hp t ht s hs
  obtain ⟨hv, ha⟩ := nodes_all e' hall hL' p hp
  rcases ha t ht s hs with h | h
  · exact .inl (List.mem_append.mpr (.inr (by rw [hv]; exact h)))
  · exact .inr h

end Tic.Front
