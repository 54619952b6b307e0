import Verif.PropTypeck
/-
C37: type checking terminates and never panics.
-/
namespace Tic.Front
open Tic.Unify

/-- With enough steps the outcome is `r`. -/
def Ends {α : Type} (f : Nat → Option α) (r : α) : Prop := ∃ N, ∀ n, N ≤ n → f n = some r

theorem Ends.ret {α : Type} (r : α) : Ends (fun _ => some r) r := ⟨0, fun _ _ => rfl⟩

theorem Ends.bind {α β : Type} {f : Nat → Option α} {g : Nat → α → Option β} {a b} (h : Ends f a) (h' : Ends (fun n => g n a) b) :
    Ends (fun n => (f n).bind (g n)) b := by
  obtain ⟨N, h⟩ := h
  obtain ⟨M, h'⟩ := h'
  exact ⟨max N M, fun n hn => by simp only [h n (by omega)]; exact h' n (by omega)⟩

theorem Ends.map {α β : Type} {f : Nat → Option α} {g : α → β} {a} (h : Ends f a) : Ends (fun n => (f n).map g) (g a) := by
  obtain ⟨N, h⟩ := h
  exact ⟨N, fun n hn => by simp only [h n hn]; rfl⟩

/-- The outcome at one particular number of steps. -/
theorem Ends.get {α : Type} {f : Nat → Option α} {r} (h : Ends f r) : ∃ n, f n = some r := by
  obtain ⟨N, h⟩ := h
  exact ⟨N, h N (Nat.le_refl N)⟩

theorem unify_ends {count st ar a b} (h : Good count st.u ar) (ha : Typ st.u ar a) (hb : Typ st.u ar b) :
    ∃ st', Ends (fun n => st.unify n a b) st' ∧ Step count st ar st' ar := by
  obtain ⟨N, r, hr⟩ := unify_terminates h.reach.reach ha.1 hb.1
  have he : Ends (fun n => st.unify n a b) { u := r.1, diags := if r.2 then st.diags else .mismatch a b :: st.diags } :=
    Ends.map (f := fun n => unifyTop n st.u a b) ⟨N, hr⟩
  obtain ⟨n, hn⟩ := he.get
  exact ⟨_, he, (step_unify h ha.1 hb.1 (by rw [ha.2, hb.2]) hn).1⟩

theorem normalize_ends {count u ar i} (h : Good count u ar) (hi : Typ u ar i) :
    ∃ t, Ends (fun n => normalize n u i) t ∧ ∀ a b, t = some (.folded a b) → Typ u ar a ∧ Typ u ar b := by
  obtain ⟨r, hr⟩ := (reachable_wf h.reach.reach).1.rank
  obtain ⟨N, j, hj⟩ := finalIdx_total hr hi.1
  have F := finalIdx_spec hj
  have hn : ∃ t, normalize N u i = some t := by
    simp only [normalize, hj, Option.bind_some]
    rcases F.fin with hg | ⟨t, hg⟩ <;> rw [hg] <;> exact ⟨_, rfl⟩
  obtain ⟨t, ht⟩ := hn
  refine ⟨t, ⟨N, fun n hn => normalize_mono ht hn⟩, ?_⟩
  rintro a b rfl
  obtain ⟨k, hg, -⟩ := normalize_sat ht
  have hs := h.slots k _ hg
  exact ⟨⟨refs_lt h (i := k) (by simp [Unifier.refs, hg, Ty.refs]), hs.2.1⟩,
    ⟨refs_lt h (i := k) (by simp [Unifier.refs, hg, Ty.refs]), hs.2.2⟩⟩

mutual
/-- All annotations satisfy `p`. -/
def Ex.All {α : Type} (p : α → Prop) : Ex α → Prop
  | .name _ inst => ∀ i ∈ inst, p i
  | .apply f a => f.All p ∧ a.All p
  | .binary _ l r => l.All p ∧ r.All p
  | .pipe l r => l.All p ∧ r.All p
  | .let_ _ _ _ ty v rest => p ty ∧ v.All p ∧ rest.All p
  | .match_ d dty cases => d.All p ∧ p dty ∧ casesAll p cases
  | .ite c t e => c.All p ∧ t.All p ∧ e.All p
  | .bool _ => True
  | .number _ => True
  | .str _ => True
  | .lambda _ _ pty fty body => p pty ∧ p fty ∧ body.All p
  | .paren e => e.All p
  | .hole _ ty => p ty
/-- ... in match cases. -/
def casesAll {α : Type} (p : α → Prop) : List (Case α) → Prop
  | [] => True
  | .mk _ vs e :: cs => (∀ q ∈ vs, p q.2) ∧ e.All p ∧ casesAll p cs
end

mutual
theorem Ex.All.imp {α : Type} {p q : α → Prop} (h : ∀ a, p a → q a) : ∀ (e : Ex α), e.All p → e.All q
  | .name .., H => fun i hi => h i (H i hi)
  | .apply f a, H => ⟨Ex.All.imp h f H.1, Ex.All.imp h a H.2⟩
  | .binary _ f a, H => ⟨Ex.All.imp h f H.1, Ex.All.imp h a H.2⟩
  | .pipe f a, H => ⟨Ex.All.imp h f H.1, Ex.All.imp h a H.2⟩
  | .let_ _ _ _ _ v r, H => ⟨h _ H.1, Ex.All.imp h v H.2.1, Ex.All.imp h r H.2.2⟩
  | .match_ d _ cs, H => ⟨Ex.All.imp h d H.1, h _ H.2.1, casesAll.imp h cs H.2.2⟩
  | .ite a b c, H => ⟨Ex.All.imp h a H.1, Ex.All.imp h b H.2.1, Ex.All.imp h c H.2.2⟩
  | .bool _, _ => trivial
  | .number _, _ => trivial
  | .str _, _ => trivial
  | .lambda _ _ _ _ b, H => ⟨h _ H.1, h _ H.2.1, Ex.All.imp h b H.2.2⟩
  | .paren e, H => Ex.All.imp h e H
  | .hole .., H => h _ H
theorem casesAll.imp {α : Type} {p q : α → Prop} (h : ∀ a, p a → q a) : ∀ (cs : List (Case α)), casesAll p cs → casesAll q cs
  | [], _ => trivial
  | .mk _ _ e :: cs, H => ⟨fun v hv => h _ (H.1 v hv), Ex.All.imp h e H.2.1, casesAll.imp h cs H.2.2⟩
end

/-- The outcome of checking: the state is a later one, and all annotations are valid. -/
def TotE (Δ : List TypeDecl) (f : Nat → Option (TcSt × Ex Nat)) (st : TcSt) (ar : Nat → Nat) : Prop :=
  ∃ r ar', Ends f r ∧ Step (arity Δ) st ar r.1 ar' ∧ r.2.All (· < r.1.u.slots.length)

theorem Step.later {count st ar st' ar'} (s : Step count st ar st' ar') {e : Ex Nat} (h : e.All (· < st.u.slots.length)) :
    e.All (· < st'.u.slots.length) := Ex.All.imp (fun _ hi => Nat.lt_of_lt_of_le hi s.evo.len) e h

theorem checkVars_ends {Δ : List TypeDecl} {T : Tables} {vars} {inst : List (Symbol × Nat)} {recTy : Nat} (hT : TabOK Δ T) :
    ∀ (vs : List (Symbol × Unit)) (fs : List Field) {st ar}, Good (arity Δ) st.u ar → InferOK T st.u ar → VarsOK Δ st.u ar inst →
    Typ st.u ar recTy → (∀ t, Field.ty t ∈ fs → WfTy Δ vars t) → (∀ p ∈ vs, ∃ i, T.names p.1 = some (.infer i)) →
    ∃ r ar', Ends (fun n => checkVars n T inst recTy vs fs st) r ∧ Step (arity Δ) st ar r.1 ar' ∧ ∀ p ∈ r.2, p.2 < r.1.u.slots.length
  | [], fs, st, ar, h, _, _, _, _, _ => ⟨(st, []), ar, ⟨0, fun n _ => by simp [checkVars]⟩, .refl h, by simp⟩
  | _ :: _, [], st, ar, h, _, _, _, _, _ => ⟨(st, []), ar, ⟨0, fun n _ => by simp [checkVars]⟩, .refl h, by simp⟩
  | (v, ()) :: vs, f :: fs, st, ar, h, hI, hV, hr, hf, hn => by
    obtain ⟨i, hi⟩ := hn (v, ()) (by simp)
    have he : instName T st v = (st, i, []) := by simp only [instName, hi]
    have hti := hI v i hi
    obtain ⟨a1, s1, t1⟩ : ∃ a1, Step (arity Δ) st ar (match f with | .rec_ => (st, recTy) | .ty t => st.inst inst t).1 a1 ∧
        Typ (match f with | .rec_ => (st, recTy) | .ty t => st.inst inst t).1.u a1 (match f with | .rec_ => (st, recTy) | .ty t => st.inst inst t).2 := by
      cases f with
      | rec_ => exact ⟨ar, .refl h, hr⟩
      | ty t =>
        obtain ⟨a1, s1, t1, -⟩ := step_inst (vs := vars) (ty := t) h hV (hf t (by simp))
        exact ⟨a1, s1, t1⟩
    obtain ⟨st2, u2, s2⟩ := unify_ends s1.evo.good t1 (s1.evo.typ hti)
    have s12 := s1.trans s2
    obtain ⟨r, a3, e3, s3, l3⟩ := checkVars_ends hT vs fs s2.evo.good (hI.step s12) (hV.evo s12.evo) (s12.evo.typ hr)
      (fun t ht => hf t (by simp [ht])) (fun p hp => hn p (by simp [hp]))
    refine ⟨(r.1, (v, i) :: r.2), a3, ?_, s12.trans s3, ?_⟩
    · simp only [checkVars, he]
      exact u2.bind (Ends.map e3)
    · intro p hp
      rcases List.mem_cons.mp hp with rfl | hp
      · exact (s3.evo.typ (s12.evo.typ hti)).1
      · exact l3 p hp

theorem opaque_step {Δ : List TypeDecl} {T : Tables} {st ar s vars ann vs} (h : Good (arity Δ) st.u ar) (hI : InferOK T st.u ar)
    (h1 : ∀ a, ann = some a → T.names s = some (.inst ⟨vars, a⟩) ∧ WfTy Δ (vars ++ vs) a)
    (h2 : ann = none → vars = [] ∧ ∃ i, T.names s = some (.infer i)) :
    (∃ ar', Step (arity Δ) st ar (opaqueName T st s).1 ar' ∧ Typ (opaqueName T st s).1.u ar' (opaqueName T st s).2) ∧
      ∃ nt, T.names s = some nt := by
  cases ann with
  | none =>
    obtain ⟨-, i, hi⟩ := h2 rfl
    refine ⟨?_, _, hi⟩
    simp only [opaqueName, hi]
    exact ⟨ar, .refl h, hI s i hi⟩
  | some a =>
    obtain ⟨hi, hw⟩ := h1 a rfl
    refine ⟨?_, _, hi⟩
    simp only [opaqueName, hi]
    obtain ⟨a1, s1, t1, -⟩ := step_inst (vars := []) h (by intro q hq; cases hq) hw
    exact ⟨a1, s1, t1⟩

mutual
theorem check_total {Δ : List TypeDecl} {T : Tables} (hT : TabOK Δ T) : ∀ (e : Ex Unit) {dom vs x st ar},
    Good (arity Δ) st.u ar → InferOK T st.u ar → Typ st.u ar x → (∀ s ∈ dom, ∃ nt, T.names s = some nt) →
    Resolved Δ T dom vs e → TotE Δ (fun n => check n T e x st) st ar
  | .name s inst, dom, vs, x, st, ar, h, hI, hx, hd, hR => by
    obtain ⟨a1, s1, t1, ti, -, -⟩ := step_instName hT h hI (hd s hR.2)
    obtain ⟨st2, u2, s2⟩ := unify_ends s1.evo.good (s1.evo.typ hx) t1
    refine ⟨(st2, .name s (instName T st s).2.2), a1, ?_, s1.trans s2, fun i hi => ?_⟩
    · simp only [check]
      exact u2.map
    · exact (s2.evo.typ (ti i hi)).1
  | .apply f e, dom, vs, x, st, ar, h, hI, hx, hd, hR => by
    obtain ⟨a1, s1, t1⟩ := step_fresh h
    obtain ⟨a2, s2, t2⟩ := step_fresh s1.evo.good
    obtain ⟨a3, s3, t3, -⟩ := step_fn s2.evo.good (s2.evo.typ t1) t2
    have s13 := (s1.trans s2).trans s3
    obtain ⟨rf, a4, e4, s4, l4⟩ := check_total hT f s3.evo.good (hI.step s13) t3 hd hR.1
    obtain ⟨re, a5, e5, s5, l5⟩ := check_total hT e s4.evo.good (hI.step (s13.trans s4)) (s4.evo.typ (s3.evo.typ (s2.evo.typ t1))) hd hR.2
    have s15 := s13.trans (s4.trans s5)
    obtain ⟨st6, u6, s6⟩ := unify_ends s5.evo.good (s15.evo.typ hx) ((s3.trans (s4.trans s5)).evo.typ t2)
    refine ⟨(st6, .apply rf.2 re.2), a5, ?_, s15.trans s6, (s5.trans s6).later l4, s6.later l5⟩
    simp only [check]
    exact e4.bind (e5.bind u6.map)
  | .binary o l e, dom, vs, x, st, ar, h, hI, hx, hd, hR => by
    obtain ⟨a1, s1, t1, -⟩ := step_base h .int (.inl rfl)
    obtain ⟨rl, a2, e2, s2, l2⟩ := check_total hT l s1.evo.good (hI.step s1) t1 hd hR.1
    obtain ⟨rr, a3, e3, s3, l3⟩ := check_total hT e s2.evo.good (hI.step (s1.trans s2)) (s2.evo.typ t1) hd hR.2
    have s13 := s1.trans (s2.trans s3)
    by_cases ho : resultTy o = .int
    · obtain ⟨st4, u4, s4⟩ := unify_ends s3.evo.good (s13.evo.typ hx) ((s2.trans s3).evo.typ t1)
      refine ⟨(st4, .binary o rl.2 rr.2), a3, ?_, s13.trans s4, (s3.trans s4).later l2, s4.later l3⟩
      simp only [check, ho]
      exact e2.bind (e3.bind u4.map)
    · obtain ⟨a4, s4, t4, -⟩ := step_base s3.evo.good .bool (.inr (.inl rfl))
      have s14 := s13.trans s4
      obtain ⟨st5, u5, s5⟩ := unify_ends s4.evo.good (s14.evo.typ hx) t4
      refine ⟨(st5, .binary o rl.2 rr.2), a4, ?_, s14.trans s5, (s3.trans (s4.trans s5)).later l2, (s4.trans s5).later l3⟩
      have ho' : resultTy o = .bool := by cases o <;> first | rfl | exact absurd rfl ho
      simp only [check, ho']
      exact e2.bind (e3.bind u5.map)
  | .pipe l e, dom, vs, x, st, ar, h, hI, hx, hd, hR => by
    obtain ⟨a1, s1, t1⟩ := step_fresh h
    obtain ⟨rl, a2, e2, s2, l2⟩ := check_total hT l s1.evo.good (hI.step s1) t1 hd hR.1
    obtain ⟨a3, s3, t3⟩ := step_fresh s2.evo.good
    obtain ⟨a4, s4, t4, -⟩ := step_fn s3.evo.good ((s2.trans s3).evo.typ t1) t3
    have s14 := ((s1.trans s2).trans s3).trans s4
    obtain ⟨rr, a5, e5, s5, l5⟩ := check_total hT e s4.evo.good (hI.step s14) t4 hd hR.2
    have s15 := s14.trans s5
    obtain ⟨st6, u6, s6⟩ := unify_ends s5.evo.good (s15.evo.typ hx) ((s4.trans s5).evo.typ t3)
    refine ⟨(st6, .pipe rl.2 rr.2), a5, ?_, s15.trans s6, (s3.trans (s4.trans (s5.trans s6))).later l2, s6.later l5⟩
    simp only [check]
    exact e2.bind (e5.bind u6.map)
  | .let_ s vars ann _ v rest, dom, vs, x, st, ar, h, hI, hx, hd, hR => by
    obtain ⟨hfresh, hann, hinf, hRv, hRr⟩ := hR
    obtain ⟨⟨a1, s1, t1⟩, nt, hnt⟩ := opaque_step h hI hann hinf
    obtain ⟨rv, a2, e2, s2, l2⟩ := check_total hT v s1.evo.good (hI.step s1) t1 hd hRv
    have s12 := s1.trans s2
    have hd' : ∀ k ∈ s :: dom, ∃ nt, T.names k = some nt := by
      intro k hk
      rcases List.mem_cons.mp hk with rfl | hk
      · exact ⟨_, hnt⟩
      · exact hd k hk
    obtain ⟨rr, a3, e3, s3, l3⟩ := check_total hT rest s2.evo.good (hI.step s12) (s12.evo.typ hx) hd' hRr
    refine ⟨(rr.1, .let_ s vars ann (opaqueName T st s).2 rv.2 rr.2), a3, ?_, s12.trans s3, ((s2.trans s3).evo.typ t1).1, s3.later l2, l3⟩
    simp only [check]
    exact e2.bind e3.map
  | .match_ d u cases, dom, vs, x, st, ar, h, hI, hx, hd, hR => by
    obtain ⟨a1, s1, t1⟩ := step_fresh h
    obtain ⟨rd, a2, e2, s2, l2⟩ := check_total hT d s1.evo.good (hI.step s1) t1 hd hR.1
    have s12 := s1.trans s2
    have tdv := s2.evo.typ t1
    obtain ⟨nt, en, hnt⟩ := normalize_ends s2.evo.good tdv
    obtain ⟨tp, tr⟩ : Typ rd.1.u a2 (matchParts st.fresh.2 nt).1 ∧ Typ rd.1.u a2 (matchParts st.fresh.2 nt).2 := by
      unfold matchParts
      split
      · exact hnt _ _ rfl
      · exact ⟨tdv, tdv⟩
    obtain ⟨rc, a3, e3, s3, l3⟩ := checkCases_total hT cases s2.evo.good (hI.step s12) tp tr (s12.evo.typ hx) hd hR.2
    refine ⟨(rc.1, .match_ rd.2 st.fresh.2 rc.2), a3, ?_, s12.trans s3, s3.later l2, (s3.evo.typ tdv).1, l3⟩
    simp only [check]
    exact e2.bind (en.bind e3.map)
  | .ite c t e, dom, vs, x, st, ar, h, hI, hx, hd, hR => by
    obtain ⟨a1, s1, t1, -⟩ := step_base h .bool (.inr (.inl rfl))
    obtain ⟨rc, a2, e2, s2, l2⟩ := check_total hT c s1.evo.good (hI.step s1) t1 hd hR.1
    have s12 := s1.trans s2
    obtain ⟨rt, a3, e3, s3, l3⟩ := check_total hT t s2.evo.good (hI.step s12) (s12.evo.typ hx) hd hR.2.1
    have s13 := s12.trans s3
    obtain ⟨re, a4, e4, s4, l4⟩ := check_total hT e s3.evo.good (hI.step s13) (s13.evo.typ hx) hd hR.2.2
    refine ⟨(re.1, .ite rc.2 rt.2 re.2), a4, ?_, s13.trans s4, (s3.trans s4).later l2, s4.later l3, l4⟩
    simp only [check]
    exact e2.bind (e3.bind e4.map)
  | .bool b, dom, vs, x, st, ar, h, hI, hx, hd, hR => by
    obtain ⟨a1, s1, t1, -⟩ := step_base h .bool (.inr (.inl rfl))
    obtain ⟨st2, u2, s2⟩ := unify_ends s1.evo.good (s1.evo.typ hx) t1
    exact ⟨(st2, .bool b), a1, by simp only [check]; exact u2.map, s1.trans s2, trivial⟩
  | .number b, dom, vs, x, st, ar, h, hI, hx, hd, hR => by
    obtain ⟨a1, s1, t1, -⟩ := step_base h .int (.inl rfl)
    obtain ⟨st2, u2, s2⟩ := unify_ends s1.evo.good (s1.evo.typ hx) t1
    exact ⟨(st2, .number b), a1, by simp only [check]; exact u2.map, s1.trans s2, trivial⟩
  | .str b, dom, vs, x, st, ar, h, hI, hx, hd, hR => by
    obtain ⟨a1, s1, t1, -⟩ := step_base h .str (.inr (.inr rfl))
    obtain ⟨st2, u2, s2⟩ := unify_ends s1.evo.good (s1.evo.typ hx) t1
    exact ⟨(st2, .str b), a1, by simp only [check]; exact u2.map, s1.trans s2, trivial⟩
  | .lambda fold p _ _ body, dom, vs, x, st, ar, h, hI, hx, hd, hR => by
    obtain ⟨⟨i, hi⟩, hRb⟩ := hR
    have he : instName T st p = (st, i, []) := by simp only [instName, hi]
    obtain ⟨a1, s1, t1⟩ := step_fresh h
    obtain ⟨a2, s2, t2⟩ := step_fresh s1.evo.good
    have s12 := s1.trans s2
    obtain ⟨arg, harg, a3, s3, t3⟩ : ∃ arg, (if fold = true then st.fresh.1.fresh.1.alloc (.folded st.fresh.2 st.fresh.1.fresh.2)
        else (st.fresh.1.fresh.1, st.fresh.2)) = arg ∧ ∃ a3, Step (arity Δ) st.fresh.1.fresh.1 a2 arg.1 a3 ∧ Typ arg.1.u a3 arg.2 := by
      cases fold with
      | true =>
        obtain ⟨a3, s3, t3, p3⟩ := step_folded s2.evo.good (s2.evo.typ t1) t2
        exact ⟨_, rfl, a3, s3, t3⟩
      | false => exact ⟨_, rfl, a2, .refl s2.evo.good, s2.evo.typ t1⟩
    have s13 := s12.trans s3
    have tp := s13.evo.typ (hI p i hi)
    obtain ⟨st4, u4, s4⟩ := unify_ends s3.evo.good tp t3
    have s34 := s3.trans s4
    obtain ⟨a5, s5, t5, -⟩ := step_fn s4.evo.good (s34.evo.typ (s2.evo.typ t1)) (s34.evo.typ t2)
    have s15 := (s13.trans s4).trans s5
    obtain ⟨st6, u6, s6⟩ := unify_ends s5.evo.good (s15.evo.typ hx) t5
    have s16 := s15.trans s6
    have hd' : ∀ k ∈ p :: dom, ∃ nt, T.names k = some nt := by
      intro k hk
      rcases List.mem_cons.mp hk with rfl | hk
      · exact ⟨_, hi⟩
      · exact hd k hk
    obtain ⟨rb, a7, e7, s7, l7⟩ := check_total hT body s6.evo.good (hI.step s16) ((s34.trans (s5.trans s6)).evo.typ t2) hd' hRb
    have s17 := s16.trans s7
    refine ⟨(rb.1, .lambda fold p i x rb.2), a7, ?_, s17, (s17.evo.typ (hI p i hi)).1, (s17.evo.typ hx).1, l7⟩
    simp only [check, he, harg]
    exact u4.bind (u6.bind e7.map)
  | .paren e, dom, vs, x, st, ar, h, hI, hx, hd, hR => by
    obtain ⟨r, a1, e1, s1, l1⟩ := check_total hT e h hI hx hd hR
    exact ⟨(r.1, .paren r.2), a1, by simp only [check]; exact e1.map, s1, l1⟩
  | .hole text u, dom, vs, x, st, ar, h, hI, hx, hd, hR =>
    ⟨(st, .hole text x), ar, by simp only [check]; exact .ret _, .refl h, hx.1⟩
theorem checkCases_total {Δ : List TypeDecl} {T : Tables} (hT : TabOK Δ T) : ∀ (cs : List (Case Unit)) {dom vs primary recTy x st ar},
    Good (arity Δ) st.u ar → InferOK T st.u ar → Typ st.u ar primary → Typ st.u ar recTy → Typ st.u ar x →
    (∀ s ∈ dom, ∃ nt, T.names s = some nt) → ResolvedCases Δ T dom vs cs →
    ∃ r ar', Ends (fun n => checkCases n T primary recTy x cs st) r ∧ Step (arity Δ) st ar r.1 ar' ∧ casesAll (· < r.1.u.slots.length) r.2
  | [], dom, vs, primary, recTy, x, st, ar, h, hI, hp, hr, hx, hd, hR =>
    ⟨(st, []), ar, by simp only [checkCases]; exact .ret _, .refl h, trivial⟩
  | .mk c pvs body :: cs, dom, vs, primary, recTy, x, st, ar, h, hI, hp, hr, hx, hd, hR => by
    obtain ⟨⟨d, hctor⟩, hpv, hRb, hRc⟩ := hR
    obtain ⟨decl0, hdecl0, hvars0, hmem0, hnov, hfw⟩ := hT.ctor c d hctor
    obtain ⟨a1, e1, l1, k1, p1⟩ := evo_alloc h (t := .named d.tySym) (k := arity Δ d.tySym) (by simp [Ty.refs]) (by simp) (by simp [SlotOK, arSet])
    have s1 : Step (arity Δ) st ar (st.alloc (.named d.tySym)).1 a1 := ⟨e1, id⟩
    obtain ⟨a2, s2, t2, v2, -⟩ := step_applyVars d.vars (st := (st.alloc (.named d.tySym)).1) (t := (st.alloc (.named d.tySym)).2)
      e1.good hnov l1 (.inl ⟨_, (grows_alloc h.reach.reach (t := .named d.tySym) (by simp [Ty.refs])).2.2⟩)
      (by rw [show (st.alloc (.named d.tySym)).2 = (st.u.allocate (.named d.tySym)).2 from rfl, k1, arity, hdecl0]; simp [hvars0])
    have s12 := s1.trans s2
    obtain ⟨st3, u3, s3⟩ := unify_ends s2.evo.good (s12.evo.typ hp) t2
    have s13 := s12.trans s3
    obtain ⟨rv, a4, e4, s4, l4⟩ : ∃ rv a4, Ends (fun n => if pvs.length ≠ d.fields.length then
            some ({ st3 with diags := .fieldCount d.fields.length pvs.length :: st3.diags }, [])
          else checkVars n T (applyVars (st.alloc (.named d.tySym)).1 (st.alloc (.named d.tySym)).2 d.vars).2.2 recTy pvs d.fields st3) rv ∧
        Step (arity Δ) st3 a2 rv.1 a4 ∧ ∀ p ∈ rv.2, p.2 < rv.1.u.slots.length := by
      by_cases hl : pvs.length = d.fields.length
      · simp only [if_neg (show ¬(pvs.length ≠ d.fields.length) by simpa using hl)]
        exact checkVars_ends hT pvs d.fields s3.evo.good (hI.step s13) (v2.evo s3.evo) (s13.evo.typ hr) hfw hpv
      · simp only [if_pos (show pvs.length ≠ d.fields.length from hl)]
        exact ⟨_, a2, .ret _, ⟨.refl s3.evo.good, by simp⟩, by simp⟩
    have s14 := s13.trans s4
    have hd' : ∀ k ∈ (pvs.map (·.1)).reverse ++ dom, ∃ nt, T.names k = some nt := by
      intro k hk
      rcases List.mem_append.mp hk with hk | hk
      · obtain ⟨q, hq, rfl⟩ := List.mem_map.mp (List.mem_reverse.mp hk)
        obtain ⟨i, hi⟩ := hpv q hq
        exact ⟨_, hi⟩
      · exact hd k hk
    obtain ⟨rb, a5, e5, s5, l5⟩ := check_total hT body s4.evo.good (hI.step s14) (s14.evo.typ hx) hd' hRb
    have s15 := s14.trans s5
    obtain ⟨rc, a6, e6, s6, l6⟩ := checkCases_total hT cs s5.evo.good (hI.step s15) (s15.evo.typ hp) (s15.evo.typ hr) (s15.evo.typ hx) hd hRc
    refine ⟨(rc.1, .mk c rv.2 rb.2 :: rc.2), a6, ?_, s15.trans s6, fun q hq => ?_, s6.later l5, l6⟩
    · simp only [checkCases, hctor]
      exact (u3.bind e4).bind (e5.bind e6.map)
    · exact Nat.lt_of_lt_of_le (l4 q hq) (s5.trans s6).evo.len
end

theorem mapOpt_ends {α β : Type} {f : Nat → α → Option β} : ∀ {as : List α}, (∀ a ∈ as, ∃ b, Ends (fun n => f n a) b) →
    ∃ bs, Ends (fun n => mapOpt (f n) as) bs
  | [], _ => ⟨[], by simp only [mapOpt]; exact .ret _⟩
  | a :: as, h => by
    obtain ⟨b, hb⟩ := h a (by simp)
    obtain ⟨bs, hbs⟩ := mapOpt_ends (as := as) fun a ha => h a (by simp [ha])
    exact ⟨_, by simp only [mapOpt]; exact hb.bind hbs.map⟩

mutual
theorem read_ends {α β : Type} {f : Nat → α → Option β} {p : α → Prop} (hp : ∀ a, p a → ∃ b, Ends (fun n => f n a) b) :
    ∀ (e : Ex α), e.All p → ∃ e', Ends (fun n => e.read (f n)) e'
  | .name s inst, h => by
    obtain ⟨b, hb⟩ := mapOpt_ends (as := inst) fun a ha => hp a (h a ha)
    exact ⟨_, by simp only [Ex.read]; exact hb.map⟩
  | .apply x y, h => by
    obtain ⟨x', hx⟩ := read_ends hp x h.1
    obtain ⟨y', hy⟩ := read_ends hp y h.2
    exact ⟨.apply x' y', by simp only [Ex.read]; exact hx.bind hy.map⟩
  | .binary o x y, h => by
    obtain ⟨x', hx⟩ := read_ends hp x h.1
    obtain ⟨y', hy⟩ := read_ends hp y h.2
    exact ⟨.binary o x' y', by simp only [Ex.read]; exact hx.bind hy.map⟩
  | .pipe x y, h => by
    obtain ⟨x', hx⟩ := read_ends hp x h.1
    obtain ⟨y', hy⟩ := read_ends hp y h.2
    exact ⟨.pipe x' y', by simp only [Ex.read]; exact hx.bind hy.map⟩
  | .let_ s vars ann ty x y, h => by
    obtain ⟨t', ht⟩ := hp _ h.1
    obtain ⟨x', hx⟩ := read_ends hp x h.2.1
    obtain ⟨y', hy⟩ := read_ends hp y h.2.2
    exact ⟨.let_ s vars ann t' x' y', by simp only [Ex.read]; exact ht.bind (hx.bind hy.map)⟩
  | .match_ d ty cs, h => by
    obtain ⟨x', hx⟩ := read_ends hp d h.1
    obtain ⟨t', ht⟩ := hp _ h.2.1
    obtain ⟨y', hy⟩ := casesRead_ends hp cs h.2.2
    exact ⟨.match_ x' t' y', by simp only [Ex.read]; exact hx.bind (ht.bind hy.map)⟩
  | .ite x y z, h => by
    obtain ⟨x', hx⟩ := read_ends hp x h.1
    obtain ⟨y', hy⟩ := read_ends hp y h.2.1
    obtain ⟨z', hz⟩ := read_ends hp z h.2.2
    exact ⟨.ite x' y' z', by simp only [Ex.read]; exact hx.bind (hy.bind hz.map)⟩
  | .bool b, _ => ⟨.bool b, by simp only [Ex.read]; exact .ret _⟩
  | .number b, _ => ⟨.number b, by simp only [Ex.read]; exact .ret _⟩
  | .str b, _ => ⟨.str b, by simp only [Ex.read]; exact .ret _⟩
  | .lambda fd p' t1 t2 x, h => by
    obtain ⟨t1', h1⟩ := hp _ h.1
    obtain ⟨t2', h2⟩ := hp _ h.2.1
    obtain ⟨x', hx⟩ := read_ends hp x h.2.2
    exact ⟨.lambda fd p' t1' t2' x', by simp only [Ex.read]; exact h1.bind (h2.bind hx.map)⟩
  | .paren x, h => by
    obtain ⟨x', hx⟩ := read_ends hp x h
    exact ⟨.paren x', by simp only [Ex.read]; exact hx.map⟩
  | .hole t ty, h => by
    obtain ⟨t', ht⟩ := hp _ h
    exact ⟨.hole t t', by simp only [Ex.read]; exact ht.map⟩
theorem casesRead_ends {α β : Type} {f : Nat → α → Option β} {p : α → Prop} (hp : ∀ a, p a → ∃ b, Ends (fun n => f n a) b) :
    ∀ (cs : List (Case α)), casesAll p cs → ∃ cs', Ends (fun n => casesRead (f n) cs) cs'
  | [], _ => ⟨[], by simp only [casesRead]; exact .ret _⟩
  | .mk c vs x :: cs, h => by
    obtain ⟨vs', hvs⟩ := mapOpt_ends (f := fun n (p : Symbol × α) => (f n p.2).map fun t => (p.1, t)) (as := vs) (by
      intro q hq
      obtain ⟨b, hb⟩ := hp _ (h.1 q hq)
      exact ⟨_, hb.map⟩)
    obtain ⟨x', hx⟩ := read_ends hp x h.2.1
    obtain ⟨cs', hcs⟩ := casesRead_ends hp cs h.2.2
    exact ⟨.mk c vs' x' :: cs', by
      simp only [casesRead]
      exact hvs.bind (hx.bind hcs.map)⟩
end

/-- **C37.**  Type checking a resolved value item with a declared type always ends, with the same
outcome for all sufficiently many steps, and never panics. -/
theorem typecheck_total {Δ : List TypeDecl} {D : Symbol → Option DefKind} {refs : List Symbol} {Γ : Ctx} {sch : Scheme} {e : Ex Unit}
    (hD : DefsOK Δ D) (hΓ : Globals D refs Γ) (hw : WfTy Δ sch.vars sch.ty) (hS : Scoped Δ D refs (Γ.map (·.1)) sch.vars e) :
    ∃ r N, ∀ n, N ≤ n → typeCheck n D refs sch.ty e = some r := by
  obtain ⟨ar, hinv⟩ := refsInv (Δ := Δ) D refs
  obtain ⟨a1, s1, t1, -⟩ := step_inst (vars := []) hinv.good (by intro q hq; cases hq) hw
  have hd : ∀ s ∈ Γ.map (·.1), ∃ nt, (addRefs D refs).1.names s = some nt := by
    intro s hs
    obtain ⟨sc, h1⟩ := (ctxOK_globals (θ := fun _ => .int) hinv hΓ).dom s hs
    rcases (ctxOK_globals (θ := fun _ => .int) hinv hΓ).entry s sc h1 with h | ⟨i, h, -⟩ <;> exact ⟨_, h⟩
  obtain ⟨c, a2, e2, s2, l2⟩ := check_total (tabOK_of hD hinv) e s1.evo.good (hinv.infer.step s1) t1 hd (resolved_of hinv e hS)
  obtain ⟨e', he'⟩ := read_ends (f := fun n i => (toIr n c.1.u i).join) (fun i hi => by
    obtain ⟨N, r, hr⟩ := toIr_never_panics s2.evo.good.reach hi
    exact ⟨r, N, fun n hn => by simp [hr n hn]⟩) c.2 l2
  obtain ⟨N, hN⟩ := e2.bind (g := fun n r => (r.2.read fun i => (toIr n r.1.u i).join).map fun e => (⟨r.1.diags, e⟩ : Checked)) he'.map
  exact ⟨_, N, fun n hn => hN n hn⟩

end Tic.Front
