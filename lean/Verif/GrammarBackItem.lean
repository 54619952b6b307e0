/-
What the parser reads without recording an error is in the grammar: expressions and items.
-/
import Verif.GrammarBack

namespace Tic.Grammar

open Tic.Parser

theorem b_annot {n s} {k : P Unit} {Q : Unit → PState → Prop} (hq : ∀ s' ann, Ann ann → Reads s s' ann → Snd k s' Q) (mk : Mono k := by mono) :
    Snd (at_ .colon >>= fun b => if b = true then (bump .colon >>= fun _ => type_ n >>= fun _ => k) else k) s Q := by
  refine b_if (fun s1 h1 _ => ?_) (fun s1 h1 _ => hq s1 _ .none h1.reads) (by mono) mk
  refine b_bind (b_bump fun s2 h2 => b_bind (((back_types n).2.2 s2).mono fun _ s3 h3 => ?_) fun _ => mk) fun _ => by mono
  obtain ⟨t, ht, h3⟩ := h3
  exact hq s3 _ (.some ht) ((h2.trans h3).pre h1)

/-- Operators are the tokens with a power. -/
theorem power_level {k pw r} (h : bindingPower k = some (pw, r)) : ∃ l, level k = some l := by
  cases hl : level k with
  | some l => exact ⟨l, rfl⟩
  | none => rw [op_none hl] at h; cases h

/-- What is proved by induction. -/
structure BackExpr (n : Nat) : Prop where
  atom : ∀ s, Snd (atomExpr n) s fun r s' => (∀ m, r = some m → ∃ t, Atom t ∧ ReadsM s s' m t) ∧ (r = none → Same s s')
  app : ∀ s, Snd (applyExpr n) s fun r s' => ∃ m t, r = some m ∧ App t ∧ ReadsM s s' m t
  op : ∀ s p q, Cut q p → Snd (opExpr n q) s fun _ s' => (∃ t, Op p t ∧ Reads s s' [t]) ∧
    ∀ o l, (kinds s').head? = some o → level o = some l → l < p
  case : ∀ s, Snd (matchCase n) s fun _ s' => ∃ t, Case t ∧ Reads s s' [t]
  ex : ∀ s, Snd (expr n) s fun _ s' => ∃ t, Ex t ∧ Reads s s' [t]

theorem back_atom {n} (ih : BackExpr n) : ∀ s, Snd (atomExpr (n + 1)) s fun r s' => (∀ m, r = some m → ∃ t, Atom t ∧ ReadsM s s' m t) ∧ (r = none → Same s s') := by
  intro s
  have yes : ∀ {t}, Atom t → ∀ s' m, ReadsM s s' m t → (∀ m', some m = some m' → ∃ t, Atom t ∧ ReadsM s s' m' t) ∧ (some m = none → Same s s') := by
    intro t ht s' m h
    exact ⟨fun m' e => ⟨t, ht, by rw [← Option.some.inj e]; exact h⟩, fun e => nomatch e⟩
  unfold atomExpr
  refine b_bind (b_hint fun s1 h1 => ?_)
  refine b_if (fun s2 h2 _ => ?_) fun s2 h2 _ => ?_
  · refine b_bind (b_start (b_bind (b_bump fun s3 h3 => b_bind ((ih.ex s3).mono fun _ s4 h4 => ?_))))
    obtain ⟨t, ht, h4⟩ := h4
    exact b_bind (b_expect fun s5 h5 => b_doneM (h1.trans h2) ((h3.trans h4).trans h5) (yes (.paren ht)))
  replace h2 := h1.trans h2
  refine b_bind (Snd.mono (Q := fun b s' => Same s2 s' ∧ (b = true → (kinds s').head? = some .true_ ∨ (kinds s').head? = some .false_)) ?_ fun b s3 h3 => ?_)
  · refine b_if (fun s3 h3 hx => b_pure ⟨h3, fun _ => .inl hx⟩) fun s3 h3 _ => b_at fun s4 h4 => ⟨h3.trans h4, fun h => .inr (by simpa using h)⟩
  obtain ⟨h3, hx⟩ := h3
  replace h3 := h2.trans h3
  split
  · rename_i hb
    refine b_bind (b_start (b_bind (b_bumpAny fun s4 k hk h4 => ?_)))
    rcases hx hb with hx | hx
    · rw [kinds_started, hx] at hk; cases hk
      exact b_doneM h3 h4 (yes .true_)
    · rw [kinds_started, hx] at hk; cases hk
      exact b_doneM h3 h4 (yes .false_)
  refine b_if (fun s4 h4 hx => ?_) fun s4 h4 _ => ?_
  · refine b_bind (b_start (b_bind (b_bumpAny fun s5 k hk h5 => ?_)))
    rw [kinds_started, hx] at hk; cases hk
    exact b_doneM (h3.trans h4) h5 (yes .number)
  replace h4 := h3.trans h4
  refine b_if (fun s5 h5 hx => ?_) fun s5 h5 _ => ?_
  · refine b_bind (b_start (b_bind (b_bumpAny fun s6 k hk h6 => ?_)))
    rw [kinds_started, hx] at hk; cases hk
    exact b_doneM (h4.trans h5) h6 (yes .string)
  replace h5 := h4.trans h5
  refine b_if (fun s6 h6 _ => ?_) fun s6 h6 _ => ?_
  · refine b_bind (b_start (b_bind (b_bumpName fun s7 h7 => ?_)))
    refine b_if (fun s8 h8 _ => ?_) fun s8 h8 _ => b_doneM (h5.trans h6) (h7.same h8) (yes .name)
    refine b_bind (b_bump fun s9 h9 => b_bind (b_expectName fun s10 h10 => ?_))
    exact b_doneM (h5.trans h6) ((h7.same h8).trans (h9.trans h10)) (yes .inModule)
  replace h6 := h5.trans h6
  refine b_if (fun s7 h7 _ => ?_) fun s7 h7 _ => ?_
  · exact b_bind (b_start (b_bind (b_bump fun s8 h8 => b_doneM (h6.trans h7) h8 (yes .hole))))
  · exact b_pure ⟨fun _ h => (nomatch h), fun _ => h6.trans h7⟩

theorem back_app {n} (ih : BackExpr n) : ∀ s, Snd (applyExpr (n + 1)) s fun r s' => ∃ m t, r = some m ∧ App t ∧ ReadsM s s' m t := by
  intro s
  unfold applyExpr
  refine b_bind ((ih.atom s).mono fun r s1 h1 => ?_)
  cases r with
  | none => exact b_bind b_emitError
  | some m =>
    obtain ⟨t, ht, h2⟩ := h1.1 m rfl
    refine b_bind (Snd.mono (Q := fun m s' => ∃ t, App t ∧ ReadsM s s' m t) ?_ fun m s2 ⟨t, ht, h3⟩ => b_pure ⟨m, t, rfl, ht, h3⟩)
    refine b_loop (I := fun m s' => ∃ t, App t ∧ ReadsM s s' m t) (fun m s2 ⟨t, ht, h3⟩ => ?_) (fun _ => by mono) n m s1 ⟨t, .atom ht, h2⟩
    refine b_bind ((ih.atom s2).mono fun r s3 h4 => ?_)
    cases r with
    | none => exact b_pure ⟨fun _ h => (nomatch h), fun b e => ⟨t, ht, by rw [← Sum.inr.inj e]; exact h3.same (h4.2 rfl)⟩⟩
    | some m2 =>
      obtain ⟨t2, ht2, h5⟩ := h4.1 m2 rfl
      refine b_bind (b_precede h3 h5.reads fun s4 h6 hc => b_bind (hc (.refl _) fun s5 h7 => b_pure ⟨fun a e => ?_, fun _ h => nomatch h⟩))
      exact ⟨_, .app ht ht2, by rw [← Sum.inl.inj e]; simpa using h7⟩

theorem back_op {n} (ih : BackExpr n) : ∀ s p q, Cut q p → Snd (opExpr (n + 1) q) s fun _ s' => (∃ t, Op p t ∧ Reads s s' [t]) ∧
    ∀ o l, (kinds s').head? = some o → level o = some l → l < p := by
  intro s p q hpq
  unfold opExpr
  refine b_bind (b_hint fun s1 h1 => b_bind ((ih.app s1).mono fun r s2 h2 => ?_))
  obtain ⟨m, t, rfl, ht, h2⟩ := h2
  replace h2 := h2.pre h1
  refine b_bind (b_hint fun s3 h3 => ?_)
  -- the tree so far is of the level of the operator that follows
  refine b_loop (I := fun m s' => ∃ t, Op p t ∧ (∀ o l, (kinds s').head? = some o → level o = some l → Op l t) ∧ ReadsM s s' m t) (fun m s4 ⟨t, ht, hl, h4⟩ => ?_)
    (fun _ => by mono) n m s3 ⟨t, .app ht, fun _ _ _ _ => .app ht, h2.same h3⟩
  refine b_bind (b_peek fun s5 h5 => ?_)
  split
  · rename_i hx
    refine b_pure ⟨fun _ h => (nomatch h), fun _ _ => ⟨⟨t, ht, (h4.same h5).reads⟩, fun o l h6 h7 => ?_⟩⟩
    obtain ⟨pw, r, h8, -⟩ := op_table h7
    rw [h6] at hx
    simp [h8] at hx
  · rename_i pw right hx
    rw [Option.bind_eq_some_iff] at hx
    obtain ⟨o, ho, hb⟩ := hx
    obtain ⟨l, hlev⟩ := power_level hb
    split
    · rename_i hlt
      refine b_pure ⟨fun _ h => (nomatch h), fun _ _ => ⟨⟨t, ht, (h4.same h5).reads⟩, fun o' l' h6 h7 => ?_⟩⟩
      rw [ho] at h6
      cases h6
      rw [hlev] at h7
      cases h7
      exact (hpq o l pw right hlev hb).mp hlt
    · rename_i hge
      have hpl : p ≤ l := by
        have := (not_congr (hpq o l pw right hlev hb)).mp hge
        omega
      have htl : Op l t := hl o l (by rw [← h5.1]; exact ho) hlev
      have hcut : Cut right (l + 1) := by
        obtain ⟨pw', r', h6, h7⟩ := op_table hlev
        rw [hb] at h6
        cases h6
        exact h7
      refine b_bind (b_precede (h4.same h5) (.refl _) fun s6 h6 hc => ?_)
      refine b_bind (b_start (b_bind (b_bumpAny fun s7 k hk h7 => ?_)))
      rw [kinds_started, h6, ho] at hk
      cases hk
      refine b_bind (b_complete h7 fun s8 h8 => b_bind ((ih.op s8 (l + 1) right hcut).mono fun _ s9 h9 => ?_))
      obtain ⟨⟨t2, ht2, h9⟩, hnext⟩ := h9
      refine b_bind (hc (h8.reads.trans h9) fun s10 h10 => b_bind (b_hint fun s11 h11 => b_pure ⟨fun a e => ?_, fun _ h => nomatch h⟩))
      have e10 : kinds s10 = kinds s9 := by
        have a := h4.same h5
        have := h10.kinds
        rw [a.kinds, ← h6, (h8.reads.trans h9).kinds] at this
        simp only [yield_node, List.cons_append, List.nil_append, yields_cons, yields_nil, List.append_nil, List.append_assoc, List.append_cancel_left_eq] at this
        exact this.symm
      refine ⟨_, .bin hlev hpl htl ht2, fun o' l' h12 h13 => ?_, by rw [← Sum.inl.inj e]; simpa using h10.same h11⟩
      rw [h11.1, e10] at h12
      have := hnext o' l' h12 h13
      exact .bin hlev (by omega) htl ht2

theorem back_case {n} (ih : BackExpr n) : ∀ s, Snd (matchCase (n + 1)) s fun _ s' => ∃ t, Case t ∧ Reads s s' [t] := by
  intro s
  unfold matchCase
  refine b_bind (b_start (b_bind (b_bump fun s1 h1 => b_bind (b_expectName fun s2 h2 => ?_))))
  refine b_dot h2 fun s3 p hp h3 => ?_
  refine b_bind (b_start (b_bind (b_names.mono fun _ s4 h4 => ?_)))
  obtain ⟨-, j, h4⟩ := h4
  refine b_bind (b_complete h4 fun s5 h5 => b_bind (b_expect fun s6 h6 => b_bind ((ih.ex s6).mono fun _ s7 h7 => ?_)))
  obtain ⟨e, he, h7⟩ := h7
  exact b_done (.refl s) (((h1.trans h3).trans h5.reads).trans (h6.trans h7)) fun s' h => ⟨_, .mk (n := j) hp he, by simpa using h⟩

theorem back_ex {n} (ih : BackExpr n) : ∀ s, Snd (expr (n + 1)) s fun _ s' => ∃ t, Ex t ∧ Reads s s' [t] := by
  intro s
  unfold expr
  refine b_bind (b_hint fun s1 h1 => ?_)
  refine b_if (fun s2 h2 _ => ?_) fun s2 h2 _ => ?_
  · refine b_bind (b_start (b_bind (b_bump fun s3 h3 => b_bind (b_expectName fun s4 h4 => ?_))))
    refine b_annot fun s5 ann ha h5 => ?_
    refine b_bind (b_expect fun s6 h6 => b_bind ((ih.ex s6).mono fun _ s7 ⟨v, hv, h7⟩ => ?_))
    refine b_bind (b_expect fun s8 h8 => b_bind ((ih.ex s8).mono fun _ s9 ⟨r, hr, h9⟩ => ?_))
    exact b_done (h1.trans h2) (((((h3.trans h4).trans h5).trans (h6.trans h7))).trans (h8.trans h9)) fun s' h => ⟨_, .let_ ha hv hr, by simpa using h⟩
  replace h2 := h1.trans h2
  refine b_if (fun s3 h3 _ => ?_) fun s3 h3 _ => ?_
  · refine b_bind (b_start (b_bind (b_bump fun s4 h4 => b_bind ((ih.ex s4).mono fun _ s5 ⟨d, hd, h5⟩ => b_bind (b_expect fun s6 h6 => ?_)))))
    refine b_bind ((b_while (G := Case) (E := fun _ => True) fun s7 => b_at fun s8 h8 => ⟨fun _ => ⟨h8, trivial⟩, fun _ =>
      (ih.case s8).mono fun _ s9 ⟨c, hc, h9⟩ => ⟨c, hc, h9.pre h8⟩⟩).mono fun _ s7 ⟨_, cs, hcs, h7⟩ => ?_)
    exact b_bind (b_expect fun s8 h8 => b_done (h2.trans h3) ((((h4.trans h5).trans h6).trans h7).trans h8) fun s' h => ⟨_, .match_ hd hcs, by simpa using h⟩)
  replace h3 := h2.trans h3
  refine b_if (fun s4 h4 _ => ?_) fun s4 h4 _ => ?_
  · refine b_bind (b_start (b_bind (b_bump fun s5 h5 => b_bind ((ih.ex s5).mono fun _ s6 ⟨c, hc, h6⟩ => b_bind (b_expect fun s7 h7 => ?_)))))
    refine b_bind ((ih.ex s7).mono fun _ s8 ⟨a, ha, h8⟩ => b_bind (b_expect fun s9 h9 => b_bind ((ih.ex s9).mono fun _ s10 ⟨b, hb, h10⟩ => ?_)))
    exact b_done (h3.trans h4) (((h5.trans h6).trans (h7.trans h8)).trans (h9.trans h10)) fun s' h => ⟨_, .if_ hc ha hb, by simpa using h⟩
  replace h4 := h3.trans h4
  refine b_if (fun s5 h5 _ => ?_) fun s5 h5 _ => ?_
  · refine b_bind (b_start (b_bind (b_bump fun s6 h6 => ?_)))
    replace h5 := h4.trans h5
    have rest : ∀ {x} s7, (x = [] ∨ x = [Syn.tok .fold]) → Reads s6 s7 x → Snd (do
        expectName
        expect .arrow
        expr n
        let _ ← complete s5.events.length .lambdaExpr) s7 fun _ s' => ∃ t, Ex t ∧ Reads s s' [t] := by
      intro x s7 hx h7
      refine b_bind (b_expectName fun s8 h8 => b_bind (b_expect fun s9 h9 => b_bind ((ih.ex s9).mono fun _ s10 ⟨e, he, h10⟩ => ?_)))
      rcases hx with rfl | rfl
      · exact b_done h5 ((h6.trans h7).trans (h8.trans (h9.trans h10))) fun s' h => ⟨_, .lam he, by simpa using h⟩
      · exact b_done h5 ((h6.trans h7).trans (h8.trans (h9.trans h10))) fun s' h => ⟨_, .lamFold he, by simpa using h⟩
    refine b_if (fun s7 h7 _ => ?_) fun s7 h7 _ => rest s7 (.inl rfl) h7.reads
    exact b_bind (b_bump fun s8 h8 => rest s8 (.inr rfl) (h8.pre h7))
  · refine (ih.op s5 0 0 cut_zero).mono fun _ s6 ⟨⟨t, ht, h6⟩, _⟩ => ⟨t, .op ht, h6.pre (h4.trans h5)⟩

theorem back_exprs : ∀ n, BackExpr n
  | 0 => ⟨fun _ => b_panic, fun _ => b_panic, fun _ _ _ _ => b_panic, fun _ => b_panic, fun _ => b_panic⟩
  | n + 1 => let ih := back_exprs n; ⟨back_atom ih, back_app ih, back_op ih, back_case ih, back_ex ih⟩

/-! ### Items -/

theorem back_value {n s0 s x} (hx : Opt .export_ x) (h : Reads (started s0) s x) :
    Snd (valueItem n s0.events.length) s fun _ s' => ∃ t, Item t ∧ Reads s0 s' [t] := by
  unfold valueItem
  refine b_bind (b_expect fun s1 h1 => b_bind (b_expectName fun s2 h2 => ?_))
  refine b_annot fun s3 ann ha h3 => ?_
  refine b_bind (b_expect fun s4 h4 => b_bind (((back_exprs n).ex s4).mono fun _ s5 ⟨e, he, h5⟩ => b_bind (b_expect fun s6 h6 => ?_)))
  exact b_done (.refl s0) ((((h.trans h1).trans h2).trans h3).trans (h4.trans (h5.trans h6))) fun s' h => ⟨_, .value hx ha he, by simpa using h⟩

theorem back_params {n s} : Snd (typeParams n) s fun _ s' => ∃ ps, Params ps ∧ Reads s s' ps := by
  unfold typeParams
  refine b_bind (b_at fun s1 h1 => ?_)
  split
  · exact b_pure ⟨[], .none, h1.reads⟩
  · rename_i hx
    refine b_bind (b_start (b_bind (b_names.mono fun _ s2 ⟨h2, j, h3⟩ => ?_)))
    cases j with
    | zero =>
      have := h3.kinds
      simp only [List.replicate_zero, yields_nil, List.nil_append, kinds_started] at this
      rw [← this] at h2
      simp [h2] at hx
    | succ j => exact b_done h1 h3 fun s' h => ⟨_, .some, h⟩

theorem back_typeCase {n s b} : Snd (typeCase n b) s fun _ s' => ∃ p c, Opt .pipe p ∧ Ctor c ∧ (b = false → p = [.tok .pipe]) ∧ Reads s s' [.node .typeCase (p ++ c)] := by
  unfold typeCase
  refine b_bind (b_start ?_)
  have rest : ∀ s1 p, Opt .pipe p → (b = false → p = [.tok .pipe]) → Reads (started s) s1 p → Snd (do
      expectName
      loopM (fieldBody n) n ()
      let _ ← complete s.events.length .typeCase) s1 fun _ s' => ∃ p c, Opt .pipe p ∧ Ctor c ∧ (b = false → p = [.tok .pipe]) ∧ Reads s s' [.node .typeCase (p ++ c)] := by
    intro s1 p hp hb h1
    refine b_bind (b_expectName fun s2 h2 => ?_)
    refine b_bind (Snd.mono (Q := fun _ s' => ∃ fs, (∀ f ∈ fs, Field f) ∧ Reads s2 s' fs) ?_ fun _ s3 ⟨fs, hfs, h3⟩ => ?_)
    · refine b_loop (I := fun _ s' => ∃ fs, (∀ f ∈ fs, Field f) ∧ Reads s2 s' fs) (fun _ s3 ⟨fs, hfs, h3⟩ => ?_) (fun _ => by mono) n () s2 ⟨[], by simp, .refl _⟩
      have more : ∀ {f s4}, Field f → Reads s3 s4 [f] → ∃ fs, (∀ f ∈ fs, Field f) ∧ Reads s2 s4 fs := by
        intro f s4 hf h4
        refine ⟨fs ++ [f], ?_, h3.trans h4⟩
        intro g hg
        rcases List.mem_append.mp hg with hg | hg
        · exact hfs g hg
        · rw [List.mem_singleton] at hg; rw [hg]; exact hf
      refine b_if (fun s4 h4 _ => ?_) fun s4 h4 _ => ?_
      · refine b_bind (b_start (b_bind (b_bump fun s5 h5 => b_bind (b_complete h5 fun s6 h6 => b_pure ⟨fun _ _ => ?_, fun _ h => nomatch h⟩))))
        exact more .rec_ (h6.pre h4).reads
      · refine b_bind (((back_types n).1 s4).mono fun r s5 h5 => ?_)
        cases r with
        | none => exact b_pure ⟨fun _ h => (nomatch h), fun _ _ => ⟨fs, hfs, h3.same (h4.trans (h5.2 rfl))⟩⟩
        | some m =>
          obtain ⟨t, ht, h6⟩ := h5.1 m rfl
          refine b_bind (b_precede (h6.pre h4) (.refl _) fun s7 h7 hc => b_bind (hc (.refl _) fun s8 h8 => b_pure ⟨fun _ _ => ?_, fun _ h => nomatch h⟩))
          exact more (.ty ht) (by simpa using h8.reads)
    · exact b_done (.refl s) ((h1.trans h2).trans h3) fun s' h => ⟨p, nm :: fs, hp, .mk hfs, hb, by simpa using h⟩
  cases b with
  | false => exact b_bind (b_pure (b_bind (b_expect fun s1 h1 => rest s1 _ .some (fun _ => rfl) h1)))
  | true =>
    refine b_if (fun s1 h1 _ => ?_) fun s1 h1 _ => rest s1 [] .none (fun h => nomatch h) h1.reads
    exact b_bind (b_expect fun s2 h2 => rest s2 _ .some (fun _ => rfl) (h2.pre h1))

theorem back_type {n s0 s x} (hx : Opt .export_ x) (h : Reads (started s0) s x) :
    Snd (typeItem n s0.events.length) s fun _ s' => ∃ t, Item t ∧ Reads s0 s' [t] := by
  unfold typeItem
  refine b_bind (b_bump fun s1 h1 => b_bind (b_expectName fun s2 h2 => b_bind (back_params.mono fun _ s3 ⟨ps, hps, h3⟩ => b_bind (b_expect fun s4 h4 => ?_))))
  have go : ∀ s5 xc, Opt .export_ xc → Reads s4 s5 xc → Snd (do
      typeCase n true
      whileM n (at_ .pipe) (typeCase n false)
      expect .semicolon
      let _ ← complete s0.events.length .typeItem) s5 fun _ s' => ∃ t, Item t ∧ Reads s0 s' [t] := by
    intro s5 xc hxc h5
    refine b_bind (back_typeCase.mono fun _ s6 ⟨p, c, hp, hc, _, h6⟩ => ?_)
    refine b_bind ((b_while (G := fun d => ∃ f, Ctor f ∧ d = .node .typeCase (.tok .pipe :: f)) (E := fun _ => True) fun s7 => b_at fun s8 h8 => ⟨fun _ => ⟨h8, trivial⟩, fun _ =>
      back_typeCase.mono fun _ s9 ⟨p, c, _, hc, hb, h9⟩ => ⟨_, ⟨c, hc, by rw [hb rfl]; rfl⟩, h9.pre h8⟩⟩).mono fun _ s7 ⟨_, cs, hcs, h7⟩ => ?_)
    refine b_bind (b_expect fun s8 h8 => ?_)
    exact b_done (.refl s0) ((((((h.trans h1).trans h2).trans h3).trans h4).trans h5).trans (h6.trans (h7.trans h8))) fun s' h => ⟨_, .type hx hps hxc hp hc hcs, by simpa using h⟩
  refine b_if (fun s5 h5 _ => ?_) fun s5 h5 _ => go s5 [] .none h5.reads
  exact b_bind (b_bump fun s6 h6 => go s6 _ .some (h6.pre h5))

theorem back_exposed {n s} : Snd (exposedList n) s fun _ s' => ∃ ns, Names ns ∧ Reads s s' [.node .exposedList (.tok .leftParen :: ns ++ [.tok .rightParen])] := by
  unfold exposedList
  refine b_bind (b_start (b_bind (b_bump fun s1 h1 => ?_)))
  refine b_bind (Snd.mono (Q := fun _ s' => ∃ ns, Names ns ∧ Reads s1 s' ns) ?_ fun _ s2 ⟨ns, hns, h2⟩ => ?_)
  · refine b_loop (I := fun _ s' => ∃ pre, (∀ ns, Names ns → Names (pre ++ ns)) ∧ Reads s1 s' pre) (fun _ s2 ⟨pre, hpre, h2⟩ => ?_) (fun _ => by mono) n () s1 ⟨[], fun _ h => h, .refl _⟩
    refine b_if (fun s3 h3 _ => ?_) fun s3 h3 _ => ?_
    · exact b_pure ⟨fun _ h => (nomatch h), fun _ _ => ⟨pre, by simpa using hpre [] .none, h2.same h3⟩⟩
    · refine b_bind (b_expectName fun s4 h4 => b_bind (b_at fun s5 h5 => ?_))
      split
      · exact b_pure ⟨fun _ h => (nomatch h), fun _ _ => ⟨pre ++ [nm], hpre _ .last, (h2.same h3).trans (h4.same h5)⟩⟩
      · refine b_bind (b_bump fun s6 h6 => b_pure ⟨fun _ _ => ⟨pre ++ [nm, .tok .comma], fun ns h => ?_, (h2.same h3).trans ((h4.same h5).trans h6)⟩, fun _ h => nomatch h⟩)
        rw [List.append_assoc]; exact hpre _ (.more h)
  · exact b_bind (b_expect fun s3 h3 => b_done (.refl s) ((h1.trans h2).trans h3) fun s' h => ⟨ns, hns, by simpa using h⟩)

theorem back_item {n s} : Snd (item n) s fun _ s' => ∃ t, Item t ∧ Reads s s' [t] := by
  unfold item
  refine b_bind (b_hint fun s1 h1 => ?_)
  refine b_if (fun s2 h2 _ => ?_) fun s2 h2 _ => ?_
  · replace h2 := h1.trans h2
    refine b_bind (b_start (b_bind (b_bump fun s3 h3 => ?_)))
    refine b_if (fun s4 h4 _ => ?_) fun s4 h4 _ => ?_
    · exact (back_value .some (h3.same h4)).mono fun _ s5 ⟨t, ht, h5⟩ => ⟨t, ht, h5.pre h2⟩
    refine b_if (fun s5 h5 _ => ?_) fun s5 h5 _ => ?_
    · exact (back_type .some (h3.same (h4.trans h5))).mono fun _ s6 ⟨t, ht, h6⟩ => ⟨t, ht, h6.pre h2⟩
    · refine b_bind ?_
      refine ⟨fun _ s6 _ _ => ?_⟩
      unfold errorRecoverItem
      exact b_bind b_emitError
  replace h2 := h1.trans h2
  refine b_if (fun s3 h3 _ => ?_) fun s3 h3 _ => ?_
  · exact b_bind (b_start ((back_value .none (.refl _)).mono fun _ s4 ⟨t, ht, h4⟩ => ⟨t, ht, h4.pre (h2.trans h3)⟩))
  replace h3 := h2.trans h3
  refine b_if (fun s4 h4 _ => ?_) fun s4 h4 _ => ?_
  · exact b_bind (b_start ((back_type .none (.refl _)).mono fun _ s5 ⟨t, ht, h5⟩ => ⟨t, ht, h5.pre (h3.trans h4)⟩))
  replace h4 := h3.trans h4
  refine b_if (fun s5 h5 _ => ?_) fun s5 h5 _ => ?_
  · replace h5 := h4.trans h5
    refine b_bind (b_start (b_bind (b_bump fun s6 h6 => ?_)))
    have rest2 : ∀ s7 nn l, (nn = [] ∨ nn = [nm]) → (l = [] ∨ ∃ ns, Names ns ∧ l = [.node .exposedList (.tok .leftParen :: ns ++ [.tok .rightParen])]) →
        Reads s6 s7 (nn ++ l) → Snd (do
        expect .from_
        expect .string
        expect .semicolon
        let _ ← complete s5.events.length .importItem) s7 fun _ s' => ∃ t, Item t ∧ Reads s s' [t] := by
      intro s7 nn l hn hl h7
      refine b_bind (b_expect fun s8 h8 => b_bind (b_expect fun s9 h9 => b_bind (b_expect fun s10 h10 => ?_)))
      exact b_done h5 ((h6.trans h7).trans (h8.trans (h9.trans h10))) fun s' h => ⟨_, .import_ hn hl, by simpa using h⟩
    have rest1 : ∀ s7 nn, (nn = [] ∨ nn = [nm]) → Reads s6 s7 nn → Snd (do
        if ← at_ .leftParen then exposedList n
        expect .from_
        expect .string
        expect .semicolon
        let _ ← complete s5.events.length .importItem) s7 fun _ s' => ∃ t, Item t ∧ Reads s s' [t] := by
      intro s7 nn hn h7
      refine b_if (fun s8 h8 _ => ?_) fun s8 h8 _ => rest2 s8 nn [] hn (.inl rfl) (by simpa using h7.same h8)
      exact b_bind (back_exposed.mono fun _ s9 ⟨ns, hns, h9⟩ => rest2 s9 nn _ hn (.inr ⟨ns, hns, rfl⟩) ((h7.same h8).trans h9))
    refine b_if (fun s7 h7 _ => ?_) fun s7 h7 _ => rest1 s7 [] (.inl rfl) h7.reads
    exact b_bind (b_bumpName fun s8 h8 => rest1 s8 _ (.inr rfl) (h8.pre h7))
  · unfold errorRecoverItem
    exact b_bind b_emitError

end Tic.Grammar
