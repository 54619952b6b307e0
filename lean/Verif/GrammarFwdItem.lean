/-
The parser reads every item of the grammar.
-/
import Verif.GrammarFwdExpr

namespace Tic.Grammar

open Tic.Parser

/-- One more field of a constructor. -/
abbrev fieldBody (n : Nat) (_ : Unit) : P (Unit ⊕ Unit) := do
  if ← at_ .rec_ then
    let m ← start
    bump .rec_
    let _ ← complete m .recField
    pure (.inl ())
  else
    match ← atomType n with
    | some m =>
      let p ← precede m
      let _ ← complete p .typeField
      pure (.inl ())
    | none => pure (.inr ())

theorem Field.head {f} (h : Field f) : ∃ k r, f.yield = k :: r ∧ tyStart k = true := by
  cases h with
  | rec_ => exact ⟨_, _, by simp only [yield_node, yields_cons, yield_tok]; rfl, rfl⟩
  | ty h => obtain ⟨k, r, e, h1, -⟩ := h.head; exact ⟨k, _, by rw [yield_node, yields_cons, e]; rfl, h1⟩

theorem field_noDot {a} (h : Field a) : ∃ k r, a.yield = k :: r ∧ isDot k = false := by
  obtain ⟨k, r, e, h1⟩ := h.head
  refine ⟨k, r, e, ?_⟩
  cases k <;> simp_all [tyStart, isDot]

theorem fwd_fields {n rest} (hd : Not isDot rest) (hy : Not tyStart rest) : ∀ (fs : List Syn), (∀ f ∈ fs, Field f) → ∀ N s, kinds s = yields fs ++ rest →
    10 * (kinds s).length + 1 ≤ n → fs.length < N → Ok (loopM (fieldBody n) N ()) s fun _ s' => kinds s' = rest ∧ Emits s s' fs
  | [], _, N + 1, s, hk, hn, _ => by
    simp only [yields_nil, List.nil_append] at hk
    unfold loopM
    refine ok_bind (f_no (fun e => ?_) fun s1 h1 => ?_)
    · rw [hk] at e; have := hy _ e; simp [tyStart] at this
    refine ok_bind ((f_noTy (by rw [h1.1, hk]; exact hy) (by omega)).mono fun r s2 h2 => ?_)
    rw [h2.1]
    have h2 := h1.trans h2.2
    exact ok_pure (ok_pure ⟨h2.1.trans hk, h2.emits⟩)
  | f :: fs, hG, N + 1, s, hk, hn, hN => by
    have hk' : kinds s = f.yield ++ (yields fs ++ rest) := by rw [hk, yields_cons, List.append_assoc]
    have ih := fwd_fields (n := n) hd hy fs (fun b hb => hG b (by simp [hb])) N
    simp only [List.length_cons] at hN
    unfold loopM
    cases hG f (by simp) with
    | rec_ =>
      simp only [yield_node, yields_cons, yield_tok, yields_nil] at hk'
      refine ok_bind (f_yes hk' fun s1 h1 => ?_)
      refine ok_bind (ok_start (ok_bind (f_bump (s := started s1) (h1.1.trans hk') fun s2 h2 e2 => ?_)))
      refine ok_bind (f_complete e2 fun s3 h3 e3 => ok_pure ?_)
      have hk3 := h3.trans h2
      refine (ih s3 hk3 (by rw [hk3]; rw [hk'] at hn; simp at hn ⊢; omega) (by omega)).mono fun _ s4 h4 => ⟨h4.1, ?_⟩
      exact (e3.pre h1.2).emits.trans h4.2
    | @ty t ht =>
      obtain ⟨k, r, e, -, hne⟩ := ht.head
      simp only [yield_node, yields_cons, yields_nil, List.append_nil] at hk'
      refine ok_bind (f_no (by rw [hk', e]; simpa using hne) fun s1 h1 => ?_)
      refine ok_bind (((fwd_types n).1 s1 t _ ht (h1.1.trans hk') (not_append (fun b hb => hG b (by simp [hb])) (fun a h => field_noDot h) hd)
        (by rw [h1.1]; exact hn)).mono fun r s2 h2 => ?_)
      obtain ⟨m, rfl, h2, e2⟩ := h2
      obtain ⟨s3, p1, p2, p3, p4⟩ := precede_eq e2 (.refl s2)
      obtain ⟨s4, q1, q2, q3⟩ := p4 s3 .typeField [] (.refl _)
      refine ok_bind ⟨_, s3, p1, ok_bind ⟨_, s4, q1, ok_pure ?_⟩⟩
      have hk4 := q2.trans (p2.trans h2)
      refine (ih s4 hk4 (by rw [hk4]; rw [hk', e] at hn; simp at hn ⊢; omega) (by omega)).mono fun _ s5 h5 => ⟨h5.1, ?_⟩
      have := (EmitsM.pre h1.2 q3).emits.trans h5.2
      simpa using this

theorem fwd_typeCase {n s b p c rest} (hb : p = [] → b = true) (hp : Opt .pipe p) (hc : Ctor c) (hk : kinds s = yields (p ++ c) ++ rest)
    (hd : Not isDot rest) (hy : Not tyStart rest) (hn : 10 * (kinds s).length + 1 ≤ n) :
    Ok (typeCase n b) s fun _ s' => kinds s' = rest ∧ Emits s s' [.node .typeCase (p ++ c)] := by
  obtain ⟨hfs⟩ := hc
  rename_i fs
  unfold typeCase
  refine ok_bind (ok_start ?_)
  have rest' : ∀ s1, kinds s1 = yields (nm :: fs) ++ rest → (kinds s1).length ≤ (kinds s).length → Emits (started s) s1 p → Ok (do
      expectName
      loopM (fieldBody n) n ()
      let _ ← complete s.events.length .typeCase) s1 fun _ s' => kinds s' = rest ∧ Emits s s' [.node .typeCase (p ++ nm :: fs)] := by
    intro s1 hk1 hl e1
    rw [yields_cons, yield_nm, List.append_assoc] at hk1
    refine ok_bind (f_expectName hk1 fun s2 h2 e2 => ?_)
    have hl2 : (kinds s2).length < (kinds s1).length := by rw [h2, hk1]; simp
    have := len_yields (G := Field) (fun a h => by obtain ⟨k, r, e, -⟩ := h.head; exact yield_pos e) fs hfs
    refine ok_bind ((fwd_fields hd hy fs hfs n s2 h2 (by omega) ?_).mono fun _ s3 h3 => ?_)
    · rw [h2] at hl2; simp at hl2; omega
    refine f_done (Same.refl s) ((e1.trans e2).trans h3.2) fun s7 h7 e7 => ⟨h7.trans h3.1, ?_⟩
    simpa using e7
  cases hp with
  | none =>
    rw [hb rfl]
    refine f_no ?_ fun s1 h1 => rest' s1 (h1.1.trans hk) (by rw [h1.1]; exact Nat.le_refl _) h1.emits
    rw [kinds_started, hk, List.nil_append, yields_cons, yield_nm]; simp
  | some =>
    have hx : kinds s = .pipe :: (yields (nm :: fs) ++ rest) := by rw [hk]; simp [yields_cons, yield_tok]
    have go : ∀ s1, Same (started s) s1 → Ok (expect .pipe >>= fun _ => (do
      expectName
      loopM (fieldBody n) n ()
      let _ ← complete s.events.length .typeCase)) s1 fun _ s' => kinds s' = rest ∧ Emits s s' [.node .typeCase ([Syn.tok .pipe] ++ nm :: fs)] := by
      intro s1 h1
      refine ok_bind (f_expect (h1.1.trans hx) fun s2 h2 e2 => rest' s2 h2 ?_ (h1.emits.trans e2))
      rw [h2, hx]; simp
    cases b with
    | false => exact ok_bind (ok_pure (go _ (.refl _)))
    | true => exact f_yes (s := started s) hx fun s1 h1 => go s1 h1

theorem fwd_params {n s ps rest} (hp : Params ps) (hk : kinds s = yields ps ++ rest) (hr : rest.head? ≠ some .ident) (hn : (kinds s).length < n) :
    Ok (typeParams n) s fun _ s' => kinds s' = rest ∧ Emits s s' ps := by
  unfold typeParams
  cases hp with
  | none =>
    simp only [yields_nil, List.nil_append] at hk
    refine ok_bind (f_at fun s1 h1 => ?_)
    rw [hk, beq_eq_false_iff_ne.mpr hr]
    exact ok_pure ⟨h1.1.trans hk, h1.emits⟩
  | @some j =>
    simp only [yields_cons, yield_node, yields_nms, yields_nil, List.append_nil] at hk
    refine ok_bind (f_at fun s1 h1 => ?_)
    rw [hk]
    simp only [List.replicate_succ, List.cons_append, List.head?_cons, beq_self_eq_true, Bool.not_true, Bool.false_eq_true, if_false]
    refine ok_bind (ok_start ?_)
    refine ok_bind ((f_names (s := started s1) (h1.1.trans hk) hr ?_).mono fun _ s2 h2 => ?_)
    · rw [hk] at hn; simp at hn; omega
    exact f_done h1 h2.2 fun s3 h3 e3 => ⟨h3.trans h2.1, e3⟩

theorem fwd_value {n s0 s x ann e rest} (hx : Emits (started s0) s x) (ha : Ann ann) (he : Ex e)
    (hk : kinds s = yields ([.tok .let_, nm] ++ ann ++ [.tok .equals, e, .tok .semicolon]) ++ rest) (hn : 10 * (kinds s).length + 4 ≤ n) :
    Ok (valueItem n s0.events.length) s fun _ s' => kinds s' = rest ∧
      Emits s0 s' [.node .valueItem (x ++ [.tok .let_, nm] ++ ann ++ [.tok .equals, e, .tok .semicolon])] := by
  have hk' : kinds s = .let_ :: .ident :: (yields ann ++ (.equals :: (e.yield ++ (.semicolon :: rest)))) := by
    rw [hk]; simp [yields_cons, yields_append, yield_tok, yield_nm]
  rw [hk'] at hn
  simp only [List.length_cons, List.length_append] at hn
  unfold valueItem
  refine ok_bind (f_expect hk' fun s1 h1 e1 => ?_)
  refine ok_bind (f_expectName h1 fun s2 h2 e2 => ?_)
  refine f_annot (k := fun _ => _) ha h2 (by rw [h2]; simp; omega) fun s3 h3 e3 => ?_
  refine ok_bind (f_expect h3 fun s4 h4 e4 => ?_)
  refine ok_bind (((fwd_exprs n).ex s4 e _ he h4 (stop_tok rfl) (by rw [h4]; simp; omega)).mono fun _ s5 h5 => ?_)
  refine ok_bind (f_expect h5.1 fun s6 h6 e6 => ?_)
  refine f_done (Same.refl s0) ((((((hx.trans e1).trans e2).trans e3).trans e4).trans h5.2).trans e6) fun s7 h7 e7 => ⟨h7.trans h6, ?_⟩
  simpa using e7

theorem ctor_head {c} (h : Ctor c) : ∃ r, yields c = .ident :: r := by
  cases h; exact ⟨_, by rw [yields_cons, yield_nm]; rfl⟩

theorem fwd_type {n s0 s x ps xc p c cs rest} (hx : Emits (started s0) s x) (hps : Params ps) (hxc : Opt .export_ xc) (hp : Opt .pipe p) (hc : Ctor c)
    (hcs : ∀ d ∈ cs, ∃ f, Ctor f ∧ d = .node .typeCase (.tok .pipe :: f))
    (hk : kinds s = yields ([.tok .type, nm] ++ ps ++ [.tok .equals] ++ xc ++ [.node .typeCase (p ++ c)] ++ cs ++ [.tok .semicolon]) ++ rest)
    (hn : 10 * (kinds s).length + 4 ≤ n) :
    Ok (typeItem n s0.events.length) s fun _ s' => kinds s' = rest ∧
      Emits s0 s' [.node .typeItem (x ++ [.tok .type, nm] ++ ps ++ [.tok .equals] ++ xc ++ [.node .typeCase (p ++ c)] ++ cs ++ [.tok .semicolon])] := by
  have hk' : kinds s = .type :: .ident :: (yields ps ++ (.equals :: (yields xc ++ (yields (p ++ c) ++ (yields cs ++ (.semicolon :: rest)))))) := by
    rw [hk]; simp [yields_cons, yields_append, yield_tok, yield_nm, yield_node]
  rw [hk'] at hn
  simp only [List.length_cons, List.length_append] at hn
  have hpc : ∃ k r, yields (p ++ c) = k :: r ∧ k ≠ .export_ := by
    obtain ⟨r, e⟩ := ctor_head hc
    cases hp with
    | none => exact ⟨_, _, e, by decide⟩
    | some => exact ⟨.pipe, _, by rw [List.singleton_append, yields_cons, yield_tok]; rfl, by decide⟩
  have hstop : Not isDot (yields cs ++ (.semicolon :: rest)) ∧ Not tyStart (yields cs ++ (.semicolon :: rest)) := by
    have hh : ∀ a, (∃ f, Ctor f ∧ a = Syn.node .typeCase (.tok .pipe :: f)) → ∃ r, a.yield = .pipe :: r := by
      rintro a ⟨f, -, rfl⟩
      exact ⟨_, by rw [yield_node, yields_cons, yield_tok]; rfl⟩
    exact ⟨not_append hcs (fun a h => by obtain ⟨r, e⟩ := hh a h; exact ⟨_, r, e, rfl⟩) (by simp [Not, isDot]),
      not_append hcs (fun a h => by obtain ⟨r, e⟩ := hh a h; exact ⟨_, r, e, rfl⟩) (by simp [Not, tyStart])⟩
  unfold typeItem
  refine ok_bind (f_bump hk' fun s1 h1 e1 => ?_)
  refine ok_bind (f_expectName h1 fun s2 h2 e2 => ?_)
  refine ok_bind ((fwd_params hps h2 (by simp) (by rw [h2]; simp; omega)).mono fun _ s3 h3 => ?_)
  refine ok_bind (f_expect h3.1 fun s4 h4 e4 => ?_)
  have pre := (((hx.trans e1).trans e2).trans h3.2).trans e4
  have go : ∀ s5, kinds s5 = yields (p ++ c) ++ (yields cs ++ (.semicolon :: rest)) → Emits s4 s5 xc → Ok (do
      typeCase n true
      whileM n (at_ .pipe) (typeCase n false)
      expect .semicolon
      let _ ← complete s0.events.length .typeItem) s5 fun _ s' => kinds s' = rest ∧
      Emits s0 s' [.node .typeItem (x ++ [.tok .type, nm] ++ ps ++ [.tok .equals] ++ xc ++ [.node .typeCase (p ++ c)] ++ cs ++ [.tok .semicolon])] := by
    intro s5 h5 e5
    refine ok_bind ((fwd_typeCase (fun _ => rfl) hp hc h5 hstop.1 hstop.2 (by rw [h5]; simp; omega)).mono fun _ s6 h6 => ?_)
    have := len_yields (G := fun d => ∃ f, Ctor f ∧ d = .node .typeCase (.tok .pipe :: f)) (fun a h => by
      obtain ⟨f, -, rfl⟩ := h; rw [yield_node, yields_cons, yield_tok]; simp) cs hcs
    refine ok_bind (Ok.mono (f_while (G := fun d => ∃ f, Ctor f ∧ d = .node .typeCase (.tok .pipe :: f)) (rest := .semicolon :: rest) (N := (kinds s6).length) ?_ ?_ cs hcs n s6 h6.1
      (Nat.le_refl _) (by omega)) fun _ s7 h7 => ?_)
    · intro s7 h7 _
      exact f_at fun s8 h8 => ⟨by rw [h7]; simp, h8⟩
    · rintro s7 a ts ⟨f, hf, rfl⟩ hts h7 hN
      refine f_at fun s8 h8 => ⟨by rw [h7, yield_node, yields_cons, yield_tok]; simp, ?_⟩
      have hh : ∀ a, (∃ f, Ctor f ∧ a = Syn.node .typeCase (.tok .pipe :: f)) → ∃ r, a.yield = .pipe :: r := by
        rintro a ⟨f, -, rfl⟩
        exact ⟨_, by rw [yield_node, yields_cons, yield_tok]; rfl⟩
      refine (fwd_typeCase (p := [.tok .pipe]) (c := f) (by simp) .some hf (h8.1.trans (h7.trans (by rw [yield_node]; rfl))) ?_ ?_ ?_).mono fun _ s9 h9 => ⟨h9.1, h8.emits.trans h9.2⟩
      · exact not_append hts (fun a h => by obtain ⟨r, e⟩ := hh a h; exact ⟨_, r, e, rfl⟩) (by simp [Not, isDot])
      · exact not_append hts (fun a h => by obtain ⟨r, e⟩ := hh a h; exact ⟨_, r, e, rfl⟩) (by simp [Not, tyStart])
      · rw [h8.1]
        rw [h6.1] at hN
        simp only [List.length_append, List.length_cons] at hN
        omega
    · refine ok_bind (f_expect h7.1 fun s8 h8 e8 => ?_)
      refine f_done (Same.refl s0) ((((pre.trans e5).trans h6.2).trans h7.2).trans e8) fun s9 h9 e9 => ⟨h9.trans h8, ?_⟩
      simpa using e9
  cases hxc with
  | none =>
    obtain ⟨k, r, e, hne⟩ := hpc
    simp only [yields_nil, List.nil_append] at h4
    exact f_no (by rw [h4, e]; simpa using hne) fun s5 h5 => go s5 (h5.1.trans h4) h5.emits
  | some =>
    have h4' : kinds s4 = .export_ :: (yields (p ++ c) ++ (yields cs ++ (.semicolon :: rest))) := by rw [h4]; simp [yields_cons, yield_tok]
    refine f_yes h4' fun s5 h5 => ?_
    exact ok_bind (f_bump (h5.1.trans h4') fun s6 h6 e6 => go s6 h6 (h5.emits.trans e6))

/-- One more exposed name. -/
abbrev exposedBody (_ : Unit) : P (Unit ⊕ Unit) := do
  if ← at_ .rightParen then pure (.inr ()) else
    expectName
    if !(← at_ .comma) then pure (.inr ()) else
      bump .comma
      pure (.inl ())

theorem fwd_exposedLoop {rest} : ∀ {ns : List Syn}, Names ns → ∀ N s, kinds s = yields ns ++ (.rightParen :: rest) → ns.length < N →
    Ok (loopM exposedBody N ()) s fun _ s' => kinds s' = .rightParen :: rest ∧ Emits s s' ns
  | _, .none, N + 1, s, hk, _ => by
    unfold loopM
    exact ok_bind (f_yes hk fun s1 h1 => ok_pure (ok_pure ⟨h1.1.trans hk, h1.emits⟩))
  | _, .last, N + 1, s, hk, _ => by
    have hk' : kinds s = .ident :: .rightParen :: rest := by rw [hk]; simp [yields_cons, yield_nm]
    unfold loopM
    refine ok_bind (f_no (by rw [hk']; simp) fun s1 h1 => ?_)
    refine ok_bind (f_expectName (h1.1.trans hk') fun s2 h2 e2 => ?_)
    refine ok_bind (f_at fun s3 h3 => ?_)
    rw [h2]
    exact ok_pure (ok_pure ⟨h3.1.trans h2, by simpa using (h1.emits.trans e2).trans h3.emits⟩)
  | _, .more (ns := ns) h, N + 1, s, hk, hN => by
    have hk' : kinds s = .ident :: .comma :: (yields ns ++ (.rightParen :: rest)) := by rw [hk]; simp [yields_cons, yield_nm, yield_tok]
    unfold loopM
    refine ok_bind (f_no (by rw [hk']; simp) fun s1 h1 => ?_)
    refine ok_bind (f_expectName (h1.1.trans hk') fun s2 h2 e2 => ?_)
    refine ok_bind (f_at fun s3 h3 => ?_)
    rw [h2]
    refine ok_bind (f_bump (h3.1.trans h2) fun s4 h4 e4 => ok_pure ?_)
    refine (fwd_exposedLoop h N s4 h4 (by simp at hN; omega)).mono fun _ s5 h5 => ⟨h5.1, ?_⟩
    simpa using (((h1.emits.trans e2).trans h3.emits).trans e4).trans h5.2

theorem Names.len : ∀ {ns}, Names ns → ns.length = (yields ns).length
  | _, .none => rfl
  | _, .last => rfl
  | _, .more h => by simp [yields_cons, yield_nm, yield_tok, h.len]

theorem fwd_exposed {n s ns rest} (hns : Names ns) (hk : kinds s = .leftParen :: (yields ns ++ (.rightParen :: rest))) (hn : (kinds s).length < n) :
    Ok (exposedList n) s fun _ s' => kinds s' = rest ∧ Emits s s' [.node .exposedList (.tok .leftParen :: ns ++ [.tok .rightParen])] := by
  unfold exposedList
  refine ok_bind (ok_start (ok_bind (f_bump (s := started s) hk fun s1 h1 e1 => ?_)))
  refine ok_bind ((fwd_exposedLoop hns n s1 h1 ?_).mono fun _ s2 h2 => ?_)
  · rw [hk] at hn; have := hns.len; simp at hn; omega
  refine ok_bind (f_expect h2.1 fun s3 h3 e3 => ?_)
  refine f_done (Same.refl s) ((e1.trans h2.2).trans e3) fun s4 h4 e4 => ⟨h4.trans h3, ?_⟩
  simpa using e4

/-- The parser reads every item. -/
theorem fwd_item {n s t rest} (ht : Item t) (hk : kinds s = t.yield ++ rest) (hn : 10 * (kinds s).length + 4 ≤ n) :
    Ok (item n) s fun _ s' => kinds s' = rest ∧ Emits s s' [t] := by
  rw [show t.yield = yields (match t with | .node _ cs => cs | .tok k => [.tok k]) by cases t <;> simp [yield_node, yields_cons, yield_tok]] at hk
  unfold item
  refine ok_bind (f_hint fun s1 h1 => ?_)
  cases ht with
  | @value x ann e hx ha he =>
    simp only [List.append_assoc] at hk
    rw [yields_append] at hk
    cases hx with
    | none =>
      simp only [yields_nil, List.nil_append] at hk
      have hh : ∃ r, kinds s = .let_ :: r := ⟨_, by rw [hk]; simp only [List.cons_append, yields_cons, yield_tok]; rfl⟩
      obtain ⟨r, hh⟩ := hh
      refine f_no (by rw [h1.1, hh]; simp) fun s2 h2 => ?_
      replace h2 := h1.trans h2
      refine f_yes (h2.1.trans hh) fun s3 h3 => ?_
      replace h3 := h2.trans h3
      refine ok_bind (ok_start ?_)
      refine (fwd_value (s0 := s3) (s := started s3) (.refl _) ha he (h3.1.trans (by rw [hk]; simp)) (by rw [kinds_started, h3.1]; exact hn)).mono fun _ s4 h4 => ⟨h4.1, ?_⟩
      simpa using h3.emits.trans h4.2
    | some =>
      simp only [yields_cons, yield_tok, yields_nil] at hk
      refine f_yes (h1.1.trans hk) fun s2 h2 => ?_
      replace h2 := h1.trans h2
      refine ok_bind (ok_start (ok_bind (f_bump (s := started s2) (h2.1.trans hk) fun s3 h3 e3 => ?_)))
      have hh : ∃ r, kinds s3 = .let_ :: r := ⟨_, by rw [h3]; simp only [List.cons_append, List.nil_append, yields_cons, yield_tok]; rfl⟩
      obtain ⟨r, hh⟩ := hh
      refine f_yes hh fun s4 h4 => ?_
      have hl : (kinds s3).length < (kinds s).length := by rw [h3, hk]; simp
      refine (fwd_value (s0 := s2) (s := s4) (e3.trans h4.emits) ha he (h4.1.trans (by rw [h3]; simp)) (by rw [h4.1]; omega)).mono fun _ s5 h5 => ⟨h5.1, ?_⟩
      simpa using h2.emits.trans h5.2
  | @type x ps xc p c cs hx hps hxc hp hc hcs =>
    simp only [List.append_assoc] at hk
    rw [yields_append] at hk
    cases hx with
    | none =>
      simp only [yields_nil, List.nil_append] at hk
      have hh : ∃ r, kinds s = .type :: r := ⟨_, by rw [hk]; simp only [List.cons_append, yields_cons, yield_tok]; rfl⟩
      obtain ⟨r, hh⟩ := hh
      refine f_no (by rw [h1.1, hh]; simp) fun s2 h2 => ?_
      replace h2 := h1.trans h2
      refine f_no (by rw [h2.1, hh]; simp) fun s3 h3 => ?_
      replace h3 := h2.trans h3
      refine f_yes (h3.1.trans hh) fun s4 h4 => ?_
      replace h4 := h3.trans h4
      refine ok_bind (ok_start ?_)
      refine (fwd_type (s0 := s4) (s := started s4) (.refl _) hps hxc hp hc hcs (h4.1.trans (by rw [hk]; simp)) (by rw [kinds_started, h4.1]; exact hn)).mono fun _ s5 h5 => ⟨h5.1, ?_⟩
      simpa using h4.emits.trans h5.2
    | some =>
      simp only [yields_cons, yield_tok, yields_nil] at hk
      refine f_yes (h1.1.trans hk) fun s2 h2 => ?_
      replace h2 := h1.trans h2
      refine ok_bind (ok_start (ok_bind (f_bump (s := started s2) (h2.1.trans hk) fun s3 h3 e3 => ?_)))
      have hh : ∃ r, kinds s3 = .type :: r := ⟨_, by rw [h3]; simp only [List.cons_append, List.nil_append, yields_cons, yield_tok]; rfl⟩
      obtain ⟨r, hh⟩ := hh
      refine f_no (by rw [hh]; simp) fun s4 h4 => ?_
      refine f_yes (h4.1.trans hh) fun s5 h5 => ?_
      replace h5 := h4.trans h5
      have hl : (kinds s3).length < (kinds s).length := by rw [h3, hk]; simp
      refine (fwd_type (s0 := s2) (s := s5) (e3.trans h5.emits) hps hxc hp hc hcs (h5.1.trans (by rw [h3]; simp)) (by rw [h5.1]; omega)).mono fun _ s6 h6 => ⟨h6.1, ?_⟩
      simpa using h2.emits.trans h6.2
  | @import_ nn l hnn hl =>
    have hk' : kinds s = .import_ :: (yields nn ++ (yields l ++ (.from_ :: .string :: .semicolon :: rest))) := by
      rw [hk]; simp [yields_cons, yields_append, yield_tok]
    have hlen : (kinds s).length = 4 + (yields nn).length + (yields l).length + rest.length := by rw [hk']; simp; omega
    refine f_no (by rw [h1.1, hk']; simp) fun s2 h2 => ?_
    replace h2 := h1.trans h2
    refine f_no (by rw [h2.1, hk']; simp) fun s3 h3 => ?_
    replace h3 := h2.trans h3
    refine f_no (by rw [h3.1, hk']; simp) fun s4 h4 => ?_
    replace h4 := h3.trans h4
    refine f_yes (h4.1.trans hk') fun s5 h5 => ?_
    replace h5 := h4.trans h5
    refine ok_bind (ok_start (ok_bind (f_bump (s := started s5) (h5.1.trans hk') fun s6 h6 e6 => ?_)))
    have rest2 : ∀ s7, kinds s7 = .from_ :: .string :: .semicolon :: rest → Emits (started s5) s7 (.tok .import_ :: nn ++ l) → Ok (do
        expect .from_
        expect .string
        expect .semicolon
        let _ ← complete s5.events.length .importItem) s7 fun _ s' => kinds s' = rest ∧
          Emits s s' [.node .importItem (.tok .import_ :: nn ++ l ++ [.tok .from_, .tok .string, .tok .semicolon])] := by
      intro s7 h7 e7
      refine ok_bind (f_expect h7 fun s8 h8 e8 => ?_)
      refine ok_bind (f_expect h8 fun s9 h9 e9 => ?_)
      refine ok_bind (f_expect h9 fun s10 h10 e10 => ?_)
      refine f_done h5 (((e7.trans e8).trans e9).trans e10) fun s11 h11 e11 => ⟨h11.trans h10, ?_⟩
      simpa using e11
    have rest1 : ∀ s7, kinds s7 = yields l ++ (.from_ :: .string :: .semicolon :: rest) → Emits (started s5) s7 (.tok .import_ :: nn) → Ok (do
        if ← at_ .leftParen then exposedList n
        expect .from_
        expect .string
        expect .semicolon
        let _ ← complete s5.events.length .importItem) s7 fun _ s' => kinds s' = rest ∧
          Emits s s' [.node .importItem (.tok .import_ :: nn ++ l ++ [.tok .from_, .tok .string, .tok .semicolon])] := by
      intro s7 h7 e7
      rcases hl with rfl | ⟨ns, hns, rfl⟩
      · simp only [yields_nil, List.nil_append] at h7
        exact f_no (by rw [h7]; simp) fun s8 h8 => rest2 s8 (h8.1.trans h7) (by simpa using e7.trans h8.emits)
      · have h7' : kinds s7 = .leftParen :: (yields ns ++ (.rightParen :: (.from_ :: .string :: .semicolon :: rest))) := by
          rw [h7]; simp [yields_cons, yield_node, yields_append, yield_tok]
        refine f_yes h7' fun s8 h8 => ?_
        have hl8 : (kinds s8).length ≤ (kinds s).length := by rw [h8.1, h7]; simp only [List.length_append, List.length_cons]; omega
        refine ok_bind ((fwd_exposed hns (h8.1.trans h7') (by omega)).mono fun _ s9 h9 => rest2 s9 h9.1 ?_)
        simpa using (e7.trans h8.emits).trans h9.2
    rcases hnn with rfl | rfl
    · refine f_no ?_ fun s7 h7 => rest1 s7 (h7.1.trans (by simpa using h6)) (by simpa using e6.trans h7.emits)
      rw [h6]
      rcases hl with rfl | ⟨ns, hns, rfl⟩
      · simp
      · simp [yields_cons, yield_node, yield_tok]
    · have h6' : kinds s6 = .ident :: (yields l ++ (.from_ :: .string :: .semicolon :: rest)) := by rw [h6]; simp [yields_cons, yield_nm]
      refine f_yes h6' fun s7 h7 => ?_
      exact ok_bind (f_bumpName (h7.1.trans h6') fun s8 h8 e8 => rest1 s8 h8 (by simpa using (e6.trans h7.emits).trans e8))

end Tic.Grammar
