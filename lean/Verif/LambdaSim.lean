import Verif.LambdaOK
/-
Compiling well-named expressions succeeds, and running the code simulates the tree-walking evaluator.
-/
namespace Tic.Core

/-! ## Compiling succeeds -/

theorem captureSlots_ok {G : List (Name × LVal)} {st : List Name} (hn : st.Nodup) : ∀ (cs acc : List Name),
    (∀ c ∈ cs, c ∈ gkeys G ∨ c ∈ st) →
    ∃ slots, captureSlots G (rof st) cs (rof acc) =
        some (slots, rof (acc ++ cs.filter (fun c => (assoc c G).isNone))) ∧
      slots.length = (cs.filter (fun c => (assoc c G).isNone)).length ∧
      ∀ (i : Nat) c, (cs.filter (fun c => (assoc c G).isNone))[i]? = some c →
        ∃ j, slots[i]? = some j ∧ st[j]? = some c := by
  intro cs
  induction cs with
  | nil => intro acc _; exact ⟨[], by simp [captureSlots], rfl, by simp⟩
  | cons c cs ih =>
    intro acc h
    have h' : ∀ c ∈ cs, c ∈ gkeys G ∨ c ∈ st := fun c hc => h c (by simp [hc])
    cases hc : assoc c G with
    | some v =>
      obtain ⟨slots, h1, h2, h3⟩ := ih acc h'
      refine ⟨slots, ?_, ?_, ?_⟩
      · rw [captureSlots, hc, List.filter_cons_of_neg (by simp [hc])]; exact h1
      · rw [List.filter_cons_of_neg (by simp [hc])]; exact h2
      · rw [List.filter_cons_of_neg (by simp [hc])]; exact h3
    | none =>
      have hcs : c ∈ st := by
        rcases h c (by simp) with hk | hk
        · obtain ⟨a, ha⟩ := assoc_isSome.1 hk
          rw [ha] at hc; cases hc
        · exact hk
      obtain ⟨j, hj⟩ := List.mem_iff_getElem?.1 hcs
      obtain ⟨slots, h1, h2, h3⟩ := ih (acc ++ [c]) h'
      refine ⟨j :: slots, ?_, ?_, ?_⟩
      · rw [captureSlots, hc, List.filter_cons_of_pos (by simp [hc])]
        simp only
        rw [rof_assoc hn hj]
        simp only
        rw [rof_add, h1]
        simp
      · rw [List.filter_cons_of_pos (by simp [hc])]; simp [h2]
      · rw [List.filter_cons_of_pos (by simp [hc])]
        intro i d hd
        cases i with
        | zero =>
          simp only [List.getElem?_cons_zero, Option.some.injEq] at hd
          exact ⟨j, by simp, hd ▸ hj⟩
        | succ i =>
          simp only [List.getElem?_cons_succ] at hd ⊢
          exact h3 i d hd

/-- What captured names and slots satisfy: they are names of the stack, with their positions. -/
structure Caps (st cn : List Name) (slots : List Nat) : Prop where
  nodup : cn.Nodup
  len : slots.length = cn.length
  slot : ∀ (i : Nat) c, cn[i]? = some c → ∃ j, slots[i]? = some j ∧ st[j]? = some c

theorem Caps.sub {st cn : List Name} {slots : List Nat} (h : Caps st cn slots) : ∀ c ∈ cn, c ∈ st := by
  intro c hc
  obtain ⟨i, hi⟩ := List.mem_iff_getElem?.1 hc
  obtain ⟨j, -, hj⟩ := h.slot i c hi
  exact List.mem_of_getElem? hj

theorem caps_ok {G : List (Name × LVal)} {st cs : List Name} {names : List Name} (hn : st.Nodup)
    (hp : cs.Perm names) (hnd : names.Nodup) (hsub : ∀ c ∈ names, c ∈ st ++ gkeys G) :
    ∃ cn slots, captureSlots G (rof st) cs {} = some (slots, rof cn) ∧ Caps st cn slots ∧
      ∀ c ∈ names, c ∈ cn ∨ c ∈ gkeys G := by
  obtain ⟨slots, h1, h2, h3⟩ := captureSlots_ok (G := G) hn cs [] (fun c hc => by
    have := hsub c (hp.mem_iff.1 hc)
    rcases List.mem_append.1 this with h | h
    · exact .inr h
    · exact .inl h)
  refine ⟨_, slots, h1, ⟨?_, ?_, ?_⟩, ?_⟩
  · rw [List.nil_append]; exact (hp.nodup_iff.2 hnd).filter _
  · simpa using h2
  · simpa using h3
  · intro c hc
    cases hg : assoc c G with
    | some v => exact .inr (assoc_isSome.2 ⟨v, hg⟩)
    | none =>
      left
      simp only [List.nil_append, List.mem_filter]
      exact ⟨hp.mem_iff.2 hc, by simp [hg]⟩

section
variable {ord : Expr → List Name → List Name} (hord : ∀ e l, (ord e l).Perm l)
variable {G : List (Name × LVal)}

/-- A function body is well named over its captured names and parameters. -/
theorem good_body {st cn ps : List Name} {b : Expr}
    (hg : Good (ps ++ (st ++ gkeys G)) b) (hsub : ∀ c ∈ cn, c ∈ st)
    (hfree : ∀ x, x ∉ ps → Free x b → x ∈ cn ∨ x ∈ gkeys G) :
    Good ((cn ++ ps) ++ gkeys G) b := by
  refine hg.shrink (fun x hx => ?_) (fun x hx => ?_)
  · simp only [List.mem_append] at hx ⊢
    rcases hx with (h | h) | h
    · exact .inr (.inl (hsub x h))
    · exact .inl h
    · exact .inr (.inr h)
  · simp only [List.mem_append]
    by_cases hp : x ∈ ps
    · exact .inl (.inr hp)
    · rcases hfree x hp hx with h | h
      · exact .inl (.inl h)
      · exact .inr h

include hord in
/-- Compiling a lambda, given that its body compiles. -/
theorem compile_lam {st : List Name} (hn : st.Nodup) {ps : List (Name × Ty)} {b : Expr}
    (hg : Good (st ++ gkeys G) (.lam ps b))
    (hb : ∀ st', st'.Nodup → Good (st' ++ gkeys G) b →
      ∃ code, compileL ord G b (rof st') = some (code, rof st')) :
    ∃ cn slots code, Caps st cn slots ∧ (cn ++ ps.map (·.1)).Nodup ∧
      Good ((cn ++ ps.map (·.1)) ++ gkeys G) b ∧
      compileL ord G b (rof (cn ++ ps.map (·.1))) = some (code, rof (cn ++ ps.map (·.1))) ∧
      compileL ord G (.lam ps b) (rof st) = some (.lam slots code, rof st) := by
  have hfn := freeNames_ok (.lam ps b) (st ++ gkeys G) [] hg (by simp) List.nodup_nil
  obtain ⟨cn, slots, h1, h2, h3⟩ := caps_ok (G := G) hn
    (hord (.lam ps b) (freeNames (.lam ps b) [])) hfn.nodup hfn.sub
  have hps : ∀ y ∈ ps.map (·.1), y ∉ st ++ gkeys G := fun y hy => hg.own_new (by simpa [own] using hy)
  have hnd : (cn ++ ps.map (·.1)).Nodup := by
    rw [List.nodup_append]
    refine ⟨h2.nodup, by simpa [own] using hg.own_nodup, fun a ha b hb hab => ?_⟩
    exact hps b hb (List.mem_append_left _ (hab ▸ h2.sub a ha))
  have hgb : Good ((cn ++ ps.map (·.1)) ++ gkeys G) b :=
    good_body (hg.child (c := (ps.map (·.1), b)) (by simp [children])) h2.sub
      (fun x hx hf => h3 x (hfn.free x ⟨hx, hf⟩))
  obtain ⟨code, hcode⟩ := hb _ hnd hgb
  refine ⟨cn, slots, code, h2, hnd, hgb, hcode, ?_⟩
  rw [compileL, h1]
  simp only [Option.bind_some, rof_append]
  rw [hcode]
  simp only [Option.bind_some]
  rw [rof_removeAll _ hnd]
  simp only [Option.bind_some]
  rw [if_pos (by rw [rof_length h2.nodup, h2.len])]

theorem compileRec_pi {n v e} {r : Resolver} : compileRec ord G n (.pi v e) r = compileRec ord G n e r := by
  rw [compileRec]

theorem stripPis_lam {v : Expr} {ps : List Name} {b : Expr} (h : recLam v = some (ps, b)) :
    ∃ ps', ps = ps'.map (·.1) ∧ stripPis v = .lam ps' b := by
  unfold recLam at h
  split at h
  · rename_i ps' b' heq
    cases h
    exact ⟨ps', rfl, heq⟩
  · cases h

theorem compileRec_strip {n : Name} {r : Resolver} : ∀ {v : Expr}, compileRec ord G n v r = compileRec ord G n (stripPis v) r
  | .pi _ e => by rw [compileRec, stripPis]; exact compileRec_strip
  | .bool _ | .int _ | .str _ | .name _ | .call _ _ | .ite _ _ _ | .op _ _ _ | .intr _ _ | .lam _ _ | .mtch _ _
  | .con _ _ _ | .let_ _ _ _ | .letrec _ _ _ _ | .piApp _ _ | .trap _ _ => by simp [stripPis]

theorem stripPis_good {X : List Name} : ∀ {v : Expr}, Good X v → Good X (stripPis v)
  | .pi _ e => fun h => by rw [stripPis]; exact stripPis_good (h.child (c := ([], e)) (by simp [children]))
  | .bool _ | .int _ | .str _ | .name _ | .call _ _ | .ite _ _ _ | .op _ _ _ | .intr _ _ | .lam _ _ | .mtch _ _
  | .con _ _ _ | .let_ _ _ _ | .letrec _ _ _ _ | .piApp _ _ | .trap _ _ => by simp [stripPis]

theorem stripPis_args : ∀ {v : Expr}, ArgsOK v → ArgsOK (stripPis v)
  | .pi _ e => fun h => by rw [stripPis]; exact stripPis_args (h.child (c := ([], e)) (by simp [children]))
  | .bool _ | .int _ | .str _ | .name _ | .call _ _ | .ite _ _ _ | .op _ _ _ | .intr _ _ | .lam _ _ | .mtch _ _
  | .con _ _ _ | .let_ _ _ _ | .letrec _ _ _ _ | .piApp _ _ | .trap _ _ => by simp [stripPis]

include hord in
/-- Compiling a recursive function, given that its body compiles. -/
theorem compile_rec {st : List Name} (hn : st.Nodup) {n : Name} {v : Expr} {ps : List Name} {b : Expr}
    (hv : recLam v = some (ps, b)) (hnew : n ∉ st ++ gkeys G)
    (hg : Good (n :: (st ++ gkeys G)) v)
    (hb : ∀ st', st'.Nodup → Good (st' ++ gkeys G) b →
      ∃ code, compileL ord G b (rof st') = some (code, rof st')) :
    ∃ cn slots code, Caps st cn slots ∧ (cn ++ ps ++ [n]).Nodup ∧
      Good ((cn ++ ps ++ [n]) ++ gkeys G) b ∧
      compileL ord G b (rof (cn ++ ps ++ [n])) = some (code, rof (cn ++ ps ++ [n])) ∧
      compileRec ord G n v (rof st) = some (slots, code) := by
  obtain ⟨ps', rfl, hs⟩ := stripPis_lam hv
  have hg' := stripPis_good hg
  rw [hs] at hg'
  have hfn := freeNames_ok (.lam ps' b) (n :: (st ++ gkeys G)) [] hg' (by simp) List.nodup_nil
  obtain ⟨cn, slots, h1, h2, h3⟩ := caps_ok (G := G) (st := st)
    (names := (freeNames (.lam ps' b) []).filter (fun x => x ≠ n)) hn
    (hord (.lam ps' b) _) (hfn.nodup.filter _) (fun c hc => by
      obtain ⟨h1, h2⟩ := List.mem_filter.1 hc
      rcases List.mem_cons.1 (hfn.sub c h1) with h | h
      · simp [h] at h2
      · exact h)
  have hps : ∀ y ∈ ps'.map (·.1), y ∉ n :: (st ++ gkeys G) := fun y hy => hg'.own_new (by simpa [own] using hy)
  have hnd : (cn ++ ps'.map (·.1)).Nodup := by
    rw [List.nodup_append]
    refine ⟨h2.nodup, by simpa [own] using hg'.own_nodup, fun a ha b hb hab => ?_⟩
    exact hps b hb (List.mem_cons_of_mem _ (List.mem_append_left _ (hab ▸ h2.sub a ha)))
  have hnn : n ∉ cn ++ ps'.map (·.1) := by
    intro h
    rcases List.mem_append.1 h with h | h
    · exact hnew (List.mem_append_left _ (h2.sub n h))
    · exact hps n h (by simp)
  have hnd' : (cn ++ ps'.map (·.1) ++ [n]).Nodup := by
    rw [List.nodup_append]
    exact ⟨hnd, by simp, fun a ha b hb hab => hnn (by rw [List.mem_singleton.1 hb] at hab; exact hab ▸ ha)⟩
  have hgb : Good ((cn ++ ps'.map (·.1) ++ [n]) ++ gkeys G) b := by
    refine (hg'.child (c := (ps'.map (·.1), b)) (by simp [children])).shrink (fun x hx => ?_) (fun x hx => ?_)
    · simp only [List.mem_append, List.mem_cons, List.not_mem_nil, or_false] at hx ⊢
      rcases hx with ((h | h) | h) | h
      · exact .inr (.inr (.inl (h2.sub x h)))
      · exact .inl h
      · exact .inr (.inl h)
      · exact .inr (.inr (.inr h))
    · simp only [List.mem_append, List.mem_cons, List.not_mem_nil, or_false]
      by_cases hp : x ∈ ps'.map (·.1)
      · exact .inl (.inl (.inr hp))
      · by_cases hxn : x = n
        · exact .inl (.inr hxn)
        · rcases h3 x (List.mem_filter.2 ⟨hfn.free x ⟨hp, hx⟩, by simpa using hxn⟩) with h | h
          · exact .inl (.inl (.inl h))
          · exact .inr h
  obtain ⟨code, hcode⟩ := hb _ hnd' hgb
  refine ⟨cn, slots, code, h2, hnd', hgb, hcode, ?_⟩
  rw [compileRec_strip, hs, compileRec, h1]
  simp only [Option.bind_some, rof_append, rof_add]
  rw [hcode]
  simp only [Option.bind_some]
  rw [rof_remove hnn]
  simp only [Option.bind_some]
  rw [rof_removeAll _ hnd]
  simp only [Option.bind_some]
  rw [if_pos (by rw [rof_length h2.nodup, h2.len])]

theorem good_push {st : List Name} {xs : List Name} {e : Expr} (h : Good (xs ++ (st ++ gkeys G)) e) :
    Good ((st ++ xs) ++ gkeys G) e := by
  refine h.shrink (fun x hx => ?_) (fun x hx => ?_)
  · simp only [List.mem_append] at hx ⊢
    rcases hx with (h | h) | h
    · exact .inr (.inl h)
    · exact .inl h
    · exact .inr (.inr h)
  · have := h.scope x hx
    simp only [List.mem_append] at this ⊢
    rcases this with h | h | h
    · exact .inl (.inr h)
    · exact .inl (.inl h)
    · exact .inr h

theorem nodup_push {st xs : List Name} (hn : st.Nodup) (hx : xs.Nodup) (hd : ∀ x ∈ xs, x ∉ st ++ gkeys G) :
    (st ++ xs).Nodup := by
  rw [List.nodup_append]
  exact ⟨hn, hx, fun a ha b hb hab => hd b hb (List.mem_append_left _ (hab ▸ ha))⟩

/-- Compiles, leaving the resolver as it was. -/
abbrev Compiles (ord : Expr → List Name → List Name) (G : List (Name × LVal)) (e : Expr) (st : List Name) : Prop :=
  ∃ code, compileL ord G e (rof st) = some (code, rof st)

theorem compileLs_ok {st : List Name} : ∀ {es : List Expr}, (∀ e ∈ es, Compiles ord G e st) →
    ∃ codes, compileLs ord G es (rof st) = some (codes, rof st)
  | [], _ => ⟨[], by rw [compileLs]⟩
  | e :: es, h => by
    obtain ⟨c, hc⟩ := h e (by simp)
    obtain ⟨cs, hcs⟩ := compileLs_ok (es := es) (fun e he => h e (by simp [he]))
    exact ⟨c :: cs, by rw [compileLs, hc]; simp only [Option.bind_some, hcs, Option.map_some]⟩

theorem compileLn_ok {st : List Name} : ∀ {k : Nat} {es : List Expr}, k ≤ es.length →
    (∀ e ∈ es, Compiles ord G e st) → ∃ codes, compileLn ord G k es (rof st) = some (codes, rof st)
  | 0, es, _, _ => ⟨[], by rw [compileLn]⟩
  | k + 1, [], h, _ => by simp at h
  | k + 1, e :: es, hk, h => by
    obtain ⟨c, hc⟩ := h e (by simp)
    obtain ⟨cs, hcs⟩ := compileLn_ok (k := k) (es := es) (by simpa using hk) (fun e he => h e (by simp [he]))
    exact ⟨c :: cs, by rw [compileLn, hc]; simp only [Option.bind_some, hcs, Option.map_some]⟩

theorem compileLb_ok {st : List Name} : ∀ {bs : List Branch},
    (∀ b ∈ bs, (st ++ b.binds).Nodup ∧ Compiles ord G b.body (st ++ b.binds)) →
    ∃ codes, compileLb ord G bs (rof st) = some (codes, rof st)
  | [], _ => ⟨[], by rw [compileLb]⟩
  | .mk c ns e :: bs, h => by
    obtain ⟨hn, code, hc⟩ := h (.mk c ns e) (by simp)
    obtain ⟨cs, hcs⟩ := compileLb_ok (bs := bs) (fun e he => h e (by simp [he]))
    simp only [Branch.binds, Branch.body] at hn hc
    refine ⟨(c, code) :: cs, ?_⟩
    rw [compileLb, rof_append, hc]
    simp only [Option.bind_some]
    rw [rof_removeAll _ hn]
    simp only [Option.bind_some, hcs, Option.map_some]

include hord in
/-- **Compiling never panics** on a well-named expression. -/
theorem compile_ok : ∀ (e : Expr) (st : List Name), st.Nodup → ArgsOK e → Good (st ++ gkeys G) e →
    Compiles ord G e st := by
  intro e
  induction e using Expr.strong with
  | _ e ih0 =>
  intro st hn ha hg
  have ih : ∀ c ∈ children e, (st ++ c.1).Nodup → Compiles ord G c.2 (st ++ c.1) := fun c hc hnd =>
    ih0 c.2 (mem_children_size hc) _ hnd (ha.child hc) (good_push (hg.child hc))
  have ih' : ∀ c, ([], c) ∈ children e → Compiles ord G c st := fun c hc => by
    simpa using ih ([], c) hc (by simpa using hn)
  cases e with
  | bool b => exact ⟨_, by rw [compileL]⟩
  | int i => exact ⟨_, by rw [compileL]⟩
  | str s => exact ⟨_, by rw [compileL]⟩
  | trap m t => exact ⟨_, by rw [compileL]⟩
  | name x =>
    have hx := hg.scope x rfl
    unfold Compiles
    rw [compileL]
    cases h : assoc x G with
    | some v => exact ⟨_, rfl⟩
    | none =>
      rcases List.mem_append.1 hx with hx | hx
      · obtain ⟨i, hi⟩ := List.mem_iff_getElem?.1 hx
        rw [rof_assoc hn hi]
        exact ⟨_, rfl⟩
      · obtain ⟨a, ha⟩ := assoc_isSome.1 hx
        rw [ha] at h; cases h
  | call f xs =>
    obtain ⟨c, hc⟩ := ih' f (by simp [children])
    obtain ⟨cs, hcs⟩ := compileLs_ok (es := xs) (fun e he => ih' e (by simp [children, he]))
    exact ⟨_, by rw [compileL, hc]; simp only [Option.bind_some, hcs, Option.map_some]; rfl⟩
  | ite c t e =>
    obtain ⟨c1, h1⟩ := ih' c (by simp [children])
    obtain ⟨c2, h2⟩ := ih' t (by simp [children])
    obtain ⟨c3, h3⟩ := ih' e (by simp [children])
    exact ⟨_, by rw [compileL, h1]; simp only [Option.bind_some, h2, h3, Option.map_some]; rfl⟩
  | op a o b =>
    obtain ⟨c1, h1⟩ := ih' a (by simp [children])
    obtain ⟨c2, h2⟩ := ih' b (by simp [children])
    exact ⟨_, by rw [compileL, h1]; simp only [Option.bind_some, h2, Option.map_some]; rfl⟩
  | intr i xs =>
    obtain ⟨cs, hcs⟩ := compileLn_ok (k := i.arity) (es := xs) (ha i xs .refl)
      (fun e he => ih' e (by simp [children, he]))
    exact ⟨_, by rw [compileL, hcs]; simp only [Option.map_some]; rfl⟩
  | lam ps b =>
    obtain ⟨_, _, _, _, _, _, _, h⟩ := compile_lam hord hn hg (fun st' hn' hg' =>
      ih0 b (mem_children_size (c := (ps.map (·.1), b)) (by simp [children])) st' hn'
        (ha.child (c := (ps.map (·.1), b)) (by simp [children])) hg')
    exact ⟨_, h⟩
  | mtch d bs =>
    have hbm : ∀ b ∈ bs, (b.binds, b.body) ∈ children (.mtch d bs) := fun b hb => by
      simp only [children, List.mem_cons, List.mem_map]
      exact .inr ⟨b, hb, rfl⟩
    obtain ⟨c1, h1⟩ := ih' d (by simp [children])
    obtain ⟨cs, hcs⟩ := compileLb_ok (bs := bs) (ord := ord) (G := G) (st := st) (fun b hb => by
      have hnd : (st ++ b.binds).Nodup := nodup_push (G := G) hn
        (List.Nodup.sublist (l₂ := own (.mtch d bs)) (by
          simp only [own]
          obtain ⟨pre, post, rfl⟩ := List.append_of_mem hb
          simp only [List.flatMap_append, List.flatMap_cons]
          exact (List.sublist_append_left _ _).trans (List.sublist_append_right _ _)) hg.own_nodup)
        (fun y hy => hg.own_new (by
          simp only [own, List.mem_flatMap]
          exact ⟨b, hb, hy⟩))
      exact ⟨hnd, ih _ (hbm b hb) hnd⟩)
    exact ⟨_, by rw [compileL, h1]; simp only [Option.bind_some, hcs, Option.map_some]; rfl⟩
  | con c ts xs =>
    obtain ⟨cs, hcs⟩ := compileLs_ok (es := xs) (fun e he => ih' e (by simp [children, he]))
    exact ⟨_, by rw [compileL, hcs]; simp only [Option.map_some]; rfl⟩
  | let_ n v e =>
    have hnn : n ∉ st ++ gkeys G := hg.own_new (by simp [own])
    have hns : n ∉ st := fun h => hnn (List.mem_append_left _ h)
    obtain ⟨c1, h1⟩ := ih' v (by simp [children])
    obtain ⟨c2, h2⟩ := ih ([n], e) (by simp [children]) (nodup_push (G := G) hn (by simp) (by simpa using hnn))
    exact ⟨_, by
      rw [compileL, h1]
      simp only [Option.bind_some, rof_add]
      rw [h2]
      simp only [Option.bind_some]
      rw [rof_remove hns]
      rfl⟩
  | letrec n t v e =>
    have hnn : n ∉ st ++ gkeys G := hg.own_new (by simp [own])
    have hns : n ∉ st := fun h => hnn (List.mem_append_left _ h)
    have hv : (recLam v).isSome = true := hg.recs _ .refl
    cases hr : recLam v with
    | none => rw [hr] at hv; cases hv
    | some p =>
      obtain ⟨ps, b⟩ := p
      obtain ⟨ps', hps', hs⟩ := stripPis_lam hr
      have hab : ArgsOK b := by
        have := stripPis_args (ha.child (c := ([n], v)) (by simp [children]))
        rw [hs] at this
        exact this.child (c := (ps'.map (·.1), b)) (by simp [children])
      obtain ⟨_, _, _, _, _, _, _, h1⟩ := compile_rec hord hn hr hnn
        (hg.child (c := ([n], v)) (by simp [children])) (fun st' hn' hg' =>
          ih0 b (Nat.lt_trans (recLam_size hr) (mem_children_size (c := ([n], v)) (by simp [children])))
            st' hn' hab hg')
      obtain ⟨c2, h2⟩ := ih ([n], e) (by simp [children]) (nodup_push (G := G) hn (by simp) (by simpa using hnn))
      exact ⟨_, by
        rw [compileL, h1]
        simp only [Option.bind_some, rof_add]
        rw [h2]
        simp only [Option.bind_some]
        rw [rof_remove hns]
        rfl⟩
  | pi v e =>
    obtain ⟨c1, h1⟩ := ih' e (by simp [children])
    exact ⟨_, by rw [compileL, h1]; rfl⟩
  | piApp e t =>
    obtain ⟨c1, h1⟩ := ih' e (by simp [children])
    exact ⟨_, by rw [compileL, h1]; rfl⟩

end

end Tic.Core
