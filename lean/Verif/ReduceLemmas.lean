import Verif.Reduce
/-
Helper: moving `let` out of the function position of a call, beta reduction.
-/
namespace Tic.Core

theorem CRes.bind_assoc {α β γ : Type} (x : CRes α) (f : α → CRes β) (g : β → CRes γ) :
    CRes.bind (CRes.bind x f) g = CRes.bind x fun a => CRes.bind (f a) g := by
  obtain ⟨c, r⟩ := x
  cases r with
  | ok a =>
    simp only [CRes.bind]
    rcases hfa : f a with ⟨c', r'⟩
    cases r' <;> simp only <;> grind
  | _ => rfl

@[simp] theorem CRes.bind_free_ok {α β : Type} (a : α) (f : α → CRes β) : CRes.bind (free (.ok a)) f = f a := by
  simp [CRes.bind, free]
@[simp] theorem CRes.bind_free_timeout {α β : Type} (f : α → CRes β) : CRes.bind (free .timeout) f = free .timeout := rfl
@[simp] theorem CRes.bind_free_panic {α β : Type} (f : α → CRes β) : CRes.bind (free .panic) f = free .panic := rfl

variable {d : Bool} {s : Mode} {k : Nat} {ρ ρ' : Env} {X : List Name}

theorem LookRel.consR {x y : Name} {v' : Val} (hne : x ≠ y) (h : LookRel s k ρ ρ' x) : LookRel s k ρ ((y, v') :: ρ') x := by
  rcases h with ⟨h1, h2⟩ | ⟨w, w', h1, h2, h3⟩
  · exact .inl ⟨h1, by simp [lookup, Ne.symm hne, h2]⟩
  · exact .inr ⟨w, w', h1, by simp [lookup, Ne.symm hne, h2], h3⟩

theorem LookRel.consL {x y : Name} {v : Val} (hne : x ≠ y) (h : LookRel s k ρ ρ' x) : LookRel s k ((y, v) :: ρ) ρ' x := by
  rcases h with ⟨h1, h2⟩ | ⟨w, w', h1, h2, h3⟩
  · exact .inl ⟨by simp [lookup, Ne.symm hne, h1], h2⟩
  · exact .inr ⟨w, w', by simp [lookup, Ne.symm hne, h1], h2, h3⟩

theorem mono_call (ρ : Env) (es : List Expr) (fv : Val) :
    Mono (fun m => if fv.isFn = true then (evalList (eval m ρ) es).bind fun vs => applyFn (eval m) fv vs else .panic) :=
  mono_ite (mono_bind (mono_list _ _) fun _ => mono_apply _ _) (mono_const _)

theorem CE.shift {α β : Type} {P : Nat → α → β → Prop} {l : CRes α} {R : Nat → Res β} (hR : Mono R)
    (h : CE s P k l R) : CE s P k l (fun m => R (m + 1)) := fun a b =>
  let ⟨m, hm⟩ := h a b; ⟨m, OutRel.up hR hm (Nat.le_succ m)⟩

/-- The rest of a call once the function is known. -/
theorem call_tail {es es' : List Expr} {f f' : Val} (hf : V s k f f') (hes : All2 (fun e e' => RelD s k ρ e ρ' e') es es')
    {j : Nat} (hj : j ≤ k) (n : Nat) :
    CE s (V s) j (if f.isFn = true then CRes.bind (evalListC (evalC n ρ) es) fun vs => tick (bodyC (evalC n) f vs) else free .panic)
      (fun m => if f'.isFn = true then (evalList (eval m ρ') es').bind fun vs => applyFn (eval m) f' vs else .panic) := by
  cases hf with
  | fn a b c =>
    simp only [a, b, if_true]
    refine CE.bind (S := fun vs m => applyFn (eval m) f' vs) (mono_list _ _) (fun _ => mono_apply _ _) (relL hes j hj n) fun i' hi' vs vs' hvs => ?_
    refine CE.tick fun i2 hi2 => ?_
    exact (FR_iff.1 c) i2 (by omega) vs vs' (Vs.mono (by omega) hvs) n
  | _ => exact CE.panic

/-- `(let x = v; f)(es)` against `let x = v; f(es)`. -/
theorem rel_call_let {x : Name} {v v' f f' : Expr} {es es' : List Expr} (hv : RelD s k ρ v ρ' v')
    (hf : ∀ j, j ≤ k → ∀ w w', V s j w w' → RelD s j ((x, w) :: ρ) f ((x, w') :: ρ') f')
    (hes : ∀ w', All2 (fun e e' => RelD s k ρ e ((x, w') :: ρ') e') es es') :
    RelD s k ρ (.call (.let_ x v f) es) ρ' (.let_ x v' (.call f' es')) := by
  intro j hj n
  rcases n with _ | _ | n
  · exact CE.timeout
  · simp only [evalC, CRes.bind_free_timeout]; exact CE.timeout
  · refine CE.succ ?_
    rw [evalC, evalC, CRes.bind_assoc]
    refine CE.bind (S := fun w m => eval m ((x, w) :: ρ') (.call f' es')) (mono_eval _ _) (fun _ => mono_eval _ _) (hv j hj n) fun i hi w w' hw => ?_
    refine CE.succ ?_
    refine CE.bind (S := fun fv m => if fv.isFn = true then (evalList (eval m _) es').bind fun vs => applyFn (eval m) fv vs else .panic)
      (mono_eval _ _) (fun v => mono_call _ _ _) (hf i (by omega) w w' hw i (Nat.le_refl _) n) fun i' hi' fv fv' hfv => ?_
    exact call_tail hfv (All2.imp (fun _ _ h => RelD.mono (show i' ≤ k by omega) h) (hes w')) (Nat.le_refl _) _

/-- `let x = v; f(es)` against `(let x = v; f)(es)`. -/
theorem rel_let_call {x : Name} {v v' f f' : Expr} {es es' : List Expr} (hv : RelD s k ρ v ρ' v')
    (hf : ∀ j, j ≤ k → ∀ w w', V s j w w' → RelD s j ((x, w) :: ρ) f ((x, w') :: ρ') f')
    (hes : ∀ w, All2 (fun e e' => RelD s k ((x, w) :: ρ) e ρ' e') es es') :
    RelD s k ρ (.let_ x v (.call f es)) ρ' (.call (.let_ x v' f') es') := by
  intro j hj n
  rcases n with _ | n
  · exact CE.timeout
  · refine CE.succ (CE.succ ?_)
    simp only [eval_call, eval_let, Res.bind_assoc]
    rw [evalC]
    refine CE.bind (S := fun w m => (eval m ((x, w) :: ρ') f').bind fun fv => if fv.isFn = true then
        (evalList (eval (m + 1) ρ') es').bind fun vs => applyFn (eval (m + 1)) fv vs else .panic)
      (mono_eval _ _) (fun _ => mono_bind (mono_eval _ _) fun fv => mono_shift (mono_call ρ' es' fv)) (hv j hj n) fun i hi w w' hw => ?_
    rcases n with _ | n
    · exact CE.timeout
    · rw [evalC]
      refine CE.bind (S := fun fv m => if fv.isFn = true then
          (evalList (eval (m + 1) ρ') es').bind fun vs => applyFn (eval (m + 1)) fv vs else .panic)
        (mono_eval _ _) (fun v => mono_shift (mono_call _ _ v)) (hf i (by omega) w w' hw i (Nat.le_refl _) n) fun i' hi' fv fv' hfv => ?_
      exact CE.shift (R := fun m => if fv'.isFn = true then (evalList (eval m ρ') es').bind fun vs => applyFn (eval m) fv' vs else .panic)
        (mono_call _ _ _) (call_tail hfv (All2.imp (fun _ _ h => RelD.mono (show i' ≤ k by omega) h) (hes w)) (Nat.le_refl _) _)

/-- `(\() -> b)()` against `b`. -/
theorem rel_beta0 {b b' : Expr} (h : RelD s k ρ b ρ' b') : RelD s k ρ (.call (.lam [] b) []) ρ' b' := by
  intro j hj n
  rcases n with _ | _ | n
  · exact CE.timeout
  · simp only [evalC, CRes.bind_free_timeout]; exact CE.timeout
  · rw [evalC, evalC, CRes.bind_free_ok]
    simp only [Val.isFn, if_true, evalListC, bodyC, List.map_nil, bindAll, CRes.bind_free_ok]
    exact CE.tick fun i hi => h i (by omega) (n + 1)

theorem rel_beta0' {b b' : Expr} (h : RelD s k ρ b ρ' b') : RelD s k ρ b ρ' (.call (.lam [] b') []) := by
  refine h.congr_right fun m => ⟨m + 2, ?_⟩
  simp only [eval_call, eval_lam, Res.bind_ok, Val.isFn, if_true, evalList, applyFn, List.map_nil, bindAll]
  by_cases ht : eval m ρ' b' = .timeout
  · exact .inl ht
  · exact .inr ((eval_le (by omega) _ _).eq ht)

/-- `(\(p, ps) -> b)(a, es)` against `let p = a; (\ps -> b)(es)`. -/
theorem rel_peel {p : Name} {t : Ty} {ps : List (Name × Ty)} {a a' b b' : Expr} {es es' : List Expr} (ha : RelD s k ρ a ρ' a')
    (hes : ∀ w', All2 (fun e e' => RelD s k ρ e ((p, w') :: ρ') e') es es')
    (hb : ∀ j, j ≤ k → ∀ w w', V s j w w' → ∀ ws ws', Vs s j ws ws' → ps.length = ws.length →
      RelD s j (bindAll ((p, w) :: ρ) (ps.map (·.1)) ws) b (bindAll ((p, w') :: ρ') (ps.map (·.1)) ws') b') :
    RelD s k ρ (.call (.lam ((p, t) :: ps) b) (a :: es)) ρ' (.let_ p a' (.call (.lam ps b') es')) := by
  intro j hj n
  rcases n with _ | _ | n
  · exact CE.timeout
  · simp only [evalC, CRes.bind_free_timeout]; exact CE.timeout
  · refine CE.succ ?_
    rw [evalC, evalC, CRes.bind_free_ok]
    simp only [Val.isFn, if_true, evalListC, CRes.bind_assoc]
    refine CE.bind (S := fun w m => eval m ((p, w) :: ρ') (.call (.lam ps b') es')) (mono_eval _ _) (fun _ => mono_eval _ _) (ha j hj _) fun i hi w w' hw => ?_
    refine CE.succ (CE.succ ?_)
    simp only [eval_call, eval_lam, Res.bind_ok, Val.isFn, if_true, CRes.bind_free_ok]
    refine CE.bind (S := fun vs m => applyFn (eval (m + 1)) _ vs) (mono_shift (mono_list _ _)) (fun _ => mono_shift (mono_apply _ _))
      (CE.shift (mono_list _ _) (relL (hes w') i (by omega) _)) fun i' hi' vs vs' hvs => ?_
    refine CE.tick fun i2 hi2 => ?_
    simp only [bodyC, applyFn, List.map_cons, List.length_cons, List.length_map, Nat.add_right_cancel_iff, bindAll]
    rw [← hvs.length]
    by_cases hl : ps.length = vs.length
    · simp only [hl, if_true]
      exact CE.shift (mono_eval _ _) (hb i2 (by omega) w w' (V.mono (by omega) hw) vs vs' (Vs.mono (by omega) hvs) hl i2 (Nat.le_refl _) _)
    · simp only [hl, if_false]
      exact CE.panic

/-- `let p = a; (\ps -> b)(es)` against `(\(p, ps) -> b)(a, es)`. -/
theorem rel_peel' {p : Name} {t : Ty} {ps : List (Name × Ty)} {a a' b b' : Expr} {es es' : List Expr} (ha : RelD s k ρ a ρ' a')
    (hes : ∀ w, All2 (fun e e' => RelD s k ((p, w) :: ρ) e ρ' e') es es')
    (hb : ∀ j, j ≤ k → ∀ w w', V s j w w' → ∀ ws ws', Vs s j ws ws' → ps.length = ws.length →
      RelD s j (bindAll ((p, w) :: ρ) (ps.map (·.1)) ws) b (bindAll ((p, w') :: ρ') (ps.map (·.1)) ws') b') :
    RelD s k ρ (.let_ p a (.call (.lam ps b) es)) ρ' (.call (.lam ((p, t) :: ps) b') (a' :: es')) := by
  intro j hj n
  rcases n with _ | n
  · exact CE.timeout
  · refine CE.succ (CE.succ ?_)
    simp only [eval_call, eval_lam, Res.bind_ok, Val.isFn, if_true, evalList, Res.bind_assoc]
    rw [evalC]
    refine CE.bind (S := fun w m => (evalList (eval (m + 1) ρ') es').bind fun vs => applyFn (eval (m + 1)) (.clo ρ' (((p, t) :: ps).map (·.1)) b') (w :: vs))
      (mono_shift (mono_eval _ _)) (fun _ => mono_shift (mono_bind (mono_list _ _) fun _ => mono_apply _ _)) (CE.shift (mono_eval _ _) (ha j hj _)) fun i hi w w' hw => ?_
    rcases n with _ | _ | n
    · exact CE.timeout
    · simp only [evalC, CRes.bind_free_timeout]; exact CE.timeout
    · rw [evalC, evalC, CRes.bind_free_ok]
      simp only [Val.isFn, if_true]
      refine CE.bind (S := fun vs m => applyFn (eval (m + 1)) (.clo ρ' (((p, t) :: ps).map (·.1)) b') (w' :: vs)) (mono_shift (mono_list _ _)) (fun _ => mono_shift (mono_apply _ _))
        (CE.shift (mono_list _ _) (relL (hes w) i (by omega) _)) fun i' hi' vs vs' hvs => ?_
      refine CE.tick fun i2 hi2 => ?_
      simp only [bodyC, applyFn, List.map_cons, List.length_cons, List.length_map, Nat.add_right_cancel_iff, bindAll]
      rw [← hvs.length]
      by_cases hl : ps.length = vs.length
      · simp only [hl, if_true]
        exact CE.shift (mono_eval _ _) (hb i2 (by omega) w w' (V.mono (by omega) hw) vs vs' (Vs.mono (by omega) hvs) hl i2 (Nat.le_refl _) _)
      · simp only [hl, if_false]
        exact CE.panic

/-! ### The same for all environments that agree on the names in scope -/

theorem all2_fund {es : List Expr} (h : ∀ e ∈ es, ∀ x, Free x e → LookRel s k ρ ρ' x) :
    All2 (fun e e' => RelD s k ρ e ρ' e') es es := All2.self fun e he => fund e (h e he)

theorem leD_call_let {x : Name} {v f : Expr} {es : List Expr} (hv : ∀ y, Free y v → y ∈ X) (hf : ∀ y, Free y f → y ∈ x :: X)
    (hes : ∀ e ∈ es, ∀ y, Free y e → y ∈ X) (hx : x ∉ X) : LeD d s X (.call (.let_ x v f) es) (.let_ x v (.call f es)) := by
  have hne : ∀ y ∈ X, y ≠ x := fun y hy h => hx (h ▸ hy)
  cases d
  · intro k ρ ρ' hρ
    refine rel_let_call (fund v fun y hy => hρ y (hv y hy)) (fun j hj w w' hw => fund f fun y hy => lookRel_cons hρ hj hw y (hf y hy)) fun w => ?_
    exact all2_fund fun e he y hy => (hρ y (hes e he y hy)).consL (hne y (hes e he y hy))
  · intro k ρ ρ' hρ
    refine rel_call_let (fund v fun y hy => hρ y (hv y hy)) (fun j hj w w' hw => fund f fun y hy => lookRel_cons hρ hj hw y (hf y hy)) fun w => ?_
    exact all2_fund fun e he y hy => (hρ y (hes e he y hy)).consR (hne y (hes e he y hy))

theorem leD_beta0 {b : Expr} (hb : ∀ y, Free y b → y ∈ X) : LeD d s X (.call (.lam [] b) []) b := by
  cases d
  · exact fun k ρ ρ' hρ => rel_beta0' (fund b fun y hy => hρ y (hb y hy))
  · exact fun k ρ ρ' hρ => rel_beta0 (fund b fun y hy => hρ y (hb y hy))

theorem leD_peel {p : Name} {t : Ty} {ps : List (Name × Ty)} {a b : Expr} {es : List Expr} (ha : ∀ y, Free y a → y ∈ X)
    (hes : ∀ e ∈ es, ∀ y, Free y e → y ∈ X) (hp : p ∉ X) (hb : ∀ y, Free y b → y ∈ ps.map (·.1) ++ p :: X) :
    LeD d s X (.call (.lam ((p, t) :: ps) b) (a :: es)) (.let_ p a (.call (.lam ps b) es)) := by
  have hne : ∀ y ∈ X, y ≠ p := fun y hy h => hp (h ▸ hy)
  cases d
  · intro k ρ ρ' hρ
    refine rel_peel' (fund a fun y hy => hρ y (ha y hy)) (fun w => ?_) fun j hj w w' hw ws ws' hws hl => fund b fun y hy => ?_
    · exact all2_fund fun e he y hy => (hρ y (hes e he y hy)).consL (hne y (hes e he y hy))
    · exact lookRel_append (lookRel_cons hρ hj hw) (Nat.le_refl _) hws (by simpa using hl) y (hb y hy)
  · intro k ρ ρ' hρ
    refine rel_peel (fund a fun y hy => hρ y (ha y hy)) (fun w => ?_) fun j hj w w' hw ws ws' hws hl => fund b fun y hy => ?_
    · exact all2_fund fun e he y hy => (hρ y (hes e he y hy)).consR (hne y (hes e he y hy))
    · exact lookRel_append (lookRel_cons hρ hj hw) (Nat.le_refl _) hws (by simpa using hl) y (hb y hy)

/-- Beta reduction into nested `let`s. -/
theorem leD_bindLets {b : Expr} : ∀ {ps : List (Name × Ty)} {es : List Expr} {X : List Name}, ps.length = es.length →
    (∀ e ∈ es, ∀ y, Free y e → y ∈ X) → (ps.map (·.1)).Nodup → (∀ p ∈ ps.map (·.1), p ∉ X) →
    (∀ y, Free y b → y ∈ ps.map (·.1) ++ X) →
    LeD d s X (.call (.lam ps b) es) (bindLets (ps.map (·.1)) es b)
  | [], [], X, _, _, _, _, hb => leD_beta0 (by simpa using hb)
  | (p, t) :: ps, a :: es, X, hl, hes, hnd, hp, hb => by
    simp only [List.map_cons, bindLets]
    simp only [List.map_cons, List.nodup_cons] at hnd
    have hb' : ∀ y, Free y b → y ∈ ps.map (·.1) ++ p :: X := fun y hy => by
      have := hb y hy; simp at this ⊢; grind
    refine LeD.trans (leD_peel (hes a (by simp)) (fun e he => hes e (by simp [he])) (hp p (by simp)) hb') ?_
    refine leD_let (LeD.refl (hes a (by simp))) (leD_bindLets (by simpa using hl)
      (fun e he y hy => List.mem_cons_of_mem _ (hes e (by simp [he]) y hy)) hnd.2 (fun q hq hqx => ?_) hb')
    rcases List.mem_cons.1 hqx with rfl | h
    · exact hnd.1 hq
    · exact hp q (by simp at hq ⊢; exact .inr hq) h

end Tic.Core
