import Verif.Logrel
/-
Helper: free variables, and the basic theorems about the logical relation --
every expression is related to itself, the relation is transitive, and
irrelevant bindings do not matter.
-/
namespace Tic.Core

mutual
/-- `x` occurs free in the expression. -/
def Free (x : Name) : Expr → Prop
  | .bool _ => False
  | .int _ => False
  | .str _ => False
  | .name y => x = y
  | .call f as => Free x f ∨ FreeL x as
  | .ite c t e => Free x c ∨ Free x t ∨ Free x e
  | .op a _ b => Free x a ∨ Free x b
  | .intr _ as => FreeL x as
  | .lam ps b => x ∉ ps.map (·.1) ∧ Free x b
  | .mtch e bs => Free x e ∨ FreeB x bs
  | .con _ _ as => FreeL x as
  | .let_ y v e => Free x v ∨ (x ≠ y ∧ Free x e)
  | .letrec y _ v e => x ≠ y ∧ (Free x v ∨ Free x e)
  | .pi _ e => Free x e
  | .piApp e _ => Free x e
  | .trap _ _ => False
/-- ... in a list of expressions. -/
def FreeL (x : Name) : List Expr → Prop
  | [] => False
  | e :: es => Free x e ∨ FreeL x es
/-- ... in a list of branches. -/
def FreeB (x : Name) : List Branch → Prop
  | [] => False
  | .mk _ ns e :: bs => (x ∉ ns ∧ Free x e) ∨ FreeB x bs
end

theorem FreeL_iff {x : Name} {es : List Expr} : FreeL x es ↔ ∃ e ∈ es, Free x e := by
  induction es with
  | nil => simp [FreeL]
  | cons e es ih => simp [FreeL, ih]

theorem FreeB_iff {x : Name} {bs : List Branch} : FreeB x bs ↔ ∃ b ∈ bs, x ∉ b.binds ∧ Free x b.body := by
  induction bs with
  | nil => simp [FreeB]
  | cons b bs ih => cases b; simp [FreeB, ih, Branch.binds, Branch.body]

theorem stripPis_free {x : Name} : ∀ {e : Expr}, Free x (stripPis e) ↔ Free x e
  | .pi _ e => by simp only [stripPis, Free]; exact stripPis_free
  | .bool _ | .int _ | .str _ | .name _ | .call _ _ | .ite _ _ _ | .op _ _ _ | .intr _ _ | .lam _ _ | .mtch _ _
  | .con _ _ _ | .let_ _ _ _ | .letrec _ _ _ _ | .piApp _ _ | .trap _ _ => by simp [stripPis]

theorem recLam_free {x : Name} {v : Expr} {ps : List Name} {b : Expr} (h : recLam v = some (ps, b)) :
    Free x v ↔ x ∉ ps ∧ Free x b := by
  rw [← stripPis_free]
  unfold recLam at h
  split at h
  · rename_i ps' b' heq
    cases h
    rw [heq]; simp [Free]
  · cases h

theorem stripPis_size : ∀ {e : Expr}, sizeOf (stripPis e) ≤ sizeOf e
  | .pi _ e => by
    have := stripPis_size (e := e)
    simp only [stripPis, Expr.pi.sizeOf_spec]; omega
  | .bool _ | .int _ | .str _ | .name _ | .call _ _ | .ite _ _ _ | .op _ _ _ | .intr _ _ | .lam _ _ | .mtch _ _
  | .con _ _ _ | .let_ _ _ _ | .letrec _ _ _ _ | .piApp _ _ | .trap _ _ => by simp [stripPis]

theorem recLam_size {v : Expr} {ps : List Name} {b : Expr} (h : recLam v = some (ps, b)) : sizeOf b < sizeOf v := by
  have hs := stripPis_size (e := v)
  unfold recLam at h
  split at h
  · rename_i ps' b' heq
    cases h
    rw [heq] at hs
    simp only [Expr.lam.sizeOf_spec] at hs; omega
  · cases h

theorem branch_size {b : Branch} {bs : List Branch} (h : b ∈ bs) : sizeOf b.body < sizeOf bs := by
  have := List.sizeOf_lt_of_mem h
  cases b
  simp only [Branch.mk.sizeOf_spec] at this
  simp only [Branch.body]; omega

/-- Strong induction on expressions. -/
theorem Expr.strong {P : Expr → Prop} (h : ∀ e, (∀ e', sizeOf e' < sizeOf e → P e') → P e) (e : Expr) : P e := by
  have : ∀ n, ∀ e : Expr, sizeOf e = n → P e := by
    intro n
    induction n using Nat.strongRecOn with
    | _ n ih =>
      intro e he
      exact h e fun e' h' => ih _ (he ▸ h') e' rfl
  exact this _ e rfl

/-- The two environments agree (up to `k` steps) on `x`. -/
def LookRel (s : Mode) (k : Nat) (ρ ρ' : Env) (x : Name) : Prop :=
  (lookup x ρ = .panic ∧ lookup x ρ' = .panic) ∨ ∃ v v', lookup x ρ = .ok v ∧ lookup x ρ' = .ok v' ∧ V s k v v'

variable {s : Mode} {k : Nat} {ρ ρ' : Env}

theorem LookRel.mono {j : Nat} (hj : j ≤ k) {x : Name} (h : LookRel s k ρ ρ' x) : LookRel s j ρ ρ' x := by
  rcases h with h | ⟨v, v', h1, h2, h3⟩
  · exact .inl h
  · exact .inr ⟨v, v', h1, h2, h3.mono hj⟩

theorem LookRel.cons {x y : Name} {v v' : Val} (hv : V s k v v') (h : x ≠ y → LookRel s k ρ ρ' x) :
    LookRel s k ((y, v) :: ρ) ((y, v') :: ρ') x := by
  by_cases hxy : x = y
  · subst hxy
    exact .inr ⟨v, v', by simp [lookup], by simp [lookup], hv⟩
  · rcases h hxy with ⟨h1, h2⟩ | ⟨w, w', h1, h2, h3⟩
    · exact .inl ⟨by simp [lookup, Ne.symm hxy, h1], by simp [lookup, Ne.symm hxy, h2]⟩
    · exact .inr ⟨w, w', by simp [lookup, Ne.symm hxy, h1], by simp [lookup, Ne.symm hxy, h2], h3⟩

theorem LookRel.bindAll {x : Name} {ps : List Name} : ∀ {vs vs' : List Val} {ρ ρ' : Env}, Vs s k vs vs' → ps.length = vs.length →
    (x ∉ ps → LookRel s k ρ ρ' x) → LookRel s k (bindAll ρ ps vs) (bindAll ρ' ps vs') x := by
  induction ps with
  | nil => intro vs vs' ρ ρ' hv hl h; exact h (by simp)
  | cons p ps ih =>
    intro vs vs' ρ ρ' hv hl h
    cases hv with
    | nil => simp at hl
    | cons h1 h2 =>
      simp only [Core.bindAll]
      refine ih h2 (by simpa using hl) fun hx => ?_
      exact LookRel.cons h1 fun hxp => h (by simp [hx, hxp])

theorem rel_name {x : Name} (h : LookRel s k ρ ρ' x) : RelD s k ρ (.name x) ρ' (.name x) := by
  refine rel_var fun j hj => CE.succ ?_
  rcases h with ⟨h1, h2⟩ | ⟨v, v', h1, h2, h3⟩
  · simp only [eval_name, h1, h2]; exact CE.panic
  · simp only [eval_name, h1, h2]; exact CE.ok (h3.mono hj)

/-- Every expression is related to itself, in environments that agree on its free variables. -/
theorem fund (e : Expr) : ∀ {k : Nat} {ρ ρ' : Env}, (∀ x, Free x e → LookRel s k ρ ρ' x) → RelD s k ρ e ρ' e := by
  induction e using Expr.strong with
  | _ e ih =>
    intro k ρ ρ' h
    have hL : ∀ es : List Expr, sizeOf es < sizeOf e → (∀ x, FreeL x es → Free x e) →
        All2 (fun e e' => RelD s k ρ e ρ' e') es es := by
      intro es hs hf
      refine All2.self fun a ha => ih a ?_ fun x hx => h x (hf x (FreeL_iff.2 ⟨a, ha, hx⟩))
      have := List.sizeOf_lt_of_mem ha; omega
    cases e with
    | bool b => exact rel_bool b
    | int b => exact rel_int b
    | str b => exact rel_str b
    | trap m t => exact rel_trap m t t
    | name x => exact rel_name (h x (by simp [Free]))
    | call f args =>
      refine rel_call (ih f (by simp only [Expr.call.sizeOf_spec]; omega) fun x hx => h x (by simp [Free, hx])) ?_
      exact hL args (by simp only [Expr.call.sizeOf_spec]; omega) fun x hx => by simp [Free, hx]
    | ite c t e =>
      exact rel_ite (ih c (by simp only [Expr.ite.sizeOf_spec]; omega) fun x hx => h x (by simp [Free, hx]))
        (ih t (by simp only [Expr.ite.sizeOf_spec]; omega) fun x hx => h x (by simp [Free, hx]))
        (ih e (by simp only [Expr.ite.sizeOf_spec]; omega) fun x hx => h x (by simp [Free, hx]))
    | op a o b =>
      exact rel_op (ih a (by simp only [Expr.op.sizeOf_spec]; omega) fun x hx => h x (by simp [Free, hx]))
        (ih b (by simp only [Expr.op.sizeOf_spec]; omega) fun x hx => h x (by simp [Free, hx]))
    | intr i xs => exact rel_intr (hL xs (by simp only [Expr.intr.sizeOf_spec]; omega) fun x hx => by simp [Free, hx])
    | con c t xs => exact rel_con (hL xs (by simp only [Expr.con.sizeOf_spec]; omega) fun x hx => by simp [Free, hx])
    | lam ps b =>
      refine rel_lam rfl fun j hj vs vs' hv hl => ?_
      refine ih b (by simp only [Expr.lam.sizeOf_spec]; omega) fun x hx => ?_
      refine LookRel.bindAll hv (by simpa using hl) fun hn => ?_
      exact (h x (by simp only [Free]; exact ⟨hn, hx⟩)).mono (by omega)
    | mtch e bs =>
      refine rel_mtch (ih e (by simp only [Expr.mtch.sizeOf_spec]; omega) fun x hx => h x (by simp [Free, hx])) ?_
      refine relBr_all2 (All2.self fun b hb => ⟨rfl, rfl, fun j hj fs fs' hfs hl => ?_⟩)
      refine ih b.body (by have := branch_size hb; simp only [Expr.mtch.sizeOf_spec]; omega) fun x hx => ?_
      refine LookRel.bindAll hfs hl fun hn => ?_
      exact (h x (by simp only [Free]; exact .inr (FreeB_iff.2 ⟨b, hb, hn, hx⟩))).mono hj
    | let_ y v e =>
      refine rel_let (ih v (by simp only [Expr.let_.sizeOf_spec]; omega) fun x hx => h x (by simp [Free, hx])) fun j hj w w' hw => ?_
      refine ih e (by simp only [Expr.let_.sizeOf_spec]; omega) fun x hx => ?_
      exact LookRel.cons hw fun hxy => (h x (by simp [Free, hx, hxy])).mono hj
    | letrec y t v e =>
      refine rel_letrec ?_
      cases hr : recLam v with
      | none => exact .inl ⟨rfl, rfl⟩
      | some p =>
        obtain ⟨ps, b⟩ := p
        have hV : ∀ j, j ≤ k → V s j (.rclo ρ y ps b) (.rclo ρ' y ps b) := by
          intro j hj
          refine FR_rclo rfl fun i hi hself vs vs' hvs hl => ?_
          refine ih b (by have := recLam_size hr; simp only [Expr.letrec.sizeOf_spec]; omega) fun x hx => ?_
          refine LookRel.cons hself fun hxy => LookRel.bindAll hvs hl fun hn => ?_
          exact (h x (by simp only [Free]; exact ⟨hxy, .inl ((recLam_free hr).2 ⟨hn, hx⟩)⟩)).mono (by omega)
        refine .inr ⟨ps, b, ps, b, rfl, rfl, hV, ?_⟩
        refine ih e (by simp only [Expr.letrec.sizeOf_spec]; omega) fun x hx => ?_
        exact LookRel.cons (hV k (Nat.le_refl _)) fun hxy => h x (by simp [Free, hx, hxy])
    | pi v e => exact rel_pi (ih e (by simp only [Expr.pi.sizeOf_spec]; omega) fun x hx => h x (by simp [Free, hx]))
    | piApp e t => exact rel_piApp (ih e (by simp only [Expr.piApp.sizeOf_spec]; omega) fun x hx => h x (by simp [Free, hx]))

theorem lookup_total (x : Name) (ρ : Env) : lookup x ρ = .panic ∨ ∃ v, lookup x ρ = .ok v ∧ (x, v) ∈ ρ := by
  induction ρ with
  | nil => exact .inl rfl
  | cons p ρ ih =>
    obtain ⟨y, w⟩ := p
    by_cases h : y = x
    · exact .inr ⟨w, by simp [lookup, h], by simp [h]⟩
    · rcases ih with h' | ⟨v, h1, h2⟩
      · exact .inl (by simp [lookup, h, h'])
      · exact .inr ⟨v, by simp [lookup, h, h1], by simp [h2]⟩

theorem VRs.self {F : Val → Val → Prop} : ∀ {vs : List Val}, (∀ v ∈ vs, VR F v v) → VRs F vs vs
  | [], _ => .nil
  | v :: _, h => .cons (h v (by simp)) (VRs.self fun w hw => h w (by simp [hw]))

/-- Every value is related to itself. -/
theorem V_refl (s : Mode) (v : Val) : ∀ k, V s k v v := by
  have : ∀ n, ∀ v : Val, sizeOf v = n → ∀ k, V s k v v := by
    intro n
    induction n using Nat.strongRecOn with
    | _ n ih =>
      intro v hv k
      subst hv
      have hlook : ∀ (ρ : Env), sizeOf ρ < sizeOf v → ∀ k x, LookRel s k ρ ρ x := by
        intro ρ hρ k x
        rcases lookup_total x ρ with h | ⟨w, h, hm⟩
        · exact .inl ⟨h, h⟩
        · refine .inr ⟨w, w, h, h, ih _ ?_ w rfl k⟩
          have := List.sizeOf_lt_of_mem hm
          simp only [Prod.mk.sizeOf_spec] at this; omega
      cases v with
      | int x => exact .int x
      | bool x => exact .bool x
      | str x => exact .str x
      | comp t fs =>
        refine .comp t (VRs.self fun v hv => ih _ ?_ v rfl k)
        have := List.sizeOf_lt_of_mem hv
        simp only [Val.comp.sizeOf_spec]; omega
      | clo ρ ps b =>
        refine .fn rfl rfl ?_
        rw [FR_iff]
        intro i hi vs vs' hvs m
        simp only [bodyC, applyFn]
        rw [← hvs.length]
        by_cases hc : ps.length = vs.length
        · simp only [hc, if_true]
          refine fund b (k := i) (fun x _ => LookRel.bindAll hvs hc fun _ => ?_) i (Nat.le_refl _) m
          exact hlook ρ (by simp only [Val.clo.sizeOf_spec]; omega) i x
        · simp only [hc, if_false]
          exact CE.panic
      | rclo ρ f ps b =>
        refine FR_rclo rfl fun i hi hself vs vs' hvs hl => fund b fun x _ => ?_
        refine LookRel.cons hself fun _ => LookRel.bindAll hvs hl fun _ => ?_
        exact hlook ρ (by simp only [Val.rclo.sizeOf_spec]; omega) i x
  exact this _ v rfl

theorem LookRel.refl (s : Mode) (k : Nat) (ρ : Env) (x : Name) : LookRel s k ρ ρ x := by
  rcases lookup_total x ρ with h | ⟨w, h, hm⟩
  · exact .inl ⟨h, h⟩
  · exact .inr ⟨w, w, h, h, V_refl s w k⟩

mutual
theorem VR_trans {F G : Val → Val → Prop} {H : Nat → Val → Val → Prop}
    (hF : ∀ f f' f'', F f f' → (∀ j, H j f' f'') → G f f'') :
    ∀ {v v' v'' : Val}, VR F v v' → (∀ j, VR (H j) v' v'') → VR G v v''
  | _, _, v'', .int x, h => by
    have h0 := h 0
    cases h0 with
    | int x => exact .int x
    | fn a b c => simp [Val.isFn] at a
  | _, _, v'', .bool x, h => by
    have h0 := h 0
    cases h0 with
    | bool x => exact .bool x
    | fn a b c => simp [Val.isFn] at a
  | _, _, v'', .str x, h => by
    have h0 := h 0
    cases h0 with
    | str x => exact .str x
    | fn a b c => simp [Val.isFn] at a
  | _, _, v'', .comp t hs, h => by
    have h0 := h 0
    cases h0 with
    | comp t h0 =>
      refine .comp t (VRs_trans hF hs fun j => ?_)
      have hj := h j
      cases hj with
      | comp _ hj => exact hj
      | fn a b c => simp [Val.isFn] at a
    | fn a b c => simp [Val.isFn] at a
  | f, f', v'', .fn a b c, h => by
    have key : ∀ j, v''.isFn = true ∧ H j f' v'' := by
      intro j
      have h0 := h j
      cases h0 with
      | fn a' b' c' => exact ⟨b', c'⟩
      | _ => simp [Val.isFn] at b
    exact .fn a (key 0).1 (hF _ _ _ c fun j => (key j).2)
theorem VRs_trans {F G : Val → Val → Prop} {H : Nat → Val → Val → Prop}
    (hF : ∀ f f' f'', F f f' → (∀ j, H j f' f'') → G f f'') :
    ∀ {v v' v'' : List Val}, VRs F v v' → (∀ j, VRs (H j) v' v'') → VRs G v v''
  | _, _, v'', .nil, h => by
    have h0 := h 0
    cases h0; exact .nil
  | _, _, v'', .cons h1 h2, h => by
    have h0 := h 0
    cases h0 with
    | cons a b =>
      refine .cons (VR_trans hF h1 fun j => ?_) (VRs_trans hF h2 fun j => ?_)
      · have hj := h j
        cases hj with
        | cons a b => exact a
      · have hj := h j
        cases hj with
        | cons a b => exact b
end

/-- Composing matched computations. -/
theorem CE.trans {k : Nat} {l : CRes Val} {R : Nat → Res Val} {L' : Nat → CRes Val} {R' : Nat → Res Val}
    (hRL : ∀ m, (L' m).2 = R m) (hR' : Mono R')
    (hV : ∀ j, j ≤ k → ∀ v v' v'', V s j v v' → (∀ i, V s i v' v'') → V s j v v'')
    (h1 : CE s (V s) k l R) (h2 : ∀ j m, CE s (V s) j (L' m) R') : CE s (V s) k l R' := by
  obtain ⟨c, r⟩ := l
  intro hc ht
  obtain ⟨m, hm⟩ := h1 hc ht
  cases r with
  | ok u =>
    obtain ⟨u', hu', hv⟩ := hm
    have hL : (L' m).2 = .ok u' := by rw [hRL, hu']
    have hall : ∀ i, ∃ mm u'', R' mm = .ok u'' ∧ V s i u' u'' := by
      intro i
      obtain ⟨mm, ho⟩ := h2 (i + (L' m).1) m (by omega) (by rw [hL]; simp)
      rw [hL] at ho
      obtain ⟨u'', a, b⟩ := ho
      exact ⟨mm, u'', a, by rwa [Nat.add_sub_cancel] at b⟩
    obtain ⟨mm, u'', a, b⟩ := hall 0
    refine ⟨mm, u'', a, hV _ (Nat.sub_le _ _) u u' u'' hv fun i => ?_⟩
    obtain ⟨mi, ui, ai, bi⟩ := hall i
    have : ui = u'' := by
      have e1 := (hR' mm (max mm mi) (by omega)).eq (by rw [a]; simp)
      have e2 := (hR' mi (max mm mi) (by omega)).eq (by rw [ai]; simp)
      rw [a] at e1; rw [ai] at e2; rw [e1] at e2
      simpa using e2.symm
    rw [← this]; exact bi
  | trap msg =>
    by_cases hs : s.trap = true
    · have hL : (L' m).2 = .trap msg := by rw [hRL]; exact hm hs
      obtain ⟨mm, ho⟩ := h2 (L' m).1 m (Nat.le_refl _) (by rw [hL]; simp)
      rw [hL] at ho
      exact ⟨mm, ho⟩
    · exact ⟨0, fun h => absurd h hs⟩
  | panic =>
    by_cases hs : s.panic = true
    · have hL : (L' m).2 = .panic := by rw [hRL]; exact hm hs
      obtain ⟨mm, ho⟩ := h2 (L' m).1 m (Nat.le_refl _) (by rw [hL]; simp)
      rw [hL] at ho
      exact ⟨mm, ho⟩
    · exact ⟨0, fun h => absurd h hs⟩
  | timeout => exact absurd rfl ht

theorem FR_trans : ∀ (k : Nat) (f f' f'' : Val), FR s k f f' → (∀ j, FR s j f' f'') → FR s k f f'' := by
  intro k
  induction k using Nat.strongRecOn with
  | _ k ih =>
    intro f f' f'' h h'
    rw [FR_iff] at h ⊢
    intro j hj args args'' hargs n
    refine CE.trans (L' := fun m => bodyC (evalC m) f' args'') (fun m => bodyC_snd (evalC_eval m) _ _) (mono_apply _ _)
      (fun i hi v v' v'' hv hv' => VR_trans (ih i (by omega)) hv hv') (h j hj args args'' hargs n) fun i m => ?_
    exact FR_iff.1 (h' (i + 1)) i (by omega) args'' args'' (VRs.self fun v _ => V_refl s v i) m

theorem V_trans {v v' v'' : Val} (h : V s k v v') (h' : ∀ j, V s j v' v'') : V s k v v'' :=
  VR_trans (FR_trans k) h h'

theorem RelD.trans {e e' e'' : Expr} {ρ'' : Env} (h : RelD s k ρ e ρ' e') (h' : ∀ j, RelD s j ρ' e' ρ'' e'') :
    RelD s k ρ e ρ'' e'' := by
  intro j hj n
  exact CE.trans (L' := fun m => evalC m ρ' e') (fun m => evalC_eval m _ _) (mono_eval _ _)
    (fun i _ v v' v'' hv hv' => V_trans hv hv') (h j hj n) fun i m => h' i i (Nat.le_refl _) m

/-- Bindings of variables that do not occur are irrelevant. -/
theorem RelD.weaken {e e' : Expr} {ρ'' : Env} (h : RelD s k ρ e ρ' e')
    (hx : ∀ x, Free x e' → lookup x ρ'' = lookup x ρ') : RelD s k ρ e ρ'' e' := by
  refine h.trans fun j => fund e' fun x hf => ?_
  have := LookRel.refl s j ρ' x
  unfold LookRel at this ⊢
  rw [hx x hf]; exact this

/-- Adequacy: a value produced on the left is produced, up to closures, on the right. -/
theorem RelD.adequate {e e' : Expr} (h : ∀ k, RelD s k ρ e ρ' e') {n : Nat} {v : Val} (hv : eval n ρ e = .ok v) :
    ∃ m v', eval m ρ' e' = .ok v' ∧ v.obs = v'.obs := by
  have h2 : (evalC n ρ e).2 = .ok v := by rw [evalC_eval]; exact hv
  obtain ⟨m, ho⟩ := h (evalC n ρ e).1 _ (Nat.le_refl _) n (Nat.le_refl _) (by rw [h2]; simp)
  rw [h2] at ho
  obtain ⟨v', a, b⟩ := ho
  exact ⟨m, v', a, b.obs⟩

end Tic.Core
