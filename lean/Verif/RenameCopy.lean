import Verif.Rename
/-
Helper: `create_copy` renames binders to fresh names.
-/
namespace Tic.Core

mutual
theorem Ren.binders {σ : Name → Name} : ∀ {e e' : Expr}, Ren σ e e' → binders e' = (binders e).map σ
  | _, _, .bool b | _, _, .int b | _, _, .str b | _, _, .name x | _, _, .trap _ _ _ => rfl
  | _, _, .call h hs => by simp only [Core.binders, List.map_append, h.binders, hs.binders]
  | _, _, .ite a b c => by simp only [Core.binders, List.map_append, a.binders, b.binders, c.binders]
  | _, _, .op _ a b => by simp only [Core.binders, List.map_append, a.binders, b.binders]
  | _, _, .intr _ hs => by simp only [Core.binders, hs.binders]
  | _, _, .con _ _ _ hs => by simp only [Core.binders, hs.binders]
  | _, _, .lam hp hb => by simp only [Core.binders, List.map_append, hp, hb.binders]
  | _, _, .mtch h hs => by simp only [Core.binders, List.map_append, h.binders, hs.binders]
  | _, _, .let_ _ a b => by simp only [Core.binders, List.map_append, List.map_cons, a.binders, b.binders]
  | _, _, .letrec _ _ _ a b => by simp only [Core.binders, List.map_append, List.map_cons, a.binders, b.binders]
  | _, _, .pi _ _ a => by simp only [Core.binders, a.binders]
  | _, _, .piApp _ _ a => by simp only [Core.binders, a.binders]
theorem RenL.binders {σ : Name → Name} : ∀ {e e' : List Expr}, RenL σ e e' → bindersL e' = (bindersL e).map σ
  | _, _, .nil => rfl
  | _, _, .cons h hs => by simp only [bindersL, List.map_append, h.binders, hs.binders]
theorem RenB.binders {σ : Name → Name} : ∀ {e e' : List Branch}, RenB σ e e' → bindersB e' = (bindersB e).map σ
  | _, _, .nil => rfl
  | _, _, .cons _ _ h hs => by simp only [bindersB, List.map_append, h.binders, hs.binders]
end

/-- Children of renamed expressions. -/
theorem Ren.children {σ : Name → Name} {e e' : Expr} (h : Ren σ e e') :
    All2 (fun c c' => c'.1 = c.1.map σ ∧ Ren σ c.2 c'.2) (children e) (children e') := by
  have hL : ∀ {es es' : List Expr}, RenL σ es es' →
      All2 (fun c c' : List Name × Expr => c'.1 = c.1.map σ ∧ Ren σ c.2 c'.2) (es.map fun x => ([], x)) (es'.map fun x => ([], x)) := by
    intro es es' h
    exact All2.of_map (h.all2.imp fun a b h => ⟨rfl, h⟩)
  cases h with
  | bool | int | str | name | trap => exact trivial
  | call h hs => exact ⟨⟨rfl, h⟩, hL hs⟩
  | ite a b c => exact ⟨⟨rfl, a⟩, ⟨rfl, b⟩, ⟨rfl, c⟩, trivial⟩
  | op _ a b => exact ⟨⟨rfl, a⟩, ⟨rfl, b⟩, trivial⟩
  | intr _ hs => exact hL hs
  | con _ _ _ hs => exact hL hs
  | lam hp hb => exact ⟨⟨hp, hb⟩, trivial⟩
  | mtch h hs => exact ⟨⟨rfl, h⟩, All2.of_map (hs.all2.imp fun a b h => ⟨h.2.1, h.2.2⟩)⟩
  | let_ _ a b => exact ⟨⟨rfl, a⟩, ⟨rfl, b⟩, trivial⟩
  | letrec _ _ _ a b => exact ⟨⟨rfl, a⟩, ⟨rfl, b⟩, trivial⟩
  | pi _ _ a => exact ⟨⟨rfl, a⟩, trivial⟩
  | piApp _ _ a => exact ⟨⟨rfl, a⟩, trivial⟩

theorem Ren.free {σ : Name → Name} (e : Expr) : ∀ {e' : Expr}, Ren σ e e' → ∀ {y : Name}, Free y e' → ∃ x, Free x e ∧ y = σ x := by
  induction e using Expr.childInd with
  | _ e ih =>
    intro e' h y hy
    rcases free_iff.1 hy with he | ⟨c', hc', hm, hf⟩
    · cases h <;> cases he
      exact ⟨_, by simp [Free], rfl⟩
    · obtain ⟨c, hc, h1, h2⟩ := h.children.right c' hc'
      obtain ⟨x, hx, rfl⟩ := ih c hc h2 hf
      exact ⟨x, free_iff.2 (.inr ⟨c, hc, fun hxc => hm (by rw [h1]; exact List.mem_map_of_mem hxc), hx⟩), rfl⟩

theorem Ren.wellShaped {σ : Name → Name} (e : Expr) : ∀ {e' : Expr}, Ren σ e e' → WellShaped e → WellShaped e' := by
  induction e using Expr.childInd with
  | _ e ih =>
    intro e' h hw
    rw [wellShaped_iff] at hw ⊢
    refine ⟨?_, fun c' hc' => ?_⟩
    · have h1 := hw.1
      cases h <;> try exact trivial
      case mtch hs =>
        simp only [NodeOK] at h1 ⊢
        rw [← All2.map_eq (fun a b h => h.1) hs.all2]; exact h1
      case letrec hv _ =>
        simp only [NodeOK] at h1 ⊢
        rcases hv.recLam with ⟨h2, -⟩ | ⟨_, _, _, -, h3, -⟩
        · rw [h2] at h1; cases h1
        · rw [h3]; rfl
    · obtain ⟨c, hc, -, h2⟩ := h.children.right c' hc'
      exact ih c hc h2 (hw.2 c hc)

/-- The current renaming. -/
abbrev Cp.r (c : Cp) (x : Name) : Nat := getR c.ren x

theorem Cp.name_r (c : Cp) (n x : Name) : (c.name n).2.r x = if x = n then c.next else c.r x := by
  unfold Cp.r Cp.name getR
  by_cases h : x = n
  · subst h; simp
  · have : (n == x) = false := by simp [Ne.symm h]
    simp [List.find?_cons, this, h]

mutual
theorem copyTy_same : ∀ (t : Ty) (c : Cp), (copyTy t c).2.next = c.next ∧ (copyTy t c).2.ren = c.ren
  | .bool, c | .int, c | .string, c | .var _, c => ⟨rfl, rfl⟩
  | .named n ts, c => copyTys_same ts c
  | .fn ts t, c => by
    have h1 := copyTys_same ts c
    have h2 := copyTy_same t (copyTys ts c).2
    simp only [copyTy]
    exact ⟨h2.1.trans h1.1, h2.2.trans h1.2⟩
  | .abs v t, c => by
    have h2 := copyTy_same t (c.tyVar v).2
    simp only [copyTy]
    exact h2
theorem copyTys_same : ∀ (t : List Ty) (c : Cp), (copyTys t c).2.next = c.next ∧ (copyTys t c).2.ren = c.ren
  | [], c => ⟨rfl, rfl⟩
  | t :: ts, c => by
    have h1 := copyTy_same t c
    have h2 := copyTys_same ts (copyTy t c).2
    simp only [copyTys]
    exact ⟨h2.1.trans h1.1, h2.2.trans h1.2⟩
end

/-- Between `c` and `c'` exactly the names `bs` were given fresh copies. -/
structure CpOK (bs : List Name) (c c' : Cp) : Prop where
  le : c.next ≤ c'.next
  other : ∀ y, y ∉ bs → c'.r y = c.r y
  fresh : ∀ y ∈ bs, c.next ≤ c'.r y ∧ c'.r y < c'.next
  inj : ∀ x ∈ bs, ∀ y ∈ bs, c'.r x = c'.r y → x = y

theorem CpOK.refl {c c' : Cp} (h : c'.next = c.next) (h2 : c'.ren = c.ren) : CpOK [] c c' :=
  ⟨by omega, fun y _ => by unfold Cp.r; rw [h2], (fun _ h => nomatch h), (fun _ h => nomatch h)⟩

theorem CpOK.ty {bs : List Name} {c c' c'' : Cp} (h : CpOK bs c c') (h1 : c''.next = c'.next) (h2 : c''.ren = c'.ren) : CpOK bs c c'' := by
  have : ∀ y, c''.r y = c'.r y := fun y => by unfold Cp.r; rw [h2]
  refine ⟨by have := h.le; omega, fun y hy => by rw [this, h.other y hy], fun y hy => by rw [this, h1]; exact h.fresh y hy, fun x hx y hy he => ?_⟩
  rw [this, this] at he
  exact h.inj x hx y hy he

theorem CpOK.trans {bs bs' : List Name} {c c' c'' : Cp} (h : CpOK bs c c') (h' : CpOK bs' c' c'') (hd : ∀ y ∈ bs, y ∉ bs') :
    CpOK (bs ++ bs') c c'' := by
  refine ⟨Nat.le_trans h.le h'.le, fun y hy => ?_, fun y hy => ?_, fun x hx y hy he => ?_⟩
  · rw [List.mem_append, not_or] at hy
    rw [h'.other y hy.2, h.other y hy.1]
  · rcases List.mem_append.1 hy with h1 | h1
    · rw [h'.other y (hd y h1)]
      have := h.fresh y h1; have := h'.le; omega
    · have := h'.fresh y h1; have := h.le; omega
  · rcases List.mem_append.1 hx with h1 | h1 <;> rcases List.mem_append.1 hy with h2 | h2
    · rw [h'.other x (hd x h1), h'.other y (hd y h2)] at he
      exact h.inj x h1 y h2 he
    · rw [h'.other x (hd x h1)] at he
      have := h.fresh x h1; have := h'.fresh y h2; omega
    · rw [h'.other y (hd y h2)] at he
      have := h.fresh y h2; have := h'.fresh x h1; omega
    · exact h'.inj x h1 y h2 he

theorem CpOK.name (c : Cp) (n : Name) : CpOK [n] c (c.name n).2 := by
  refine ⟨Nat.le_succ _, fun y hy => ?_, fun y hy => ?_, fun x hx y hy _ => ?_⟩
  · rw [Cp.name_r, if_neg (by simpa using hy)]
  · have : y = n := by simpa using hy
    rw [Cp.name_r, if_pos this]; exact ⟨Nat.le_refl _, Nat.lt_succ_self _⟩
  · rw [List.mem_singleton.1 hx, List.mem_singleton.1 hy]

theorem copyParams_ok : ∀ (ps : List (Name × Ty)) (c : Cp), (ps.map (·.1)).Nodup →
    CpOK (ps.map (·.1)) c (copyParams ps c).2 ∧ (copyParams ps c).1.map (·.1) = (ps.map (·.1)).map (copyParams ps c).2.r
  | [], c, _ => ⟨.refl rfl rfl, rfl⟩
  | (n, t) :: ps, c, h => by
    simp only [List.map_cons, List.nodup_cons] at h
    have ht := copyTy_same t (c.name n).2
    have h1 := (CpOK.name c n).ty ht.1 ht.2
    obtain ⟨h2, h3⟩ := copyParams_ok ps (copyTy t (c.name n).2).2 h.2
    have h4 := h1.trans h2 (by simpa using h.1)
    refine ⟨h4, ?_⟩
    simp only [copyParams, List.map_cons]
    rw [h3]
    congr 1
    rw [h2.other n h.1]
    show (c.name n).1 = (copyTy t (c.name n).2).2.r n
    unfold Cp.r
    rw [ht.2]
    have := Cp.name_r c n n
    rw [if_pos rfl] at this
    exact this.symm

theorem copyNames_ok : ∀ (ns : List Name) (c : Cp), ns.Nodup →
    CpOK ns c (copyNames ns c).2 ∧ (copyNames ns c).1 = ns.map (copyNames ns c).2.r
  | [], c, _ => ⟨.refl rfl rfl, rfl⟩
  | n :: ns, c, h => by
    rw [List.nodup_cons] at h
    have h1 := CpOK.name c n
    obtain ⟨h2, h3⟩ := copyNames_ok ns (c.name n).2 h.2
    refine ⟨h1.trans h2 (by simpa using h.1), ?_⟩
    simp only [copyNames, List.map_cons]
    rw [h3]
    congr 1
    rw [h2.other n h.1]
    have := Cp.name_r c n n
    rw [if_pos rfl] at this
    exact this.symm

/-- Disjoint. -/
abbrev Disj (a b : List Name) : Prop := ∀ y ∈ a, y ∉ b

theorem nodup_app {a b : List Name} : (a ++ b).Nodup ↔ a.Nodup ∧ b.Nodup ∧ Disj a b := by
  rw [List.nodup_append]
  refine ⟨fun ⟨h1, h2, h3⟩ => ⟨h1, h2, fun y hy hy' => h3 y hy y hy' rfl⟩, fun ⟨h1, h2, h3⟩ => ⟨h1, h2, fun y hy z hz he => h3 y hy (he ▸ hz)⟩⟩

mutual
theorem copyE_ok : ∀ (e : Expr) (c : Cp), (binders e).Nodup → CpOK (binders e) c (copyE e c).2
  | .bool _, c, _ | .int _, c, _ | .str _, c, _ | .name _, c, _ => .refl rfl rfl
  | .trap m t, c, _ => .refl (copyTy_same t c).1 (copyTy_same t c).2
  | .call f xs, c, h => by
    obtain ⟨h1, h2, h3⟩ := nodup_app.1 h
    exact (copyE_ok f c h1).trans (copyL_ok xs _ h2) h3
  | .ite a b d, c, h => by
    simp only [binders] at h ⊢
    obtain ⟨h1, h2, h3⟩ := nodup_app.1 h
    obtain ⟨h4, h5, h6⟩ := nodup_app.1 h1
    exact ((copyE_ok a c h4).trans (copyE_ok b _ h5) h6).trans (copyE_ok d _ h2) h3
  | .op a _ b, c, h => by
    obtain ⟨h1, h2, h3⟩ := nodup_app.1 h
    exact (copyE_ok a c h1).trans (copyE_ok b _ h2) h3
  | .intr _ xs, c, h => copyL_ok xs c h
  | .lam ps b, c, h => by
    obtain ⟨h1, h2, h3⟩ := nodup_app.1 h
    exact (copyParams_ok ps c h1).1.trans (copyE_ok b _ h2) h3
  | .mtch e bs, c, h => by
    obtain ⟨h1, h2, h3⟩ := nodup_app.1 h
    exact (copyE_ok e c h1).trans (copyB_ok bs _ h2) h3
  | .con _ ts xs, c, h => (copyL_ok xs c h).ty (copyTys_same ts _).1 (copyTys_same ts _).2
  | .let_ n v e, c, h => by
    simp only [binders] at h ⊢
    rw [List.nodup_cons] at h
    obtain ⟨h1, h2, h3⟩ := nodup_app.1 h.2
    exact (CpOK.name c n).trans ((copyE_ok v _ h1).trans (copyE_ok e _ h2) h3) (by simpa using h.1)
  | .letrec n t v e, c, h => by
    simp only [binders] at h ⊢
    rw [List.nodup_cons] at h
    obtain ⟨h1, h2, h3⟩ := nodup_app.1 h.2
    have ht := copyTy_same t (c.name n).2
    exact ((CpOK.name c n).ty ht.1 ht.2).trans ((copyE_ok v _ h1).trans (copyE_ok e _ h2) h3) (by simpa using h.1)
  | .pi v e, c, h => by
    have h1 := copyE_ok e (c.tyVar v).2 h
    exact ⟨h1.le, h1.other, h1.fresh, h1.inj⟩
  | .piApp e t, c, h => (copyE_ok e c h).ty (copyTy_same t _).1 (copyTy_same t _).2
theorem copyL_ok : ∀ (e : List Expr) (c : Cp), (bindersL e).Nodup → CpOK (bindersL e) c (copyL e c).2
  | [], c, _ => .refl rfl rfl
  | e :: es, c, h => by
    obtain ⟨h1, h2, h3⟩ := nodup_app.1 h
    exact (copyE_ok e c h1).trans (copyL_ok es _ h2) h3
theorem copyB_ok : ∀ (e : List Branch) (c : Cp), (bindersB e).Nodup → CpOK (bindersB e) c (copyB e c).2
  | [], c, _ => .refl rfl rfl
  | .mk n xs e :: bs, c, h => by
    simp only [bindersB] at h ⊢
    obtain ⟨h1, h2, h3⟩ := nodup_app.1 h
    obtain ⟨h4, h5, h6⟩ := nodup_app.1 h1
    exact ((copyNames_ok xs c h4).1.trans (copyE_ok e _ h5) h6).trans (copyB_ok bs _ h2) h3
end

/-- `σ` is the renaming `c` on the names satisfying `P`. -/
abbrev Agree (σ : Name → Name) (c : Cp) (P : Name → Prop) : Prop := ∀ y, P y → σ y = c.r y

theorem Agree.back {σ : Name → Name} {c c' : Cp} {P Q : Name → Prop} {bs : List Name} (h : Agree σ c' P) (hc : CpOK bs c c')
    (hq : ∀ y, Q y → P y) (hd : ∀ y, Q y → y ∉ bs) : Agree σ c Q := fun y hy => by rw [h y (hq y hy), hc.other y (hd y hy)]

theorem Agree.sub {σ : Name → Name} {c : Cp} {P Q : Name → Prop} (h : Agree σ c P)
    (hq : ∀ y, Q y → P y) : Agree σ c Q := fun y hy => h y (hq y hy)

/-- The names of a list of expressions. -/
def OccL (y : Name) (es : List Expr) : Prop := FreeL y es ∨ y ∈ bindersL es
/-- The names of branches. -/
def OccB (y : Name) (bs : List Branch) : Prop := FreeB y bs ∨ y ∈ bindersB bs

mutual
/-- The copy is the expression, renamed. -/
theorem copyE_ren : ∀ (e : Expr) (c : Cp), (binders e).Nodup → (∀ y, Free y e → y ∉ binders e) → ∀ σ, Agree σ (copyE e c).2 (Occ · e) → Ren σ e (copyE e c).1
  | .bool _, c, _, _, σ, _ => .bool _
  | .int _, c, _, _, σ, _ => .int _
  | .str _, c, _, _, σ, _ => .str _
  | .name x, c, _, _, σ, h => by
    have := h x (.inl (by simp [Free]))
    simp only [copyE] at this ⊢
    rw [← show σ x = getR c.ren x from this]
    exact .name x
  | .trap m t, c, _, _, σ, _ => .trap m t _
  | .call f xs, c, h, hf, σ, hσ => by
    obtain ⟨h1, h2, h3⟩ := nodup_app.1 h
    simp only [Free, binders, List.mem_append, not_or] at hf
    have hok := copyL_ok xs (copyE f c).2 h2
    refine .call (copyE_ren f c h1 (fun y hy => (hf y (.inl hy)).1) σ (hσ.back hok ?_ ?_))
      (copyL_ren xs _ h2 (fun y hy => (hf y (.inr hy)).2) σ (hσ.sub ?_))
    · rintro y (hy | hy)
      · exact .inl (.inl hy)
      · exact .inr (List.mem_append_left _ hy)
    · rintro y (hy | hy)
      · exact (hf y (.inl hy)).2
      · exact h3 y hy
    · rintro y (hy | hy)
      · exact .inl (.inr hy)
      · exact .inr (List.mem_append_right _ hy)
  | .ite a b d, c, h, hf, σ, hσ => by
    simp only [binders] at h
    obtain ⟨h1, h2, h3⟩ := nodup_app.1 h
    obtain ⟨h4, h5, h6⟩ := nodup_app.1 h1
    simp only [Free, binders, List.mem_append, not_or] at hf
    have hok1 := copyE_ok b (copyE a c).2 h5
    have hok2 := copyE_ok d (copyE b (copyE a c).2).2 h2
    have hok := hok1.trans hok2 fun y hy => h3 y (by simp [hy])
    refine .ite (copyE_ren a c h4 (fun y hy => (hf y (.inl hy)).1.1) σ (hσ.back hok ?_ ?_))
      (copyE_ren b _ h5 (fun y hy => (hf y (.inr (.inl hy))).1.2) σ (hσ.back hok2 ?_ ?_))
      (copyE_ren d _ h2 (fun y hy => (hf y (.inr (.inr hy))).2) σ (hσ.sub ?_))
    · rintro y (hy | hy)
      · exact .inl (.inl hy)
      · exact .inr (by simp [binders, hy])
    · rintro y (hy | hy)
      · have := hf y (.inl hy); simp [this.1.2, this.2]
      · have := h6 y hy; have := h3 y (by simp [hy]); simp [*]
    · rintro y (hy | hy)
      · exact .inl (.inr (.inl hy))
      · exact .inr (by simp [binders, hy])
    · rintro y (hy | hy)
      · exact (hf y (.inr (.inl hy))).2
      · exact h3 y (by simp [hy])
    · rintro y (hy | hy)
      · exact .inl (.inr (.inr hy))
      · exact .inr (by simp [binders, hy])
  | .op a o b, c, h, hf, σ, hσ => by
    obtain ⟨h1, h2, h3⟩ := nodup_app.1 h
    simp only [Free, binders, List.mem_append, not_or] at hf
    have hok := copyE_ok b (copyE a c).2 h2
    refine .op o (copyE_ren a c h1 (fun y hy => (hf y (.inl hy)).1) σ (hσ.back hok ?_ ?_))
      (copyE_ren b _ h2 (fun y hy => (hf y (.inr hy)).2) σ (hσ.sub ?_))
    · rintro y (hy | hy)
      · exact .inl (.inl hy)
      · exact .inr (List.mem_append_left _ hy)
    · rintro y (hy | hy)
      · exact (hf y (.inl hy)).2
      · exact h3 y hy
    · rintro y (hy | hy)
      · exact .inl (.inr hy)
      · exact .inr (List.mem_append_right _ hy)
  | .intr i xs, c, h, hf, σ, hσ => .intr i (copyL_ren xs c h hf σ hσ)
  | .con n ts xs, c, h, hf, σ, hσ => by
    refine .con n ts _ (copyL_ren xs c h hf σ fun y hy => ?_)
    rw [hσ y hy]
    simp only [copyE, Cp.r]
    rw [(copyTys_same ts _).2]
  | .lam ps b, c, h, hf, σ, hσ => by
    obtain ⟨h1, h2, h3⟩ := nodup_app.1 h
    obtain ⟨hp1, hp2⟩ := copyParams_ok ps c h1
    have hok := copyE_ok b (copyParams ps c).2 h2
    simp only [Free, binders, List.mem_append, not_or] at hf
    refine .lam ?_ (copyE_ren b _ h2 (fun y hy => ?_) σ (hσ.sub ?_))
    · rw [hp2]
      refine List.map_congr_left fun y hy => ?_
      rw [← hok.other y (h3 y hy)]
      exact (hσ y (.inr (List.mem_append_left _ hy))).symm
    · by_cases hm : y ∈ ps.map (·.1)
      · exact h3 y hm
      · exact (hf y ⟨hm, hy⟩).2
    · rintro y (hy | hy)
      · by_cases hm : y ∈ ps.map (·.1)
        · exact .inr (List.mem_append_left _ hm)
        · exact .inl ⟨hm, hy⟩
      · exact .inr (List.mem_append_right _ hy)
  | .mtch e bs, c, h, hf, σ, hσ => by
    obtain ⟨h1, h2, h3⟩ := nodup_app.1 h
    simp only [Free, binders, List.mem_append, not_or] at hf
    have hok := copyB_ok bs (copyE e c).2 h2
    refine .mtch (copyE_ren e c h1 (fun y hy => (hf y (.inl hy)).1) σ (hσ.back hok ?_ ?_))
      (copyB_ren bs _ h2 (fun y hy => (hf y (.inr hy)).2) σ (hσ.sub ?_))
    · rintro y (hy | hy)
      · exact .inl (.inl hy)
      · exact .inr (List.mem_append_left _ hy)
    · rintro y (hy | hy)
      · exact (hf y (.inl hy)).2
      · exact h3 y hy
    · rintro y (hy | hy)
      · exact .inl (.inr hy)
      · exact .inr (List.mem_append_right _ hy)
  | .let_ n v e, c, h, hf, σ, hσ => by
    simp only [binders] at h
    rw [List.nodup_cons] at h
    obtain ⟨h1, h2, h3⟩ := nodup_app.1 h.2
    simp only [Free, binders, List.mem_cons, List.mem_append, not_or] at hf
    have hn : n ∉ binders v ∧ n ∉ binders e := by simpa using h.1
    have hok1 := copyE_ok v (c.name n).2 h1
    have hok2 := copyE_ok e (copyE v (c.name n).2).2 h2
    have hσn : σ n = c.next := by
      have := hσ n (.inr (by simp [binders]))
      rw [this]
      show (copyE e (copyE v (c.name n).2).2).2.r n = _
      rw [hok2.other n hn.2, hok1.other n hn.1, Cp.name_r, if_pos rfl]
    simp only [copyE]
    rw [show (c.name n).1 = σ n from hσn.symm]
    refine .let_ n (copyE_ren v _ h1 (fun y hy => (hf y (.inl hy)).2.1) σ (hσ.back hok2 ?_ ?_))
      (copyE_ren e _ h2 (fun y hy => ?_) σ (hσ.sub ?_))
    · rintro y (hy | hy)
      · exact .inl (.inl hy)
      · exact .inr (by simp [binders, hy])
    · rintro y (hy | hy)
      · exact (hf y (.inl hy)).2.2
      · exact h3 y hy
    · by_cases hm : y = n
      · rw [hm]; exact hn.2
      · exact (hf y (.inr ⟨hm, hy⟩)).2.2
    · rintro y (hy | hy)
      · by_cases hm : y = n
        · exact .inr (by simp [binders, hm])
        · exact .inl (.inr ⟨hm, hy⟩)
      · exact .inr (by simp [binders, hy])
  | .letrec n t v e, c, h, hf, σ, hσ => by
    simp only [binders] at h
    rw [List.nodup_cons] at h
    obtain ⟨h1, h2, h3⟩ := nodup_app.1 h.2
    simp only [Free, binders, List.mem_cons, List.mem_append, not_or] at hf
    have hn : n ∉ binders v ∧ n ∉ binders e := by simpa using h.1
    have ht := copyTy_same t (c.name n).2
    have hok1 := copyE_ok v (copyTy t (c.name n).2).2 h1
    have hok2 := copyE_ok e (copyE v (copyTy t (c.name n).2).2).2 h2
    have hσn : σ n = c.next := by
      have := hσ n (.inr (by simp [binders]))
      rw [this]
      show (copyE e (copyE v (copyTy t (c.name n).2).2).2).2.r n = _
      rw [hok2.other n hn.2, hok1.other n hn.1]
      have := Cp.name_r c n n
      rw [if_pos rfl] at this
      unfold Cp.r at this ⊢
      rw [ht.2, this]
    simp only [copyE]
    rw [show (c.name n).1 = σ n from hσn.symm]
    refine .letrec n t _ (copyE_ren v _ h1 (fun y hy => ?_) σ (hσ.back hok2 ?_ ?_))
      (copyE_ren e _ h2 (fun y hy => ?_) σ (hσ.sub ?_))
    · by_cases hm : y = n
      · rw [hm]; exact hn.1
      · exact (hf y ⟨hm, .inl hy⟩).2.1
    · rintro y (hy | hy)
      · by_cases hm : y = n
        · exact .inr (by simp [binders, hm])
        · exact .inl ⟨hm, .inl hy⟩
      · exact .inr (by simp [binders, hy])
    · rintro y (hy | hy)
      · by_cases hm : y = n
        · rw [hm]; exact hn.2
        · exact (hf y ⟨hm, .inl hy⟩).2.2
      · exact h3 y hy
    · by_cases hm : y = n
      · rw [hm]; exact hn.2
      · exact (hf y ⟨hm, .inr hy⟩).2.2
    · rintro y (hy | hy)
      · by_cases hm : y = n
        · exact .inr (by simp [binders, hm])
        · exact .inl ⟨hm, .inr hy⟩
      · exact .inr (by simp [binders, hy])
  | .pi v e, c, h, hf, σ, hσ => .pi v _ (copyE_ren e _ h hf σ hσ)
  | .piApp e t, c, h, hf, σ, hσ => by
    refine .piApp t _ (copyE_ren e c h hf σ fun y hy => ?_)
    rw [hσ y hy]
    simp only [copyE, Cp.r]
    rw [(copyTy_same t _).2]
theorem copyL_ren : ∀ (es : List Expr) (c : Cp), (bindersL es).Nodup → (∀ y, FreeL y es → y ∉ bindersL es) → ∀ σ, Agree σ (copyL es c).2 (OccL · es) → RenL σ es (copyL es c).1
  | [], c, _, _, σ, _ => .nil
  | e :: es, c, h, hf, σ, hσ => by
    obtain ⟨h1, h2, h3⟩ := nodup_app.1 h
    simp only [FreeL, bindersL, List.mem_append, not_or] at hf
    have hok := copyL_ok es (copyE e c).2 h2
    refine .cons (copyE_ren e c h1 (fun y hy => (hf y (.inl hy)).1) σ (hσ.back hok ?_ ?_))
      (copyL_ren es _ h2 (fun y hy => (hf y (.inr hy)).2) σ (hσ.sub ?_))
    · rintro y (hy | hy)
      · exact .inl (.inl hy)
      · exact .inr (List.mem_append_left _ hy)
    · rintro y (hy | hy)
      · exact (hf y (.inl hy)).2
      · exact h3 y hy
    · rintro y (hy | hy)
      · exact .inl (.inr hy)
      · exact .inr (List.mem_append_right _ hy)
theorem copyB_ren : ∀ (bs : List Branch) (c : Cp), (bindersB bs).Nodup → (∀ y, FreeB y bs → y ∉ bindersB bs) → ∀ σ, Agree σ (copyB bs c).2 (OccB · bs) → RenB σ bs (copyB bs c).1
  | [], c, _, _, σ, _ => .nil
  | .mk n xs e :: bs, c, h, hf, σ, hσ => by
    simp only [bindersB] at h
    obtain ⟨h1, h2, h3⟩ := nodup_app.1 h
    obtain ⟨h4, h5, h6⟩ := nodup_app.1 h1
    simp only [FreeB, bindersB, List.mem_append, not_or] at hf
    obtain ⟨hp1, hp2⟩ := copyNames_ok xs c h4
    have hok1 := copyE_ok e (copyNames xs c).2 h5
    have hok2 := copyB_ok bs (copyE e (copyNames xs c).2).2 h2
    have hxs : (copyNames xs c).1 = xs.map σ := by
      rw [hp2]
      refine List.map_congr_left fun y hy => ?_
      rw [← hok1.other y (h6 y hy), ← hok2.other y (h3 y (by simp [hy]))]
      exact (hσ y (.inr (by simp [bindersB, hy]))).symm
    simp only [copyB]
    rw [hxs]
    refine .cons n xs (copyE_ren e _ h5 (fun y hy => ?_) σ (hσ.back hok2 ?_ ?_))
      (copyB_ren bs _ h2 (fun y hy => (hf y (.inr hy)).2) σ (hσ.sub ?_))
    · by_cases hm : y ∈ xs
      · exact h6 y hm
      · exact (hf y (.inl ⟨hm, hy⟩)).1.2
    · rintro y (hy | hy)
      · by_cases hm : y ∈ xs
        · exact .inr (by simp [bindersB, hm])
        · exact .inl (.inl ⟨hm, hy⟩)
      · exact .inr (by simp [bindersB, hy])
    · rintro y (hy | hy)
      · by_cases hm : y ∈ xs
        · exact h3 y (by simp [hm])
        · exact (hf y (.inl ⟨hm, hy⟩)).2
      · exact h3 y (by simp [hy])
    · rintro y (hy | hy)
      · exact .inl (.inr hy)
      · exact .inr (by simp [bindersB, hy])
end

theorem nodup_map_on {α β : Type} {f : α → β} : ∀ {l : List α}, l.Nodup → (∀ x ∈ l, ∀ y ∈ l, f x = f y → x = y) → (l.map f).Nodup
  | [], _, _ => by simp
  | a :: l, h, hf => by
    rw [List.nodup_cons] at h
    rw [List.map_cons, List.nodup_cons]
    refine ⟨fun hm => ?_, nodup_map_on h.2 fun x hx y hy => hf x (by simp [hx]) y (by simp [hy])⟩
    obtain ⟨b, hb, he⟩ := List.mem_map.1 hm
    exact h.1 (hf b (by simp [hb]) a (by simp) he ▸ hb)

theorem occ_child {y : Name} {e : Expr} {c : List Name × Expr} (hc : c ∈ children e) (h : Occ y c.2) : Occ y e := by
  rcases h with h | h
  · by_cases hy : y ∈ c.1
    · exact .inr (own_sub_binders (own_of_scope hc hy))
    · exact .inl (free_iff.2 (.inr ⟨c, hc, hy, h⟩))
  · exact .inr (child_sub_binders hc h)

theorem occ_own {y : Name} {e : Expr} (h : y ∈ own e) : Occ y e := .inr (own_sub_binders h)

theorem map_inv {σ τ : Name → Name} {l : List Name} (h : ∀ y ∈ l, τ (σ y) = y) : l = (l.map σ).map τ := by
  rw [List.map_map]
  exact (List.map_congr_left (f := τ ∘ σ) (g := id) h).trans (List.map_id _) |>.symm

mutual
/-- Renaming can be undone. -/
theorem Ren.symm {σ τ : Name → Name} : ∀ {e e' : Expr}, Ren σ e e' → (∀ y, Occ y e → τ (σ y) = y) → Ren τ e' e
  | _, _, .bool b, _ => .bool b
  | _, _, .int b, _ => .int b
  | _, _, .str b, _ => .str b
  | _, _, .trap m t t', _ => .trap m t' t
  | _, _, .name x, h => by
    have := Ren.name (σ := τ) (σ x)
    rwa [h x (.inl (by simp [Free]))] at this
  | _, _, .call (f := f) (xs := xs) a b, h => .call (a.symm fun y hy => h y (occ_child (c := ([], f)) (by simp [children]) hy))
      (b.symm fun e he y hy => h y (occ_child (c := ([], e)) (by simp [children, he]) hy))
  | _, _, .ite (a := a0) (b := b0) (c := c0) a b c, h => .ite (a.symm fun y hy => h y (occ_child (c := ([], a0)) (by simp [children]) hy))
      (b.symm fun y hy => h y (occ_child (c := ([], b0)) (by simp [children]) hy)) (c.symm fun y hy => h y (occ_child (c := ([], c0)) (by simp [children]) hy))
  | _, _, .op (a := a0) (b := b0) o a b, h => .op o (a.symm fun y hy => h y (occ_child (c := ([], a0)) (by simp [children]) hy))
      (b.symm fun y hy => h y (occ_child (c := ([], b0)) (by simp [children]) hy))
  | _, _, .intr i a, h => .intr i (a.symm fun e he y hy => h y (occ_child (c := ([], e)) (by simp [children, he]) hy))
  | _, _, .con c ts ts' a, h => .con c ts' ts (a.symm fun e he y hy => h y (occ_child (c := ([], e)) (by simp [children, he]) hy))
  | _, _, .lam (ps := ps) (b := b0) hp b, h => .lam (by rw [hp]; exact map_inv fun y hy => h y (occ_own (by simpa [own] using hy)))
      (b.symm fun y hy => h y (occ_child (c := (ps.map (·.1), b0)) (by simp [children]) hy))
  | _, _, .mtch (e := e0) (bs := bs) a b, h => .mtch (a.symm fun y hy => h y (occ_child (c := ([], e0)) (by simp [children]) hy))
      (b.symm (fun b hb y hy => h y (occ_own (by simp only [own, List.mem_flatMap]; exact ⟨b, hb, hy⟩)))
        fun b hb y hy => h y (occ_child (c := (b.binds, b.body)) (by simp only [children, List.mem_cons, List.mem_map]; exact .inr ⟨b, hb, rfl⟩) hy))
  | _, _, .let_ (v := v0) (e := e0) n a b, h => by
    have := Ren.let_ (σ := τ) (σ n) (a.symm fun y hy => h y (occ_child (c := ([], v0)) (by simp [children]) hy))
      (b.symm fun y hy => h y (occ_child (c := ([n], e0)) (by simp [children]) hy))
    rwa [h n (occ_own (by simp [own]))] at this
  | _, _, .letrec (v := v0) (e := e0) n t t' a b, h => by
    have := Ren.letrec (σ := τ) (σ n) t' t (a.symm fun y hy => h y (occ_child (c := ([n], v0)) (by simp [children]) hy))
      (b.symm fun y hy => h y (occ_child (c := ([n], e0)) (by simp [children]) hy))
    rwa [h n (occ_own (by simp [own]))] at this
  | _, _, .pi (e := e0) v v' a, h => .pi v' v (a.symm fun y hy => h y (occ_child (c := ([], e0)) (by simp [children]) hy))
  | _, _, .piApp (e := e0) v v' a, h => .piApp v' v (a.symm fun y hy => h y (occ_child (c := ([], e0)) (by simp [children]) hy))
theorem RenL.symm {σ τ : Name → Name} : ∀ {e e' : List Expr}, RenL σ e e' → (∀ x ∈ e, ∀ y, Occ y x → τ (σ y) = y) → RenL τ e' e
  | _, _, .nil, _ => .nil
  | _, _, .cons h hs, hx => .cons (h.symm (hx _ (by simp))) (hs.symm fun x hm => hx x (by simp [hm]))
theorem RenB.symm {σ τ : Name → Name} : ∀ {e e' : List Branch}, RenB σ e e' → (∀ b ∈ e, ∀ y ∈ b.binds, τ (σ y) = y) → (∀ b ∈ e, ∀ y, Occ y b.body → τ (σ y) = y) → RenB τ e' e
  | _, _, .nil, _, _ => .nil
  | _, _, .cons (e := e0) (bs := bs0) c ns h hs, hb, hx => by
    have := RenB.cons (σ := τ) c (ns.map σ) (h.symm (hx (.mk c ns e0) (by simp))) (hs.symm (fun x hm => hb x (by simp [hm])) fun x hm => hx x (by simp [hm]))
    have hm : ns = (ns.map σ).map τ := map_inv (hb (.mk c ns e0) (List.mem_cons_self))
    rwa [← hm] at this
end

/-- The copy of a well-named expression: the same results, the same free names, and fresh
distinct binders. -/
theorem createCopy_ok {s : Mode} {X : List Name} {v : Expr} {st : InlSt} (h : Good X v) (hX : ∀ x ∈ X, x < st.next) :
    st.next ≤ (createCopy v st).2.next ∧ (createCopy v st).2.inl = st.inl ∧
    (∀ y, cnt y (createCopy v st).1 ≤ 1) ∧ (∀ y, 0 < cnt y (createCopy v st).1 → st.next ≤ y ∧ y < (createCopy v st).2.next) ∧
    (∀ y, Free y (createCopy v st).1 → Free y v) ∧ WellShaped (createCopy v st).1 ∧
    ∀ d k ρ ρ', (∀ x, Free x v → LookRel s k ρ ρ' x) → Rel2 d s k ρ v ρ' (createCopy v st).1 := by
  have hn : (binders v).Nodup := List.nodup_iff_count.2 h.uniq
  have hf : ∀ y, Free y v → y ∉ binders v := fun y hy hb => by
    have h1 := h.disj y (h.scope y hy)
    have h2 := mem_binders_iff.1 hb
    omega
  have hok := copyE_ok v ⟨st.next, st.nextTy, [], []⟩ hn
  have hr := copyE_ren v ⟨st.next, st.nextTy, [], []⟩ hn hf (copyE v ⟨st.next, st.nextTy, [], []⟩).2.r fun _ _ => rfl
  have hid : ∀ y, Free y v → (copyE v ⟨st.next, st.nextTy, [], []⟩).2.r y = y := fun y hy => by
    rw [hok.other y (hf y hy)]; rfl
  have hlt : ∀ y, Free y v → y < st.next := fun y hy => hX y (h.scope y hy)
  have hinj : ∀ x y, Occ x v → Occ y v → (copyE v ⟨st.next, st.nextTy, [], []⟩).2.r x = (copyE v ⟨st.next, st.nextTy, [], []⟩).2.r y → x = y := by
    intro x y hx hy he
    rcases hx with hx | hx <;> rcases hy with hy | hy
    · rw [hid x hx, hid y hy] at he; exact he
    · rw [hid x hx] at he
      have h1 := (hok.fresh y hy).1
      have h2 : x < st.next := hlt x hx
      rw [← he] at h1
      exact absurd h2 (Nat.not_lt.2 h1)
    · rw [hid y hy] at he
      have h1 := (hok.fresh x hx).1
      have h2 : y < st.next := hlt y hy
      rw [he] at h1
      exact absurd h2 (Nat.not_lt.2 h1)
    · exact hok.inj x hx y hy he
  have hbs := hr.binders
  refine ⟨hok.le, rfl, fun y => ?_, fun y hy => ?_, fun y hy => ?_, hr.wellShaped _ h.recs, fun d k ρ ρ' hρ => ?_⟩
  · refine List.nodup_iff_count.1 ?_ y
    show (binders (copyE v ⟨st.next, st.nextTy, [], []⟩).1).Nodup
    rw [hbs]
    exact nodup_map_on hn fun x hx y hy he => hinj x y (.inr hx) (.inr hy) he
  · have : y ∈ binders (copyE v ⟨st.next, st.nextTy, [], []⟩).1 := mem_binders_iff.2 hy
    rw [hbs] at this
    obtain ⟨x, hx, rfl⟩ := List.mem_map.1 this
    exact hok.fresh x hx
  · obtain ⟨x, hx, rfl⟩ := hr.free _ hy
    rw [hid x hx]; exact hx
  · cases d
    · -- the other way round
      obtain ⟨τ, hτ⟩ : ∃ τ : Name → Name, ∀ y, Occ y v → τ ((copyE v ⟨st.next, st.nextTy, [], []⟩).2.r y) = y := by
        classical
        refine ⟨fun z => if h : ∃ y, Occ y v ∧ (copyE v ⟨st.next, st.nextTy, [], []⟩).2.r y = z then h.choose else 0, fun y hy => ?_⟩
        have hex : ∃ y', Occ y' v ∧ (copyE v ⟨st.next, st.nextTy, [], []⟩).2.r y' = (copyE v ⟨st.next, st.nextTy, [], []⟩).2.r y := ⟨y, hy, rfl⟩
        dsimp only
        rw [dif_pos hex]
        exact hinj _ _ hex.choose_spec.1 hy hex.choose_spec.2
      have hocc : ∀ z, Occ z (copyE v ⟨st.next, st.nextTy, [], []⟩).1 → ∃ y, Occ y v ∧ z = (copyE v ⟨st.next, st.nextTy, [], []⟩).2.r y := by
        intro z hz
        rcases hz with hz | hz
        · obtain ⟨x, hx, rfl⟩ := hr.free _ hz
          exact ⟨x, .inl hx, rfl⟩
        · rw [hbs] at hz
          obtain ⟨x, hx, rfl⟩ := List.mem_map.1 hz
          exact ⟨x, .inr hx, rfl⟩
      refine ren_rel (σ := τ) (S := (Occ · (copyE v ⟨st.next, st.nextTy, [], []⟩).1)) (fun x y hx hy he => ?_) _ (hr.symm hτ) (fun y hy => hy) fun x hx => ?_
      · obtain ⟨x0, h1, rfl⟩ := hocc x hx
        obtain ⟨y0, h2, rfl⟩ := hocc y hy
        rw [hτ x0 h1, hτ y0 h2] at he
        rw [he]
      · obtain ⟨x0, h1, rfl⟩ := hr.free _ hx
        rw [hτ x0 (.inl h1), hid x0 h1]
        exact hρ x0 h1
    · refine ren_rel hinj v hr (fun y hy => hy) fun x hx => ?_
      rw [hid x hx]
      exact hρ x hx

end Tic.Core
