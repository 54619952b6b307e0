import Verif.Walk
/-
The walkers of `ticc/src/codegen/opt.rs` with node functions that may panic (`none`).
-/
namespace Tic.Core

/-- All or nothing. -/
def allO {α β : Type} (g : α → Option β) : List α → Option (List β)
  | [] => some []
  | a :: as => (g a).bind fun b => (allO g as).map (b :: ·)

/-- One step of the walkers' descent (`opt.rs:120-165`), with panics. -/
def mapSubO (g : Expr → Option Expr) : Expr → Option Expr
  | .bool b => some (.bool b)
  | .int i => some (.int i)
  | .str s => some (.str s)
  | .name n => some (.name n)
  | .call f xs => (g f).bind fun f => (allO g xs).map fun xs => .call f xs
  | .ite c t e => (g c).bind fun c => (g t).bind fun t => (g e).map fun e => .ite c t e
  | .op a o b => (g a).bind fun a => (g b).map fun b => .op a o b
  | .intr i xs => (allO g xs).map fun xs => .intr i xs
  | .lam ps b => (g b).map fun b => .lam ps b
  | .mtch e bs => (g e).bind fun e => (allO (fun b : Branch => (g b.body).map fun e => Branch.mk b.ctor b.binds e) bs).map fun bs => .mtch e bs
  | .con c ts xs => (allO g xs).map fun xs => .con c ts xs
  | .let_ n v e => (g v).bind fun v => (g e).map fun e => .let_ n v e
  | .letrec n t v e => (g v).bind fun v => (g e).map fun e => .letrec n t v e
  | .pi v e => (g e).map fun e => .pi v e
  | .piApp e t => (g e).map fun e => .piApp e t
  | .trap m t => some (.trap m t)

/-- `walk_expressions_mut`, `opt.rs:118-172`, down to depth `n`, with panics. -/
def walkPreO : Nat → (Expr → Option Expr) → Expr → Option Expr
  | 0, _, e => some e
  | n + 1, f, e => (f e).bind (mapSubO (walkPreO n f))

theorem allO_eq {α β : Type} {g : α → Option β} {h : α → β} (hg : ∀ a b, g a = some b → b = h a) :
    ∀ {as : List α} {bs : List β}, allO g as = some bs → bs = as.map h
  | [], bs, he => by simp [allO] at he; simp [he]
  | a :: as, bs, he => by
    simp only [allO, Option.bind_eq_some_iff, Option.map_eq_some_iff] at he
    obtain ⟨b, hb, bs', hbs, rfl⟩ := he
    rw [List.map_cons, ← hg a b hb, ← allO_eq hg hbs]

theorem mapSubO_eq {g : Expr → Option Expr} {h : Expr → Expr} (hg : ∀ a b, g a = some b → b = h a) {e e' : Expr}
    (he : mapSubO g e = some e') : e' = mapSub h e := by
  cases e <;> simp only [mapSubO, Option.bind_eq_some_iff, Option.map_eq_some_iff, Option.some.injEq] at he
  case call f xs => obtain ⟨a, ha, as, has, rfl⟩ := he; rw [mapSub, ← hg _ _ ha, ← allO_eq hg has]
  case ite c t e => obtain ⟨a, ha, b, hb, d, hd, rfl⟩ := he; rw [mapSub, ← hg _ _ ha, ← hg _ _ hb, ← hg _ _ hd]
  case op a o b => obtain ⟨a, ha, b, hb, rfl⟩ := he; rw [mapSub, ← hg _ _ ha, ← hg _ _ hb]
  case intr i xs => obtain ⟨as, has, rfl⟩ := he; rw [mapSub, ← allO_eq hg has]
  case lam ps b => obtain ⟨a, ha, rfl⟩ := he; rw [mapSub, ← hg _ _ ha]
  case mtch e bs =>
    obtain ⟨a, ha, as, has, rfl⟩ := he
    rw [mapSub, ← hg _ _ ha, allO_eq (h := fun b => Branch.mk b.ctor b.binds (h b.body)) (fun b b' hb => ?_) has]
    obtain ⟨c, hc, rfl⟩ := Option.map_eq_some_iff.1 hb
    rw [hg _ _ hc]
  case con c ts xs => obtain ⟨as, has, rfl⟩ := he; rw [mapSub, ← allO_eq hg has]
  case let_ n v e => obtain ⟨a, ha, b, hb, rfl⟩ := he; rw [mapSub, ← hg _ _ ha, ← hg _ _ hb]
  case letrec n t v e => obtain ⟨a, ha, b, hb, rfl⟩ := he; rw [mapSub, ← hg _ _ ha, ← hg _ _ hb]
  case pi v e => obtain ⟨a, ha, rfl⟩ := he; rw [mapSub, ← hg _ _ ha]
  case piApp e t => obtain ⟨a, ha, rfl⟩ := he; rw [mapSub, ← hg _ _ ha]
  all_goals (subst he; rfl)

/-- Where a walk does not panic, it is the walk with the panics left out. -/
theorem walkPreO_eq {f : Expr → Option Expr} : ∀ {n : Nat} {e e' : Expr}, walkPreO n f e = some e' →
    e' = walkPreN n (fun e => (f e).getD e) e
  | 0, e, e', h => by simp only [walkPreO, Option.some.injEq] at h; simp [walkPreN, h]
  | n + 1, e, e', h => by
    simp only [walkPreO, Option.bind_eq_some_iff] at h
    obtain ⟨a, ha, h⟩ := h
    rw [walkPreN, ha]
    exact mapSubO_eq (fun a b hb => walkPreO_eq hb) h

theorem allO_congr {α β : Type} {g h : α → Option β} : ∀ {as : List α}, (∀ a ∈ as, g a = h a) → allO g as = allO h as
  | [], _ => rfl
  | a :: as, he => by
    rw [allO, allO, he a (by simp), allO_congr fun b hb => he b (by simp [hb])]

theorem mapSubO_congr {g h : Expr → Option Expr} {e : Expr} (hc : ∀ c ∈ children e, g c.2 = h c.2) : mapSubO g e = mapSubO h e := by
  have hL : ∀ xs : List Expr, (∀ c ∈ xs.map (fun x => (([] : List Name), x)), g c.2 = h c.2) → allO g xs = allO h xs :=
    fun xs hx => allO_congr fun x hm => hx ([], x) (List.mem_map.2 ⟨x, hm, rfl⟩)
  cases e <;> simp only [children, List.mem_cons, List.not_mem_nil, or_false, forall_eq_or_imp, forall_eq] at hc <;> simp only [mapSubO]
  case call f xs => rw [hc.1, hL xs hc.2]
  case ite => rw [hc.1, hc.2.1, hc.2.2]
  case op => rw [hc.1, hc.2]
  case intr i xs => rw [hL xs hc]
  case lam => rw [hc]
  case mtch e bs =>
    rw [hc.1, allO_congr fun b hb => ?_]
    rw [hc.2 (b.binds, b.body) (List.mem_map.2 ⟨b, hb, rfl⟩)]
  case con c ts xs => rw [hL xs hc]
  case let_ => rw [hc.1, hc.2]
  case letrec => rw [hc.1, hc.2]
  case pi => rw [hc]
  case piApp => rw [hc]

/-- A depth bound given by a measure that shrinks towards subexpressions and does not grow at
the nodes is never reached. -/
theorem walkPreO_stable {f : Expr → Option Expr} {m : Expr → Nat} (hc : ∀ e, ∀ c ∈ children e, m c.2 < m e) (hp : ∀ e, 0 < m e)
    (hf : ∀ e e', f e = some e' → m e' ≤ m e) :
    ∀ (i j : Nat) (e : Expr), m e ≤ i → m e ≤ j → walkPreO i f e = walkPreO j f e
  | 0, _, e, h, _ => by have := hp e; omega
  | _ + 1, 0, e, _, h => by have := hp e; omega
  | i + 1, j + 1, e, hi, hj => by
    rw [walkPreO, walkPreO]
    cases h : f e with
    | none => rfl
    | some e' =>
      simp only [Option.bind_some]
      refine mapSubO_congr fun c hm => ?_
      have h1 := hc e' c hm
      have h2 := hf e e' h
      exact walkPreO_stable hc hp hf i j c.2 (by omega) (by omega)

/-- The recursive equation of `walk_expressions_mut`. -/
theorem walkPreO_eqn {f : Expr → Option Expr} {m : Expr → Nat} (hc : ∀ e, ∀ c ∈ children e, m c.2 < m e) (hp : ∀ e, 0 < m e)
    (hf : ∀ e e', f e = some e' → m e' ≤ m e) (e : Expr) :
    walkPreO (m e) f e = (f e).bind (mapSubO fun c => walkPreO (m c) f c) := by
  rw [walkPreO_stable hc hp hf (m e) (m e + 1) e (Nat.le_refl _) (by omega), walkPreO]
  cases h : f e with
  | none => rfl
  | some e' =>
    simp only [Option.bind_some]
    refine mapSubO_congr fun c hm => ?_
    have h1 := hc e' c hm
    have h2 := hf e e' h
    exact walkPreO_stable hc hp hf _ _ c.2 (by omega) (Nat.le_refl _)

end Tic.Core
