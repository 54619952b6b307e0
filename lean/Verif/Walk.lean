import Verif.Ir
/-
The expression walkers of the optimizer, `ticc/src/codegen/opt.rs:63-236`.
-/
namespace Tic.Core

/-- Applies `g` to the immediate subexpressions (one step of the walkers'
recursive descent, `opt.rs:120-165,176-221`). -/
def mapSub (g : Expr → Expr) : Expr → Expr
  | .bool b => .bool b
  | .int i => .int i
  | .str s => .str s
  | .name n => .name n
  | .call f xs => .call (g f) (xs.map g)
  | .ite c t e => .ite (g c) (g t) (g e)
  | .op a o b => .op (g a) o (g b)
  | .intr i xs => .intr i (xs.map g)
  | .lam ps b => .lam ps (g b)
  | .mtch e bs => .mtch (g e) (bs.map fun b => .mk b.ctor b.binds (g b.body))
  | .con c ts xs => .con c ts (xs.map g)
  | .let_ n v e => .let_ n (g v) (g e)
  | .letrec n t v e => .letrec n t (g v) (g e)
  | .pi v e => .pi v (g e)
  | .piApp e t => .piApp (g e) t
  | .trap m t => .trap m t

/-- Immediate subexpressions, in the order of the walkers, each with the names
bound around it. -/
def children : Expr → List (List Name × Expr)
  | .call f xs => ([], f) :: xs.map fun x => ([], x)
  | .ite c t e => [([], c), ([], t), ([], e)]
  | .op a _ b => [([], a), ([], b)]
  | .intr _ xs => xs.map fun x => ([], x)
  | .lam ps b => [(ps.map (·.1), b)]
  | .mtch e bs => ([], e) :: bs.map fun b => (b.binds, b.body)
  | .con _ _ xs => xs.map fun x => ([], x)
  | .let_ n v e => [([], v), ([n], e)]
  | .letrec n _ v e => [([n], v), ([n], e)]
  | .pi _ e => [([], e)]
  | .piApp e _ => [([], e)]
  | _ => []

mutual
/-- Number of nodes, used as a bound for the depth of walks. -/
def esize : Expr → Nat
  | .call f xs => esize f + esizeL xs + 1
  | .ite c t e => esize c + esize t + esize e + 1
  | .op a _ b => esize a + esize b + 1
  | .intr _ xs => esizeL xs + 1
  | .lam _ b => esize b + 1
  | .mtch e bs => esize e + esizeB bs + 1
  | .con _ _ xs => esizeL xs + 1
  | .let_ _ v e => esize v + esize e + 1
  | .letrec _ _ v e => esize v + esize e + 1
  | .pi _ e => esize e + 1
  | .piApp e _ => esize e + 1
  | _ => 1
/-- ... of a list. -/
def esizeL : List Expr → Nat
  | [] => 0
  | e :: es => esize e + esizeL es
/-- ... of branches. -/
def esizeB : List Branch → Nat
  | [] => 0
  | .mk _ _ e :: bs => esize e + esizeB bs
end

/-- Post-order walk with a bound on the depth. -/
def walkPostN : Nat → (Expr → Expr) → Expr → Expr
  | 0, _, e => e
  | n + 1, f, e => f (mapSub (walkPostN n f) e)

/-- `walk_expressions_postorder_mut`, `opt.rs:174-226`: children first, then the
node itself.  `walkPost_eq` shows that the bound is never reached. -/
def walkPost (f : Expr → Expr) (e : Expr) : Expr := walkPostN (esize e) f e

/-- `walk_expressions_mut`, `opt.rs:118-172`: the node itself first, then the
children of the *new* node, down to depth `n`. -/
def walkPreN : Nat → (Expr → Expr) → Expr → Expr
  | 0, _, e => e
  | n + 1, f, e => mapSub (walkPreN n f) (f e)

theorem esizeL_mem {e : Expr} {es : List Expr} (h : e ∈ es) : esize e ≤ esizeL es := by
  induction es with
  | nil => cases h
  | cons a es ih =>
    rcases List.mem_cons.1 h with rfl | h
    · simp only [esizeL]; omega
    · have := ih h; simp only [esizeL]; omega

theorem esizeB_mem {b : Branch} {bs : List Branch} (h : b ∈ bs) : esize b.body ≤ esizeB bs := by
  induction bs with
  | nil => cases h
  | cons a bs ih =>
    rcases List.mem_cons.1 h with rfl | h
    · cases b; simp only [esizeB, Branch.body]; omega
    · have := ih h; cases a; simp only [esizeB]; omega

theorem esize_pos (e : Expr) : 0 < esize e := by cases e <;> simp [esize]

theorem mem_children_esize {e : Expr} {c : List Name × Expr} (h : c ∈ children e) : esize c.2 < esize e := by
  have hL : ∀ (xs : List Expr) (c : List Name × Expr), c ∈ xs.map (fun x => (([] : List Name), x)) → esize c.2 ≤ esizeL xs := by
    intro xs c hc
    obtain ⟨x, hx, rfl⟩ := List.mem_map.1 hc
    exact esizeL_mem hx
  cases e <;> simp only [children, List.mem_cons, List.not_mem_nil, or_false] at h
  case call f xs =>
    rcases h with rfl | h
    · simp only [esize]; omega
    · have := hL _ _ h; simp only [esize]; omega
  case ite a b c => rcases h with rfl | rfl | rfl <;> simp only [esize] <;> omega
  case op a o b => rcases h with rfl | rfl <;> simp only [esize] <;> omega
  case intr i xs => have := hL _ _ h; simp only [esize]; omega
  case lam ps b => subst h; simp only [esize]; omega
  case mtch e bs =>
    rcases h with rfl | h
    · simp only [esize]; omega
    · obtain ⟨b, hb, rfl⟩ := List.mem_map.1 h
      have := esizeB_mem hb
      simp only [esize]; omega
  case con c ts xs => have := hL _ _ h; simp only [esize]; omega
  case let_ n v e => rcases h with rfl | rfl <;> simp only [esize] <;> omega
  case letrec n t v e => rcases h with rfl | rfl <;> simp only [esize] <;> omega
  case pi v e => subst h; simp only [esize]; omega
  case piApp v e => subst h; simp only [esize]; omega

theorem mem_children_size {e : Expr} {c : List Name × Expr} (h : c ∈ children e) : sizeOf c.2 < sizeOf e := by
  have hL : ∀ (xs : List Expr) (c : List Name × Expr), c ∈ xs.map (fun x => (([] : List Name), x)) → sizeOf c.2 < sizeOf xs := by
    intro xs c hc
    obtain ⟨x, hx, rfl⟩ := List.mem_map.1 hc
    exact List.sizeOf_lt_of_mem hx
  cases e <;> simp only [children, List.mem_cons, List.not_mem_nil, or_false] at h
  case call f xs =>
    rcases h with rfl | h
    · simp only [Expr.call.sizeOf_spec]; omega
    · have := hL _ _ h; simp only [Expr.call.sizeOf_spec]; omega
  case ite a b c => rcases h with rfl | rfl | rfl <;> simp only [Expr.ite.sizeOf_spec] <;> omega
  case op a o b => rcases h with rfl | rfl <;> simp only [Expr.op.sizeOf_spec] <;> omega
  case intr i xs => have := hL _ _ h; simp only [Expr.intr.sizeOf_spec]; omega
  case lam ps b => subst h; simp only [Expr.lam.sizeOf_spec]; omega
  case mtch e bs =>
    rcases h with rfl | h
    · simp only [Expr.mtch.sizeOf_spec]; omega
    · obtain ⟨b, hb, rfl⟩ := List.mem_map.1 h
      have := List.sizeOf_lt_of_mem hb
      cases b
      simp only [Branch.mk.sizeOf_spec] at this
      simp only [Branch.body, Expr.mtch.sizeOf_spec]; omega
  case con c ts xs => have := hL _ _ h; simp only [Expr.con.sizeOf_spec]; omega
  case let_ n v e => rcases h with rfl | rfl <;> simp only [Expr.let_.sizeOf_spec] <;> omega
  case letrec n t v e => rcases h with rfl | rfl <;> simp only [Expr.letrec.sizeOf_spec] <;> omega
  case pi v e => subst h; simp only [Expr.pi.sizeOf_spec]; omega
  case piApp v e => subst h; simp only [Expr.piApp.sizeOf_spec]; omega

theorem mapSub_congr {g g' : Expr → Expr} {e : Expr} (h : ∀ c ∈ children e, g c.2 = g' c.2) : mapSub g e = mapSub g' e := by
  have hL : ∀ (xs : List Expr), (∀ c ∈ xs.map (fun x => (([] : List Name), x)), g c.2 = g' c.2) → xs.map g = xs.map g' := by
    intro xs hx
    refine List.map_congr_left fun x hm => hx ([], x) (List.mem_map.2 ⟨x, hm, rfl⟩)
  cases e <;> simp only [children, List.mem_cons, List.not_mem_nil, or_false, forall_eq_or_imp, forall_eq] at h <;> simp only [mapSub]
  case call f xs => rw [h.1, hL xs h.2]
  case ite a b c => rw [h.1, h.2.1, h.2.2]
  case op a o b => rw [h.1, h.2]
  case intr i xs => rw [hL xs h]
  case lam ps b => rw [h]
  case mtch e bs =>
    rw [h.1]
    congr 1
    refine List.map_congr_left fun b hb => ?_
    rw [h.2 (b.binds, b.body) (List.mem_map.2 ⟨b, hb, rfl⟩)]
  case con c ts xs => rw [hL xs h]
  case let_ n v e => rw [h.1, h.2]
  case letrec n t v e => rw [h.1, h.2]
  case pi v e => rw [h]
  case piApp v e => rw [h]

theorem walkPostN_stable (f : Expr → Expr) : ∀ (n m : Nat) (e : Expr), esize e ≤ n → esize e ≤ m →
    walkPostN n f e = walkPostN m f e := by
  intro n
  induction n with
  | zero => intro m e hn hm; have := esize_pos e; omega
  | succ n ih =>
    intro m e hn hm
    cases m with
    | zero => have := esize_pos e; omega
    | succ m =>
      simp only [walkPostN]
      rw [mapSub_congr fun c hc => ?_]
      have := mem_children_esize hc
      exact ih m c.2 (by omega) (by omega)

/-- The defining equation of the post-order walk. -/
theorem walkPost_eq (f : Expr → Expr) (e : Expr) : walkPost f e = f (mapSub (walkPost f) e) := by
  have h1 : walkPost f e = walkPostN (esize e + 1) f e := walkPostN_stable f _ _ e (Nat.le_refl _) (by omega)
  rw [h1]
  simp only [walkPostN]
  rw [mapSub_congr fun c hc => ?_]
  have := mem_children_esize hc
  exact walkPostN_stable f _ _ _ (by omega) (Nat.le_refl _)

end Tic.Core
