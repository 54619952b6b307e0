import Verif.MeaningSim
/-
Applying functions: lambdas, folds, constructors and built-in functions.
-/
namespace Tic.Front
open Tic.Unify (Symbol IrTy)
open Tic.Core

/-- A branch of a fold belongs to a constructor of the type. -/
theorem foldBranches_inv {fold args out n br} : ∀ {cs g g' bs}, foldBranches fold args out g cs = some (g', bs) → fold < g.names →
    findBranch n bs = some br → ∃ k ∈ cs, ∃ fields, g.ctorFields k.sym = some fields ∧ k.regular = n ∧
      ∃ ns : List Name, ns.Nodup ∧ ns.length = fields.length ∧ fold ∉ ns ∧
        br = .mk n ns (.con k.folded (args ++ [out]) ((fields.zip ns).map fun p => foldField fold p.1 p.2))
  | [], g, g', bs, h, _, hb => by
    simp only [foldBranches, Option.some.injEq, Prod.mk.injEq] at h
    rw [← h.2] at hb
    cases hb
  | k :: cs, g, g', bs, h, hlt, hb => by
    simp only [foldBranches, Option.bind_eq_some_iff, Option.map_eq_some_iff] at h
    obtain ⟨fs, h1, ⟨g2, bs2⟩, h2, h⟩ := h
    cases h
    by_cases hn : k.regular = n
    · subst hn
      simp only [findBranch, Branch.ctor, if_true, Option.some.injEq] at hb
      refine ⟨k, by simp, fs, h1, rfl, (g.freshes fs.length).2, ?_, ?_, ?_, hb.symm⟩
      · rw [freshes_range]; exact List.nodup_range'
      · rw [freshes_range]; simp
      · rw [freshes_range]
        intro hm
        simp only [List.mem_range'_1] at hm
        exact absurd hlt (Nat.not_lt.mpr hm.1)
    · have hb' : findBranch n bs2 = some br := (if_neg hn).symm.trans hb
      obtain ⟨k', hk', fields, h3, h4⟩ := foldBranches_inv h2 (Nat.lt_of_lt_of_le hlt (ext_freshes _ g).names) hb'
      exact ⟨k', by simp [hk'], fields, by rw [(ext_freshes _ g).fields] at h3; exact h3, h4⟩

theorem post_branch {k ρ bs n m fs ns body Q E} (h : findBranch n bs = some (.mk m ns body)) (hb : ns.length = fs.length → Post (eval k (bindAll ρ ns fs) body) Q E) :
    Post (runBranch (eval k) ρ bs n fs) Q E := by
  unfold runBranch
  rw [h]
  show Post (if ns.length = fs.length then eval k (bindAll ρ ns fs) body else .panic) Q E
  split
  · exact hb ‹_›
  · trivial

/-- Folding the recursive fields. -/
theorem sim_folds {M T} {F : SVal} {clo : Val} {fold : Name} {j : Nat} (hF : Rel M T F clo) (ihA : ∀ i, i < j → SimA M T i) {ρ : Env}
    (hfold : lookup fold ρ = .ok clo) : ∀ {fields : List Field} {ns : List Name} {Fs : List SVal} {fs : List Val}, ns.length = fields.length →
    fs.length = fields.length → Fs.length = fs.length → (∀ (i : Nat) n v, ns[i]? = some n → fs[i]? = some v → lookup n ρ = .ok v) →
    (∀ (i : Nat) V v, Fs[i]? = some V → fs[i]? = some v → Rel M T V v) →
    Post (evalList (eval j ρ) ((fields.zip ns).map fun p => foldField fold p.1 p.2))
      (fun ws => ∃ Ws, Folds T F fields Fs (.ok Ws) ∧ Ws.length = ws.length ∧ ∀ (i : Nat) V v, Ws[i]? = some V → ws[i]? = some v → Rel M T V v)
      (fun m => Folds T F fields Fs (.trap m))
  | [], [], [], [], _, _, _, _, _ => ⟨[], .nil, rfl, by simp⟩
  | f :: fields, n :: ns, V :: Fs, v :: fs, h1, h2, h3, h4, h5 => by
    have hv := h4 0 n v rfl rfl
    have hV := h5 0 V v rfl rfl
    have ih := sim_folds hF ihA hfold (fields := fields) (ns := ns) (Fs := Fs) (fs := fs) (by simpa using h1) (by simpa using h2) (by simpa using h3)
      (fun i n v a b => h4 (i + 1) n v (by simpa using a) (by simpa using b)) (fun i n v a b => h5 (i + 1) n v (by simpa using a) (by simpa using b))
    simp only [List.zip_cons_cons, List.map_cons, evalList]
    have hcons : ∀ {W w} {Ws : List SVal} {ws : List Val}, Rel M T W w → Ws.length = ws.length → (∀ (i : Nat) V v, Ws[i]? = some V → ws[i]? = some v → Rel M T V v) →
        (W :: Ws).length = (w :: ws).length ∧ ∀ (i : Nat) V v, (W :: Ws)[i]? = some V → (w :: ws)[i]? = some v → Rel M T V v := by
      intro W w Ws ws hW hl hr
      refine ⟨by simp [hl], fun i V v hV hv => ?_⟩
      cases i with
      | zero =>
        simp only [List.getElem?_cons_zero, Option.some.injEq] at hV hv
        subst hV; subst hv
        exact hW
      | succ i => exact hr i V v (by simpa using hV) (by simpa using hv)
    cases f with
    | ty t =>
      refine Post.bind (post_name hv ?_ j)
      refine Post.bind (ih.mono ?_ fun m hm => .tyR hm)
      rintro ws ⟨Ws, w1, w2, w3⟩
      exact ⟨V :: Ws, .ty w1, hcons hV w2 w3⟩
    | rec_ =>
      refine Post.bind (Q := fun ws => _) ?_
      have hcall : Post (eval j ρ (.call (.name fold) [.name n])) (fun w => ∃ W, Ap T F V (.ok W) ∧ Rel M T W w) (fun m => Ap T F V (.trap m)) := by
        cases j with
        | zero => trivial
        | succ j =>
          refine post_call (QF := fun x => clo = x) (QA := fun x => v = x) (post_name hfold rfl j) (fun _ _ => post_name hv rfl j) ?_
          rintro _ _ rfl rfl
          exact ihA j (Nat.lt_succ_self _) _ _ _ _ hF hV
      refine hcall.mono ?_ fun m hm => .recL hm
      rintro w ⟨W, a1, a2⟩
      refine Post.bind (ih.mono ?_ fun m hm => .recR a1 hm)
      rintro ws ⟨Ws, w1, w2, w3⟩
      exact ⟨W :: Ws, .rec_ a1 w1, hcons a2 w2 w3⟩
  | [], _ :: _, _, _, h1, _, _, _, _ => by simp at h1
  | [], [], _, _ :: _, _, h2, _, _, _ => by simp at h2
  | [], [], _ :: _, [], _, _, h3, _, _ => by simp at h3
  | _ :: _, [], _, _, h1, _, _, _, _ => by simp at h1
  | _ :: _, _ :: _, _, [], _, h2, _, _, _ => by simp at h2
  | _ :: _, _ :: _, [], _ :: _, _, _, h3, _, _ => by simp at h3

/-- Does a fold go over a declared type? -/
theorem overData_named {Δ : List TypeDecl} {vs Γ g a b ta} (hs : ScopeOK Δ vs Γ g) (hw : WfTy Δ vs a) (hf : IrTy.isFolded a = false) (h : genTy g a = some ta) :
    (∃ n as s d, ta = .named n as ∧ declOf Δ s = some d ∧ g.symNames s = some n ∧ overData Δ (.fn a b) = true) ∨
    ((∀ n as, ta ≠ .named n as) ∧ overData Δ (.fn a b) = false) := by
  by_cases hn : ∃ n as, ta = .named n as
  · obtain ⟨n, as, rfl⟩ := hn
    obtain ⟨s, as', d, rfl, hd, hsn⟩ := genTy_named hs hw hf h
    exact .inl ⟨n, as, s, d, rfl, hd, hsn, by simp [overData, hd]⟩
  · refine .inr ⟨fun n as e => hn ⟨n, as, e⟩, ?_⟩
    cases a with
    | named s as =>
      simp only [overData]
      cases hd : declOf Δ s with
      | none => rfl
      | some d =>
        simp only [genTy, hs.gen.notVar s d hd, Option.bind_eq_some_iff, Option.map_eq_some_iff] at h
        obtain ⟨m, -, ts, -, h⟩ := h
        exact absurd ⟨m, ts, h.symm⟩ hn
    | _ => rfl

/-- The arguments of a full application. -/
theorem post_args {M T} {ρ : Env} {j} : ∀ {ns : List Name} {args : List SVal} {v : Nat → Val}, args.length = ns.length →
    (∀ (i : Nat) n, ns[i]? = some n → lookup n ρ = .ok (v i)) → (∀ (i : Nat) A, args[i]? = some A → Rel M T A (v i)) →
    Post (evalList (eval j ρ) (ns.map .name)) (fun ws => args.length = ws.length ∧ ∀ (i : Nat) A w, args[i]? = some A → ws[i]? = some w → Rel M T A w) (fun _ => False)
  | [], [], v, _, _, _ => ⟨rfl, by simp⟩
  | n :: ns, A :: args, v, hl, h, h' => by
    simp only [List.map_cons, evalList]
    refine Post.bind (post_name (h 0 n rfl) ?_ j)
    refine Post.bind ((post_args (ns := ns) (args := args) (v := fun i => v (i + 1)) (by simpa using hl) (fun i n hn => h (i + 1) n (by simpa using hn))
      (fun i A hA => h' (i + 1) A (by simpa using hA))).mono ?_ fun _ h => h)
    rintro ws ⟨w1, w2⟩
    refine ⟨by simp [w1], fun i B w hB hw => ?_⟩
    cases i with
    | zero =>
      simp only [List.getElem?_cons_zero, Option.some.injEq] at hB hw
      subst hB; subst hw
      exact h' 0 A rfl
    | succ i => exact w2 i B w (by simpa using hB) (by simpa using hw)
  | [], _ :: _, _, hl, _, _ => by simp at hl
  | _ :: _, [], _, hl, _, _ => by simp at hl

theorem post_int {M T V} {v : Val} {x} (h : Rel M T V v) (hi : v.intoInt = .ok x) : V = .int x := by
  cases h <;> simp [Val.intoInt] at hi
  rw [hi]

theorem post_str {M T V} {v : Val} {x} (h : Rel M T V v) (hi : v.intoStr = .ok x) : V = .str x := by
  cases h <;> simp [Val.intoStr] at hi
  rw [hi]

theorem post_intoInt {M T V} {v : Val} {Q E} (h : Rel M T V v) (hq : ∀ x, V = .int x → Q x) : Post v.intoInt Q E := by
  cases hi : v.intoInt with
  | ok x => exact hq x (post_int h hi)
  | trap m => cases v <;> simp [Val.intoInt] at hi
  | panic => trivial
  | timeout => trivial

theorem post_intoStr {M T V} {v : Val} {Q E} (h : Rel M T V v) (hq : ∀ x, V = .str x → Q x) : Post v.intoStr Q E := by
  cases hi : v.intoStr with
  | ok x => exact hq x (post_str h hi)
  | trap m => cases v <;> simp [Val.intoStr] at hi
  | panic => trivial
  | timeout => trivial

/-- An intrinsic computes the result of the built-in function. -/
theorem post_intr {M T} {ρ : Env} {j b i} {ns : List Name} {args : List SVal} {v : Nat → Val} (hb : Builtin.intr b = some i) (hn : ns.length = (Head.builtin b).arity)
    (hl : args.length = ns.length) (h : ∀ (i : Nat) n, ns[i]? = some n → lookup n ρ = .ok (v i)) (h' : ∀ (i : Nat) A, args[i]? = some A → Rel M T A (v i)) :
    Post (evalIntr (eval j ρ) i (ns.map .name)) (fun w => ∃ W, (Head.builtin b).result args = some W ∧ Rel M T W w) (fun _ => False) := by
  have one : ∀ (P : Nat), P = 1 → ns.length = P → ∃ n A, ns = [n] ∧ args = [A] := by
    rintro _ rfl h1
    match ns, args, h1, hl with
    | [n], [A], _, _ => exact ⟨n, A, rfl, rfl⟩
  have two : ns.length = 2 → ∃ n m A B, ns = [n, m] ∧ args = [A, B] := by
    intro h1
    match ns, args, h1, hl with
    | [n, m], [A, B], _, _ => exact ⟨n, m, A, B, rfl, rfl⟩
  have three : ns.length = 3 → ∃ n m o A B C, ns = [n, m, o] ∧ args = [A, B, C] := by
    intro h1
    match ns, args, h1, hl with
    | [n, m, o], [A, B, C], _, _ => exact ⟨n, m, o, A, B, C, rfl, rfl⟩
  cases b <;> simp only [Builtin.intr, Option.some.injEq, reduceCtorEq] at hb <;> subst hb <;> simp only [Head.arity] at hn
  · obtain ⟨n, A, rfl, rfl⟩ := one _ rfl hn
    refine Post.bind (post_name (h 0 n rfl) ?_ j)
    refine Post.bind (post_intoStr (h' 0 A rfl) ?_)
    rintro x rfl
    exact ⟨_, rfl, .int⟩
  · obtain ⟨n, m, A, B, rfl, rfl⟩ := two hn
    refine Post.bind (post_name (h 0 n rfl) ?_ j)
    refine Post.bind (post_intoStr (h' 0 A rfl) ?_)
    rintro x rfl
    refine Post.bind (post_name (h 1 m rfl) ?_ j)
    refine Post.bind (post_intoStr (h' 1 B rfl) ?_)
    rintro y rfl
    exact ⟨_, rfl, .str⟩
  · obtain ⟨n, m, A, B, rfl, rfl⟩ := two hn
    refine Post.bind (post_name (h 0 n rfl) ?_ j)
    refine Post.bind (post_intoInt (h' 0 A rfl) ?_)
    rintro x rfl
    refine Post.bind (post_name (h 1 m rfl) ?_ j)
    refine Post.bind (post_intoStr (h' 1 B rfl) ?_)
    rintro y rfl
    exact ⟨_, rfl, .int⟩
  · obtain ⟨n, m, o, A, B, C, rfl, rfl⟩ := three hn
    refine Post.bind (post_name (h 0 n rfl) ?_ j)
    refine Post.bind (post_intoInt (h' 0 A rfl) ?_)
    rintro x rfl
    refine Post.bind (post_name (h 1 m rfl) ?_ j)
    refine Post.bind (post_intoInt (h' 1 B rfl) ?_)
    rintro y rfl
    refine Post.bind (post_name (h 2 o rfl) ?_ j)
    refine Post.bind (post_intoStr (h' 2 C rfl) ?_)
    rintro z rfl
    exact ⟨_, rfl, .str⟩
  · obtain ⟨n, A, rfl, rfl⟩ := one _ rfl hn
    refine Post.bind (post_name (h 0 n rfl) ?_ j)
    refine Post.bind (post_intoInt (h' 0 A rfl) ?_)
    rintro x rfl
    exact ⟨_, rfl, .str⟩
  · obtain ⟨n, A, rfl, rfl⟩ := one _ rfl hn
    refine Post.bind (post_name (h 0 n rfl) ?_ j)
    refine Post.bind (post_intoInt (h' 0 A rfl) ?_)
    rintro x rfl
    exact ⟨_, rfl, .str⟩

/-- The loop of `iterate`. -/
theorem post_loop {M T} {ρ : Env} {n : Name} {F f} (hF : Rel M T F f) (hf : lookup (n + 1) ρ = .ok f) : ∀ {k : Nat}, (∀ j, j < k → SimA M T j) → ∀ {m X x}, Rel M T X x →
    Post (applyFn (eval k) (.rclo ρ (n + 3) [n + 4, n + 5] (.ite (.op (.name (n + 4)) .lessEq (.int 0)) (.name (n + 5))
        (.call (.name (n + 3)) [.op (.name (n + 4)) .subtract (.int 1), .call (.name (n + 1)) [.name (n + 5)]]))) [.int m, x])
      (fun w => ∃ W, Iter T m.toNat F X (.ok W) ∧ Rel M T W w) (fun t => Iter T m.toNat F X (.trap t)) := by
  intro k
  induction k using Nat.strongRecOn with
  | ind k ih =>
  intro ihA m X x hX
  generalize hclo : Val.rclo ρ (n + 3) [n + 4, n + 5] _ = clo
  have happ : ∀ j a b, applyFn (eval j) clo [a, b] = eval j ((n + 3, clo) :: (n + 5, b) :: (n + 4, a) :: ρ) (.ite (.op (.name (n + 4)) .lessEq (.int 0)) (.name (n + 5))
        (.call (.name (n + 3)) [.op (.name (n + 4)) .subtract (.int 1), .call (.name (n + 1)) [.name (n + 5)]])) := by
    intro j a b
    rw [← hclo]
    simp [applyFn, bindAll]
  rw [happ]
  generalize hρ : ((n + 3, clo) :: (n + 5, x) :: (n + 4, Val.int m) :: ρ) = ρ'
  have l1 : lookup (n + 4) ρ' = .ok (.int m) := by rw [← hρ]; simp [lookup]
  have l2 : lookup (n + 5) ρ' = .ok x := by rw [← hρ]; simp [lookup]
  have l3 : lookup (n + 3) ρ' = .ok clo := by rw [← hρ]; simp [lookup]
  have l4 : lookup (n + 1) ρ' = .ok f := by rw [← hρ]; simpa [lookup] using hf
  have hop : ∀ (o : Op) (y : UInt64) (j : Nat), (Post (eval j ρ' (.op (.name (n + 4)) o (.int y))) (fun v => v = evalOp o m y) (fun _ => False)) := by
    intro o y j
    cases j with
    | zero => trivial
    | succ j =>
      rw [eval_op]
      refine Post.bind (post_name l1 ?_ j)
      simp only [Val.intoInt, Res.bind_ok]
      refine Post.bind ?_
      cases j with
      | zero => trivial
      | succ j => rfl
  cases k with
  | zero => trivial
  | succ k =>
  rw [eval_ite]
  refine Post.bind ((hop .lessEq 0 k).mono ?_ fun _ h => h.elim)
  rintro _ rfl
  simp only [evalOp, Val.intoBool, Res.bind_ok]
  by_cases hm : m ≤ 0
  · simp only [hm, decide_true, if_true]
    have h0 : m.toNat = 0 := by
      have := UInt64.le_iff_toNat_le.mp hm
      simpa using this
    rw [h0]
    exact post_name l2 ⟨X, .zero, hX⟩ k
  · simp only [hm, decide_false]
    have h0 : m.toNat = (m - 1).toNat + 1 := by
      have h1 : 1 ≤ m := by
        rw [UInt64.le_iff_toNat_le] at hm ⊢
        simp at hm ⊢
        omega
      rw [UInt64.toNat_sub_of_le _ _ h1]
      rw [UInt64.le_iff_toNat_le] at h1
      simp at h1 ⊢
      omega
    rw [h0]
    show Post (eval k ρ' _) _ _
    cases k with
    | zero => trivial
    | succ k =>
    rw [eval_call]
    refine Post.bind (post_name l3 ?_ k)
    have : clo.isFn = true := by rw [← hclo]; rfl
    simp only [this, if_true, evalList]
    refine Post.bind (Post.bind ((hop .subtract 1 k).mono ?_ fun _ h => h.elim))
    rintro _ rfl
    refine Post.bind (Post.bind ?_)
    have hcall : Post (eval k ρ' (.call (.name (n + 1)) [.name (n + 5)])) (fun w => ∃ W, Ap T F X (.ok W) ∧ Rel M T W w) (fun m => Ap T F X (.trap m)) := by
      cases k with
      | zero => trivial
      | succ j =>
        refine post_call (QF := fun y => f = y) (QA := fun y => x = y) (post_name l4 rfl j) (fun _ _ => post_name l2 rfl j) ?_
        rintro _ _ rfl rfl
        exact ihA j (by omega) _ _ _ _ hF hX
    refine hcall.mono ?_ fun m hm => .succL hm
    rintro w ⟨W, a1, a2⟩
    have := @ih k (by omega) (fun j hj => ihA j (by omega)) (m - 1) _ _ a2
    rw [hclo] at this
    refine this.mono ?_ fun m hm => .succ a1 hm
    rintro u ⟨U, u1, u2⟩
    exact ⟨U, .succ a1 u1, u2⟩

/-- ... needs a number. -/
theorem post_loop_bad {ρ : Env} {n : Name} {k : Nat} {m x : Val} {Q E} (hm : m.intoInt = .panic) :
    Post (applyFn (eval k) (.rclo ρ (n + 3) [n + 4, n + 5] (.ite (.op (.name (n + 4)) .lessEq (.int 0)) (.name (n + 5))
        (.call (.name (n + 3)) [.op (.name (n + 4)) .subtract (.int 1), .call (.name (n + 1)) [.name (n + 5)]]))) [m, x]) Q E := by
  simp only [applyFn, List.length_cons, List.length_nil, if_true, bindAll]
  cases k with
  | zero => trivial
  | succ k =>
  rw [eval_ite]
  refine Post.bind ?_
  cases k with
  | zero => trivial
  | succ k =>
  rw [eval_op]
  refine Post.bind (post_name (v := m) (by simp [lookup]) ?_ k)
  rw [hm]
  trivial

/-- Applying values, from runs of expressions and shorter runs. -/
theorem simA {M T} (hM : Tags M) {k} (ihE : ∀ j, j ≤ k → SimE M T j) (ihA : ∀ j, j < k → SimA M T j) : SimA M T k := by
  intro F f A a hF hA
  cases hF with
  | int => trivial
  | bool => trivial
  | str => trivial
  | comp => trivial
  | @fn Δ vs Γ g p t u body g' c σ ρ V v ks hC ha h hg h1 h2 =>
    have happ : applyFn (eval k) (.clo ρ [g.names] c) [a] = eval k ((g.names, a) :: ρ) c := by simp [applyFn, bindAll]
    rw [happ]
    refine (ihE k (Nat.le_refl _) body (hC.add (ha.2 p (by simp)).2) ha.add h hg ((EnvRel.of h1 h2).add hA)).mono ?_ fun m hm => .fn hm
    rintro w ⟨W, w1, w2⟩
    exact ⟨W, .fn w1, w2⟩
  | @foldFn Δ vs Γ g p ta tb ty1 ty2 body g1 c1 g2 c2 σ ρ V v ks hC ha hw hf h hty e1 e2 h1 h2 =>
    have hself : Rel M T (.foldFn (overData Δ (.fn ta tb)) σ p (body.map (overData Δ))) (.rclo ρ (g.names + 2) [g.names + 1] (.let_ g.names c2 c1)) :=
      .foldFn hC ha hw hf h hty e1 e2 h1 h2
    generalize hclo : Val.rclo ρ (g.names + 2) [g.names + 1] (.let_ g.names c2 c1) = clo at hself
    have happ : applyFn (eval k) clo [a] = eval k ((g.names + 2, clo) :: (g.names + 1, a) :: ρ) (.let_ g.names c2 c1) := by
      rw [← hclo]
      simp [applyFn, bindAll]
    rw [happ]
    have hsd := ha.2 p (by simp)
    have C1 : Code M T Δ vs ((p, mono (.folded ta tb)) :: Γ) (g.genName p).1.fresh.1.fresh.1 :=
      ((hC.add hsd.2).ext (ext_fresh _) (by simp)).ext (ext_fresh _) (by simp)
    have hE := EnvRel.of h1 h2
    have hbody : ∀ j, j ≤ k → ∀ W w, Rel M T W w → Post (eval j ((g.names, w) :: (g.names + 2, clo) :: (g.names + 1, a) :: ρ) c1)
        (fun v => ∃ V, Ev T ((p, W) :: σ) (body.map (overData Δ)) (.ok V) ∧ Rel M T V v) (fun m => Ev T ((p, W) :: σ) (body.map (overData Δ)) (.trap m)) := by
      intro j hj W w hW
      have v1 := ((hE.junk (n := g.names + 1) (x := a) (Nat.le_succ _)).junk (n := g.names + 1 + 1) (x := clo) (Nat.le_succ_of_le (Nat.le_succ _))).add (s := p) (sch := mono (.folded ta tb)) hW
      exact ihE j hj body C1 ha.add h e1 ((v1.ext (ext_fresh _) (by simp)).ext (ext_fresh _) (by simp))
    cases k with
    | zero => trivial
    | succ k =>
    rw [eval_let]
    rcases overData_named (b := tb) hC.scope hw hf hty with ⟨n, as, s, d, rfl, hd, hsn, hov⟩ | ⟨hnn, hov⟩
    · rw [hov] at hself ⊢
      simp only [foldParam, Option.bind_eq_some_iff, Option.map_eq_some_iff] at e2
      obtain ⟨cs, hcs, ⟨g3, bs⟩, hbs, e2⟩ := e2
      cases e2
      have x1 := ext_genExpr body e1
      have htc : g.typeCtors n = some cs := by rw [x1.typeCtors] at hcs; exact hcs
      have hsym := hC.scope.gen.typeCtors_sym hd hsn htc
      cases k with
      | zero => trivial
      | succ k =>
      rw [eval_mtch]
      refine Post.bind (Post.bind (post_name (v := a) (by simp [lookup]) ?_ k))
      cases hA with
      | @comp c cn Fs fs q1 q2 q3 =>
        show Post (runBranch (eval k) _ bs cn fs) _ _
        cases hbr : findBranch cn bs with
        | none =>
          unfold runBranch
          rw [hbr]
          trivial
        | some br =>
          obtain ⟨kc, hkc, fields, hfl, hreg, ns, n1, n2, n3, rfl⟩ := foldBranches_inv hbs (Nat.lt_of_lt_of_le (Nat.lt_succ_self _) x1.names) hbr
          obtain ⟨cd, hcd, hk1, hk2, hk3⟩ := hsym kc hkc
          have hag := hC.names _ _ hk1
          rw [← hk2, hreg] at hag
          have hcc : c = kc.sym := hM _ _ _ q1 (.inl hag.1)
          have hfl' : fields = cd.2 := by
            rw [x1.fields] at hfl
            have : g.ctorFields kc.sym = some fields := hfl
            rw [hk3] at this
            exact (Option.some.inj this).symm
          have hT : T c = some fields := by rw [hcc, hk2, hfl']; exact hC.fields s d hd cd hcd
          refine post_branch hbr fun hl => ?_
          · cases k with
            | zero => trivial
            | succ k =>
            rw [eval_con]
            refine Post.bind ?_
            have hfs : fs.length = fields.length := by rw [← hl, n2]
            refine (sim_folds hself (fun i hi => ihA i (by omega)) (j := k) (fold := g.names + 2) (fields := fields) (ns := ns) (Fs := Fs) (fs := fs) ?_ n2 hfs q2 ?_ q3).mono ?_ fun m hm => .foldL hT hm
            · rw [lookup_bindAll_out n3]
              simp [lookup]
            · intro i nn v hn hv
              exact lookup_bindAll_in n1 hn hv
            · rintro ws ⟨Ws, w1, w2, w3⟩
              split
              · refine (hbody _ (by omega) (.comp c Ws) (.comp kc.folded ws) (.comp (.inr ?_) w2 w3)).mono ?_ fun m hm => .fold hT w1 hm
                · rw [hcc]; exact hag.2
                · rintro u ⟨U, u1, u2⟩
                  exact ⟨U, .fold hT w1 u1, u2⟩
              · trivial
      | _ => trivial
    · rw [hov]
      have hc2 : c2 = .name (g.names + 1) := by
        unfold foldParam at e2
        split at e2
        · exact absurd rfl (hnn _ _)
        · cases e2; rfl
      subst hc2
      refine Post.bind (post_name (v := a) (by simp [lookup]) ?_ k)
      refine (hbody k (by omega) A a hA).mono ?_ fun m hm => .plain hm
      rintro u ⟨U, u1, u2⟩
      exact ⟨U, .plain u1, u2⟩
  | @part h args ρ pre x ps body v hnd hb hl h1 h2 =>
    have happ : applyFn (eval k) (.clo ρ [x] (lams ps body)) [a] = eval k ((x, a) :: ρ) (lams ps body) := by simp [applyFn, bindAll]
    rw [happ]
    have hlen := hb.length
    simp only [List.length_append, List.length_cons, List.length_map] at hlen
    -- the values of all names so far
    let v' : Nat → Val := fun i => if i = pre.length then a else v i
    have g1 : ∀ (i : Nat) n, (pre ++ [x])[i]? = some n → lookup n ((x, a) :: ρ) = .ok (v' i) := by
      intro i n hn
      rcases Nat.lt_trichotomy i pre.length with hi | hi | hi
      · rw [List.getElem?_append_left hi] at hn
        have hne : x ≠ n := by
          rintro rfl
          rw [List.nodup_append] at hnd
          exact hnd.2.2 x (List.mem_of_getElem? hn) x (by simp) rfl
        simp only [lookup, if_neg hne, v', if_neg (Nat.ne_of_lt hi)]
        exact h1 i n hn
      · subst hi
        simp at hn
        subst hn
        simp [lookup, v']
      · rw [List.getElem?_append_right (Nat.le_of_lt hi)] at hn
        have : ([x] : List Name)[i - pre.length]? = none := by simp; omega
        rw [this] at hn
        cases hn
    have g2 : ∀ (i : Nat) B, (args ++ [A])[i]? = some B → Rel M T B (v' i) := by
      intro i n hn
      rcases Nat.lt_trichotomy i args.length with hi | hi | hi
      · rw [List.getElem?_append_left hi] at hn
        simp only [v', if_neg (Nat.ne_of_lt (hl ▸ hi))]
        exact h2 i n hn
      · subst hi
        simp at hn
        subst hn
        simpa [v', hl] using hA
      · rw [List.getElem?_append_right (Nat.le_of_lt hi)] at hn
        have : ([A] : List SVal)[i - args.length]? = none := by simp; omega
        rw [this] at hn
        cases hn
    cases ps with
    | cons p ps =>
      cases k with
      | zero => trivial
      | succ k =>
      show Post (.ok (Val.clo ((x, a) :: ρ) [p.1] (lams ps body))) _ _
      simp only [List.length_cons] at hlen
      refine ⟨.part h (args ++ [A]), .more (by omega), ?_⟩
      have hassoc : pre ++ x :: List.map (·.1) (p :: ps) = (pre ++ [x]) ++ p.1 :: ps.map (·.1) := by simp
      rw [hassoc] at hnd hb
      exact Rel.part hnd hb (by simp [hl]) g1 g2
    | nil =>
      simp only [lams, List.foldr_nil]
      simp only [List.length_nil] at hlen
      have harity : args.length + 1 = h.arity := by omega
      have hl2 : (args ++ [A]).length = (pre ++ [x]).length := by simp [hl]
      simp only [List.map_nil] at hb
      generalize hns : pre ++ [x] = ns at hb g1 hl2
      cases k with
      | zero => trivial
      | succ k =>
      cases hb with
      | @ctor c kk n tys _ hn hk =>
        rw [eval_con]
        refine Post.bind ((post_args hl2 g1 g2 (j := k)).mono ?_ fun _ h => h.elim)
        rintro ws ⟨w1, w2⟩
        split
        · exact ⟨.comp c (args ++ [A]), .full harity rfl, .comp hn w1 w2⟩
        · trivial
      | @intr b i _ hi hk =>
        rw [eval_intr]
        refine (post_intr hi hk hl2 g1 g2).mono ?_ fun _ h => h.elim
        rintro w ⟨W, w1, w2⟩
        exact ⟨W, .full harity w1, w2⟩
      | @iterate n ta =>
        match args, hl2, g2 with
        | [N, F], _, g2 =>
          have r0 := g2 0 N rfl
          have r1 := g2 1 F rfl
          have r2 := g2 2 A rfl
          have l0 := g1 0 n rfl
          have l1 := g1 1 (n + 1) rfl
          have l2 := g1 2 (n + 2) rfl
          generalize hρ : ((x, a) :: ρ) = ρ' at l0 l1 l2
          generalize v' 0 = m at *
          generalize v' 1 = f at *
          generalize v' 2 = y at *
          unfold iterateLoop
          rw [eval_letrec]
          simp only [recLam, stripPis, List.map_cons, List.map_nil]
          cases k with
          | zero => trivial
          | succ k =>
          rw [eval_call]
          refine Post.bind (post_name (by simp [lookup]; rfl) ?_ k)
          simp only [Val.isFn, if_true]
          refine Post.bind ?_
          simp only [evalList]
          refine Post.bind (post_name (v := m) (by simpa [lookup] using l0) ?_ k)
          refine Post.bind (Post.bind (post_name (v := y) (by simpa [lookup] using l2) ?_ k))
          simp only [Res.bind_ok]
          cases r0 with
          | @int m =>
            refine (post_loop r1 l1 (fun j hj => ihA j (by omega)) r2 (k := k)).mono ?_ fun t ht => .iterate ht
            rintro w ⟨W, w1, w2⟩
            exact ⟨W, .iterate w1, w2⟩
          | _ => exact post_loop_bad rfl
        | [], h, _ => simp at h
        | [_], h, _ => simp at h
        | _ :: _ :: _ :: _, h, _ => simp at h

/-- Runs of any length. -/
theorem sim {M T} (hM : Tags M) : ∀ k, SimE M T k ∧ SimA M T k := by
  intro k
  induction k using Nat.strongRecOn with
  | ind k ih =>
    have h1 : SimE M T k := fun e => simE hM (fun j hj => (ih j hj).1) (fun j hj => (ih j hj).2) e
    refine ⟨h1, simA hM (fun j hj => ?_) fun j hj => (ih j hj).2⟩
    rcases Nat.lt_or_eq_of_le hj with h | rfl
    · exact (ih j h).1
    · exact h1

end Tic.Front
