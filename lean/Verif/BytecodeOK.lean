import Verif.Bytecode
import Verif.LambdaSim
/-
The bytecode compiler never panics on well-named programs, and what it produces.
-/
namespace Tic.Core

/-! ## Static requirements -/

/-- Intrinsics have as many arguments as they need, and a recursive function calls itself (by its bare
name) with as many arguments as it has parameters.  Both hold of programs that type-check. -/
structure BcShape (e : Expr) : Prop where
  intr : ∀ i xs, SubE (.intr i xs) e → xs.length = i.arity
  self_ : ∀ x ty v b ps e', SubE (.letrec x ty v e') e → recLam v = some (ps, b) →
    ∀ xs, SubE (.call (.name x) xs) b → xs.length = ps.length

theorem BcShape.child {e : Expr} (h : BcShape e) {c : List Name × Expr} (hc : c ∈ children e) : BcShape c.2 :=
  ⟨fun i xs hs => h.intr i xs (.step hc hs), fun x ty v b ps e' hs => h.self_ x ty v b ps e' (.step hc hs)⟩

theorem SubE.trans {a b c : Expr} (h : SubE a b) (h' : SubE b c) : SubE a c := by
  induction h' with
  | refl => exact h
  | step hc _ ih => exact .step hc ih

theorem BcShape.sub {e e' : Expr} (h : BcShape e) (hs : SubE e' e) : BcShape e' :=
  ⟨fun i xs h' => h.intr i xs (h'.trans hs), fun x ty v b ps e' h' => h.self_ x ty v b ps e' (h'.trans hs)⟩

/-- Calls of the function being compiled have the right number of arguments. -/
def CxOK (cx : FnCx) (e : Expr) : Prop :=
  ∀ f, cx.rec? = some f → ∀ xs, SubE (.call (.name f) xs) e → xs.length = cx.params.length

theorem CxOK.child {cx : FnCx} {e : Expr} (h : CxOK cx e) {c : List Name × Expr} (hc : c ∈ children e) : CxOK cx c.2 :=
  fun f hf xs hs => h f hf xs (.step hc hs)

/-! ## Free variables -/

theorem recLam_sub : ∀ {v : Expr} {ps : List Name} {b : Expr}, recLam v = some (ps, b) → SubE b v
  | .pi a v, ps, b, h => .step (c := ([], v)) (by simp [children]) (recLam_sub (v := v) (by simpa [recLam, stripPis] using h))
  | .lam qs b', ps, b, h => by
    simp only [recLam, stripPis, Option.some.injEq, Prod.mk.injEq] at h
    rw [← h.2]
    exact .step (c := (qs.map (·.1), b')) (by simp [children]) .refl
  | .bool _, _, _, h => by simp [recLam, stripPis] at h
  | .int _, _, _, h => by simp [recLam, stripPis] at h
  | .str _, _, _, h => by simp [recLam, stripPis] at h
  | .name _, _, _, h => by simp [recLam, stripPis] at h
  | .call _ _, _, _, h => by simp [recLam, stripPis] at h
  | .ite _ _ _, _, _, h => by simp [recLam, stripPis] at h
  | .op _ _ _, _, _, h => by simp [recLam, stripPis] at h
  | .intr _ _, _, _, h => by simp [recLam, stripPis] at h
  | .mtch _ _, _, _, h => by simp [recLam, stripPis] at h
  | .con _ _ _, _, _, h => by simp [recLam, stripPis] at h
  | .let_ _ _ _, _, _, h => by simp [recLam, stripPis] at h
  | .letrec _ _ _ _, _, _, h => by simp [recLam, stripPis] at h
  | .piApp _ _, _, _, h => by simp [recLam, stripPis] at h
  | .trap _ _, _, _, h => by simp [recLam, stripPis] at h

theorem mem_bcUsedL {x : Name} : ∀ {es : List Expr}, x ∈ bcUsedL es ↔ ∃ e ∈ es, x ∈ bcUsed e
  | [] => by simp [bcUsedL]
  | e :: es => by simp [bcUsedL, mem_bcUsedL (es := es)]

theorem mem_bcUsedB {x : Name} : ∀ {bs : List Branch}, x ∈ bcUsedB bs ↔ ∃ b ∈ bs, x ∈ bcUsed b.body
  | [] => by simp [bcUsedB]
  | .mk c ns e :: bs => by simp [bcUsedB, mem_bcUsedB (bs := bs), Branch.body]

theorem mem_bcDefinedL {x : Name} : ∀ {es : List Expr}, x ∈ bcDefinedL es ↔ ∃ e ∈ es, x ∈ bcDefined e
  | [] => by simp [bcDefinedL]
  | e :: es => by simp [bcDefinedL, mem_bcDefinedL (es := es)]

theorem mem_bcDefinedB {x : Name} : ∀ {bs : List Branch}, x ∈ bcDefinedB bs ↔
    ∃ b ∈ bs, x ∈ b.binds ∨ x ∈ bcDefined b.body
  | [] => by simp [bcDefinedB]
  | .mk c ns e :: bs => by simp [bcDefinedB, mem_bcDefinedB (bs := bs), Branch.body, Branch.binds, or_assoc]

theorem ex_map {α β : Type} {f : α → β} {P : β → Prop} {l : List α} : (∃ c, c ∈ l.map f ∧ P c) ↔ ∃ a, a ∈ l ∧ P (f a) := by
  simp only [List.mem_map]
  constructor
  · rintro ⟨c, ⟨a, h, rfl⟩, hp⟩; exact ⟨a, h, hp⟩
  · rintro ⟨a, h, hp⟩; exact ⟨_, ⟨a, h, rfl⟩, hp⟩

theorem ex_cons {α : Type} {P : α → Prop} {x : α} {l : List α} : (∃ c, c ∈ x :: l ∧ P c) ↔ P x ∨ ∃ a, a ∈ l ∧ P a := by
  simp

/-- uses, by children -/
theorem mem_bcUsed {x : Name} (e : Expr) : x ∈ bcUsed e ↔ e = .name x ∨ ∃ c ∈ children e, x ∈ bcUsed c.2 := by
  cases e <;> simp [bcUsed, children, mem_bcUsedL, mem_bcUsedB, ex_map, -List.mem_map, eq_comm, -Prod.exists]

/-- definitions, by children -/
theorem mem_bcDefined {x : Name} (e : Expr) : x ∈ bcDefined e ↔ x ∈ own e ∨ ∃ c ∈ children e, x ∈ bcDefined c.2 := by
  cases e with
  | mtch d bs =>
    simp only [bcDefined, List.mem_append, mem_bcDefinedB, own, List.mem_flatMap, children, List.mem_cons, List.mem_map]
    constructor
    · rintro (h | ⟨b, hb, h | h⟩)
      · exact .inr ⟨_, .inl rfl, h⟩
      · exact .inl ⟨b, hb, h⟩
      · exact .inr ⟨_, .inr ⟨b, hb, rfl⟩, h⟩
    · rintro (⟨b, hb, h⟩ | ⟨c, rfl | ⟨b, hb, rfl⟩, h⟩)
      · exact .inr ⟨b, hb, .inl h⟩
      · exact .inl h
      · exact .inr ⟨b, hb, .inr h⟩
  | _ => simp [bcDefined, children, own, mem_bcDefinedL, ex_map, -List.mem_map, -Prod.exists]

theorem bcDefined_cnt {x : Name} (e : Expr) : x ∈ bcDefined e ↔ 0 < cnt x e := by
  induction e using Expr.strong with
  | _ e ih =>
    rw [mem_bcDefined, cnt_eq]
    constructor
    · rintro (h | ⟨c, hc, h⟩)
      · have := List.count_pos_iff.2 h; omega
      · have := (ih c.2 (mem_children_size hc)).1 h
        have := le_sum_map (fun c : List Name × Expr => cnt x c.2) hc
        omega
    · intro h
      by_cases h0 : x ∈ own e
      · exact .inl h0
      · rw [List.count_eq_zero.2 h0, Nat.zero_add] at h
        right
        by_cases h1 : ∃ c ∈ children e, 0 < cnt x c.2
        · obtain ⟨c, hc, hp⟩ := h1
          exact ⟨c, hc, (ih c.2 (mem_children_size hc)).2 hp⟩
        · exfalso
          have : ((children e).map fun c => cnt x c.2).sum = 0 := by
            rw [List.sum_eq_zero_iff_forall_eq_nat]
            intro n hn
            obtain ⟨c, hc, rfl⟩ := List.mem_map.1 hn
            exact Nat.eq_zero_of_not_pos fun hp => h1 ⟨c, hc, hp⟩
          omega

theorem free_used {x : Name} (e : Expr) (h : Free x e) : x ∈ bcUsed e := by
  induction e using Expr.strong with
  | _ e ih =>
    rw [mem_bcUsed]
    rcases free_iff.1 h with h | ⟨c, hc, _, hf⟩
    · exact .inl h
    · exact .inr ⟨c, hc, ih c.2 (mem_children_size hc) hf⟩

theorem used_free {x : Name} (e : Expr) (h : x ∈ bcUsed e) (hd : x ∉ bcDefined e) : Free x e := by
  induction e using Expr.strong with
  | _ e ih =>
    rw [mem_bcUsed] at h
    rw [mem_bcDefined] at hd
    rcases h with h | ⟨c, hc, hf⟩
    · exact free_iff.2 (.inl h)
    · exact free_iff.2 (.inr ⟨c, hc, fun h => hd (.inl (own_of_scope hc h)),
        ih c.2 (mem_children_size hc) hf fun h => hd (.inr ⟨c, hc, h⟩)⟩)

theorem mem_retainNew {x : Name} : ∀ {xs seen : List Name}, x ∈ retainNew seen xs ↔ x ∈ xs ∧ x ∉ seen
  | [], seen => by simp [retainNew]
  | y :: ys, seen => by
    rw [retainNew]
    split
    · rename_i hy
      rw [mem_retainNew]
      simp only [List.mem_cons]
      constructor
      · rintro ⟨h, h'⟩; exact ⟨.inr h, h'⟩
      · rintro ⟨h | h, h'⟩
        · exact absurd (h ▸ hy) h'
        · exact ⟨h, h'⟩
    · rename_i hy
      simp only [List.mem_cons, mem_retainNew, not_or]
      constructor
      · rintro (h | ⟨h, _, h'⟩)
        · exact ⟨.inl h, h ▸ hy⟩
        · exact ⟨.inr h, h'⟩
      · rintro ⟨h | h, h'⟩
        · exact .inl h
        · by_cases e : x = y
          · exact .inl e
          · exact .inr ⟨h, e, h'⟩

theorem nodup_retainNew : ∀ (xs seen : List Name), (retainNew seen xs).Nodup
  | [], _ => by rw [retainNew]; exact List.nodup_nil
  | y :: ys, seen => by
    rw [retainNew]
    split
    · exact nodup_retainNew ys seen
    · refine List.nodup_cons.2 ⟨fun h => ?_, nodup_retainNew ys _⟩
      exact (mem_retainNew.1 h).2 (by simp)

/-- Captured names are exactly the free names. -/
theorem mem_bcFree {X : List Name} {e : Expr} (hg : Good X e) {x : Name} : x ∈ bcFree e ↔ Free x e := by
  rw [bcFree, mem_retainNew]
  constructor
  · exact fun h => used_free e h.1 h.2
  · intro h
    refine ⟨free_used e h, fun hd => ?_⟩
    have := hg.disj x (hg.scope x h)
    have := (bcDefined_cnt e).1 hd
    omega

theorem nodup_bcFree (e : Expr) : (bcFree e).Nodup := nodup_retainNew _ _

/-! ## Stack layout -/

@[simp] theorem CS.grow_size (s : CS) (k : Nat) : (s.grow k).size = s.size + k := rfl
@[simp] theorem CS.grow_next (s : CS) (k : Nat) : (s.grow k).next = s.next := rfl
@[simp] theorem CS.grow_fns (s : CS) (k : Nat) : (s.grow k).fns = s.fns := rfl
@[simp] theorem CS.grow_depths (s : CS) (k : Nat) : (s.grow k).depths = s.depths := rfl

theorem CS.shrink_ok {s : CS} {k : Nat} (h : k ≤ s.size) : s.shrink k = some { s with size := s.size - k } := if_pos h

theorem CS.define_ok {s : CS} {x : Name} (h : 1 ≤ s.size) :
    s.define x = some { s with depths := (x, s.size - 1) :: s.depths } := if_pos h

/-- The names `xs` are in the slots from `a` on. -/
def Slots (d : List (Name × Nat)) (a : Nat) (xs : List Name) : Prop :=
  ∀ (i : Nat) x, xs[i]? = some x → assoc x d = some (a + i)

theorem bindAll_ok : ∀ (xs : List Name) (s : CS), xs.Nodup → ∃ s', s.bindAll xs = some s' ∧
    s'.size = s.size + xs.length ∧ s'.next = s.next ∧ s'.fns = s.fns ∧
    (∀ x, x ∉ xs → assoc x s'.depths = assoc x s.depths) ∧ Slots s'.depths s.size xs
  | [], s, _ => ⟨s, rfl, rfl, rfl, rfl, fun _ _ => rfl, fun i x h => by simp at h⟩
  | y :: ys, s, hn => by
    have hd : (s.grow 1).define y = some { s.grow 1 with depths := (y, s.size) :: s.depths } := by
      rw [CS.define_ok (by simp)]
      simp
    obtain ⟨s', h1, h2, h3, h4, h5, h6⟩ := bindAll_ok ys { s.grow 1 with depths := (y, s.size) :: s.depths }
      (List.nodup_cons.1 hn).2
    refine ⟨s', by rw [CS.bindAll, hd, Option.bind_some, h1], ?_, h3, h4, ?_, ?_⟩
    · simp only [h2, List.length_cons, CS.grow_size]; omega
    · intro x hx
      rw [List.mem_cons, not_or] at hx
      rw [h5 x hx.2]
      simp only [assoc]
      rw [if_neg (Ne.symm hx.1)]
    · intro i x hx
      cases i with
      | zero =>
        simp only [List.getElem?_cons_zero, Option.some.injEq] at hx
        subst hx
        rw [h5 _ (List.nodup_cons.1 hn).1]
        simp [assoc]
      | succ i =>
        rw [List.getElem?_cons_succ] at hx
        rw [h6 i x hx]
        simp only [CS.grow_size]
        congr 1
        omega

theorem bindAll_inv {xs : List Name} {s s' : CS} (hn : xs.Nodup) (h : s.bindAll xs = some s') :
    s'.size = s.size + xs.length ∧ s'.next = s.next ∧ s'.fns = s.fns ∧
    (∀ x, x ∉ xs → assoc x s'.depths = assoc x s.depths) ∧ Slots s'.depths s.size xs := by
  obtain ⟨t, h1, h2⟩ := bindAll_ok xs s hn
  rw [h] at h1
  cases h1
  exact h2

/-- The layout of the frame of a function. -/
structure FnLayout (next : Nat) (fns : List (List BOp)) (ps : List Name) (r : Option Name) (caps : List Name)
    (st : CS) : Prop where
  next : st.next = next
  fns : st.fns = fns
  size : st.size = ps.length + 2 + caps.length
  params : Slots st.depths 0 ps
  rec_ : ∀ n, r = some n → assoc n st.depths = some ps.length
  caps : Slots st.depths (ps.length + 2) caps

theorem fnStart_ok {next : Nat} {fns : List (List BOp)} {ps caps : List Name} {r : Option Name}
    (hn : (ps ++ (r.toList ++ caps)).Nodup) :
    ∃ st, fnStart next fns ps r caps = some st ∧ FnLayout next fns ps r caps st := by
  obtain ⟨hp, hrc, hd⟩ := List.nodup_append.1 hn
  obtain ⟨_, hc, hd'⟩ := List.nodup_append.1 hrc
  obtain ⟨s1, a1, a2, a3, a4, a5, a6⟩ := bindAll_ok ps ⟨next, fns, 0, 0, []⟩ hp
  cases r with
  | none =>
    obtain ⟨s2, b1, b2, b3, b4, b5, b6⟩ := bindAll_ok caps ((s1.grow 1).grow 1) hc
    refine ⟨s2, ?_, by simp [b3, a3], by simp [b4, a4], ?_, ?_, (fun n h => nomatch h), ?_⟩
    · rw [fnStart, a1]; simp only [Option.bind_some]; exact b1
    · simp only [b2, CS.grow_size, a2]; omega
    · intro i x hx
      rw [b5 x fun h => hd x (List.mem_of_getElem? hx) x (by simp [h]) rfl]
      exact a6 i x hx
    · have : ((s1.grow 1).grow 1).size = ps.length + 2 := by simp [a2]
      rwa [this] at b6
  | some n =>
    have hdef : (s1.grow 1).define n = some { s1.grow 1 with depths := (n, ps.length) :: s1.depths } := by
      rw [CS.define_ok (by simp)]
      simp [a2]
    obtain ⟨s2, b1, b2, b3, b4, b5, b6⟩ := bindAll_ok caps
      (CS.grow { s1.grow 1 with depths := (n, ps.length) :: s1.depths } 1) hc
    have hnc : n ∉ caps := fun h => hd' n (by simp) n h rfl
    refine ⟨s2, ?_, by simp [b3, a3], by simp [b4, a4], ?_, ?_, ?_, ?_⟩
    · rw [fnStart, a1]; simp only [Option.bind_some]; rw [hdef]; exact b1
    · simp only [b2, CS.grow_size, a2]; omega
    · intro i x hx
      have hxm := List.mem_of_getElem? hx
      rw [b5 x fun h => hd x hxm x (by simp [h]) rfl]
      simp only [CS.grow_depths, assoc]
      rw [if_neg (fun (e : n = x) => hd x hxm n (by simp) e.symm)]
      exact a6 i x hx
    · intro m hm
      cases hm
      rw [b5 _ hnc]
      simp [assoc]
    · have : (CS.grow { s1.grow 1 with depths := (n, ps.length) :: s1.depths } 1).size = ps.length + 2 := by
        simp [a2]
      rwa [this] at b6

theorem fnStart_inv {next : Nat} {fns : List (List BOp)} {ps caps : List Name} {r : Option Name} {st : CS}
    (hn : (ps ++ (r.toList ++ caps)).Nodup) (h : fnStart next fns ps r caps = some st) :
    FnLayout next fns ps r caps st := by
  obtain ⟨t, h1, h2⟩ := fnStart_ok (next := next) (fns := fns) hn
  rw [h] at h1
  cases h1
  exact h2

/-! ## What compiled code looks like -/

/-- Labels an operation refers to. -/
def BOp.refs : BOp → List Nat
  | .jump l => [l]
  | .jumpIfFalse l => [l]
  | .closure l _ => [l]
  | .branch t => t.map (·.2.1)
  | _ => []

/-- `l` is referred to in `ops`. -/
def Ref (l : Nat) (ops : List BOp) : Prop := ∃ o ∈ ops, l ∈ o.refs

/-- Labels and functions emitted by compiling something: label numbers are used once, and every label
that is referred to is defined, in the code itself or as (part of) a function. -/
structure Emit (cx : FnCx) (n : Nat) (F : List (List BOp)) (code : List BOp) (n' : Nat) (F' : List (List BOp)) : Prop where
  next : n ≤ n'
  fns : F <+: F'
  labels : ∀ l, code.count (.label l) + F'.flatten.count (.label l) ≤
    F.flatten.count (.label l) + (if n ≤ l ∧ l < n' then 1 else 0)
  refs : ∀ l, Ref l code → .label l ∈ code ∨ .label l ∈ F'.flatten ∨ (l = cx.tailEntry ∧ cx.rec?.isSome = true)
  fnrefs : (∀ l, Ref l F.flatten → .label l ∈ F.flatten) → ∀ l, Ref l F'.flatten → .label l ∈ F'.flatten

theorem mem_flatten_prefix {F F' : List (List BOp)} (h : F <+: F') {o : BOp} (ho : o ∈ F.flatten) : o ∈ F'.flatten := by
  obtain ⟨t, rfl⟩ := h
  rw [List.flatten_append]
  exact List.mem_append_left _ ho

theorem Ref.append {l : Nat} {a b : List BOp} : Ref l (a ++ b) ↔ Ref l a ∨ Ref l b := by
  simp only [Ref, List.mem_append]
  constructor
  · rintro ⟨o, h | h, hl⟩
    · exact .inl ⟨o, h, hl⟩
    · exact .inr ⟨o, h, hl⟩
  · rintro (⟨o, h, hl⟩ | ⟨o, h, hl⟩)
    · exact ⟨o, .inl h, hl⟩
    · exact ⟨o, .inr h, hl⟩

theorem Ref.cons {l : Nat} {o : BOp} {b : List BOp} : Ref l (o :: b) ↔ l ∈ o.refs ∨ Ref l b := by
  simp [Ref]

theorem Ref.nil {l : Nat} : ¬ Ref l [] := by simp [Ref]

theorem Emit.seq {cx n F c n' F' c2 n2 F2} (h : Emit cx n F c n' F') (h' : Emit cx n' F' c2 n2 F2) :
    Emit cx n F (c ++ c2) n2 F2 := by
  refine ⟨Nat.le_trans h.next h'.next, h.fns.trans h'.fns, fun l => ?_, fun l hl => ?_, fun hF => h'.fnrefs (h.fnrefs hF)⟩
  · have h1 := h.labels l
    have h2 := h'.labels l
    have := h.next
    have := h'.next
    rw [List.count_append]
    split at h1 <;> split at h2 <;> split <;> omega
  · rw [List.mem_append]
    rcases Ref.append.1 hl with hl | hl
    · rcases h.refs l hl with h1 | h1 | h1
      · exact .inl (.inl h1)
      · exact .inr (.inl (mem_flatten_prefix h'.fns h1))
      · exact .inr (.inr h1)
    · rcases h'.refs l hl with h1 | h1 | h1
      · exact .inl (.inr h1)
      · exact .inr (.inl h1)
      · exact .inr (.inr h1)

/-- Operations that neither are labels nor refer to labels. -/
def Plain (ops : List BOp) : Prop := ∀ o ∈ ops, o.refs = [] ∧ ∀ l, o ≠ .label l

theorem Plain.count {ops : List BOp} (h : Plain ops) (l : Nat) : ops.count (.label l) = 0 :=
  List.count_eq_zero.2 fun hl => (h _ hl).2 l rfl

theorem Plain.ref {ops : List BOp} (h : Plain ops) (l : Nat) : ¬ Ref l ops := by
  rintro ⟨o, ho, hl⟩
  rw [(h o ho).1] at hl
  cases hl

theorem Emit.plain {cx n F ops} (h : Plain ops) : Emit cx n F ops n F :=
  ⟨Nat.le_refl _, List.prefix_refl _, fun l => by rw [h.count]; omega, fun l hl => absurd hl (h.ref l), fun h => h⟩

theorem Plain.single {o : BOp} (h1 : o.refs = []) (h2 : ∀ l, o ≠ .label l) : Plain [o] := by
  intro o' ho
  rw [List.mem_singleton] at ho
  subst ho
  exact ⟨h1, h2⟩

theorem Plain.append {a b : List BOp} (ha : Plain a) (hb : Plain b) : Plain (a ++ b) := by
  intro o ho
  rcases List.mem_append.1 ho with h | h
  · exact ha o h
  · exact hb o h

/-- What compiling something that pushes `k` values does. -/
structure Post (k : Nat) (bs : List Name) (cx : FnCx) (s : CS) (code : List BOp) (s' : CS) : Prop where
  size : s'.size = s.size + k
  depths : ∀ x, x ∉ bs → assoc x s'.depths = assoc x s.depths
  emit : Emit cx s.next s.fns code s'.next s'.fns

/-- The names in scope have slots. -/
def InS (X : List Name) (s : CS) : Prop := ∀ x ∈ X, ∃ a, assoc x s.depths = some a ∧ a < s.size

/-- The parameters of the function being compiled are in its first slots. -/
def CxInv (cx : FnCx) (s : CS) : Prop :=
  cx.rec?.isSome = true → cx.params.Nodup ∧ cx.params.length ≤ cx.entrySize ∧ cx.entrySize ≤ s.size ∧ Slots s.depths 0 cx.params

theorem InS.post {X bs k cx s code s'} (h : InS X s) (hp : Post k bs cx s code s') (hd : ∀ x ∈ X, x ∉ bs) : InS X s' := by
  intro x hx
  obtain ⟨a, h1, h2⟩ := h x hx
  exact ⟨a, by rw [hp.depths x (hd x hx), h1], by rw [hp.size]; omega⟩

theorem CxInv.post {bs k cx s code s'} (h : CxInv cx s) (hp : Post k bs cx s code s')
    (hd : cx.rec?.isSome = true → ∀ x ∈ cx.params, x ∉ bs) : CxInv cx s' := by
  intro hr
  obtain ⟨h0, h1, h2, h3⟩ := h hr
  refine ⟨h0, h1, by rw [hp.size]; omega, fun i x hx => ?_⟩
  rw [hp.depths x (hd hr x (List.mem_of_getElem? hx))]
  exact h3 i x hx

theorem Post.seq {k k' bs bs' cx s c s' c' s''} (h : Post k bs cx s c s') (h' : Post k' bs' cx s' c' s'') :
    Post (k + k') (bs ++ bs') cx s (c ++ c') s'' := by
  refine ⟨by rw [h'.size, h.size]; omega, fun x hx => ?_, h.emit.seq h'.emit⟩
  rw [List.mem_append, not_or] at hx
  rw [h'.depths x hx.2, h.depths x hx.1]

/-! ## Variables -/

theorem pickVar_ok {x : Name} {s : CS} {a : Nat} (h : assoc x s.depths = some a) (ha : a < s.size) :
    s.pickVar x = some ([.pick (s.size - a - 1)], s.grow 1) := by
  rw [CS.pickVar, h, Option.bind_some, if_pos (by omega)]

theorem pickVars_ok : ∀ (xs : List Name) (s : CS), (∀ x ∈ xs, ∃ a, assoc x s.depths = some a ∧ a < s.size) →
    ∃ code s', CS.pickVars xs s = some (code, s') ∧ s'.size = s.size + xs.length ∧ s'.next = s.next ∧
      s'.fns = s.fns ∧ s'.depths = s.depths ∧ Plain code
  | [], s, _ => ⟨[], s, rfl, rfl, rfl, rfl, rfl, (fun _ h => nomatch h)⟩
  | x :: xs, s, h => by
    obtain ⟨a, h1, h2⟩ := h x (by simp)
    obtain ⟨code, s', g1, g2, g3, g4, g5, g6⟩ := pickVars_ok xs (s.grow 1) (fun y hy => by
      obtain ⟨b, hb, hb'⟩ := h y (by simp [hy])
      exact ⟨b, hb, Nat.lt_succ_of_lt hb'⟩)
    refine ⟨_, s', by rw [CS.pickVars, pickVar_ok h1 h2, Option.bind_some, g1]; rfl, ?_, g3, g4, g5, ?_⟩
    · rw [g2, List.length_cons, CS.grow_size]; omega
    · exact (Plain.single rfl (by simp)).append g6

theorem setVars_ok (E : Nat) : ∀ (xs : List Name) (s : CS), (∀ x ∈ xs, ∃ a, assoc x s.depths = some a ∧ a < E) →
    E + xs.length ≤ s.size →
    ∃ code s', CS.setVars xs s = some (code, s') ∧ s'.size = s.size - xs.length ∧ s'.next = s.next ∧
      s'.fns = s.fns ∧ s'.depths = s.depths ∧ Plain code
  | [], s, _, _ => ⟨[], s, rfl, rfl, rfl, rfl, rfl, (fun _ h => nomatch h)⟩
  | x :: xs, s, h, hs => by
    rw [List.length_cons] at hs
    obtain ⟨a, h1, h2⟩ := h x (by simp)
    obtain ⟨code, s', g1, g2, g3, g4, g5, g6⟩ := setVars_ok E xs { s with size := s.size - 1 }
      (fun y hy => h y (by simp [hy])) (by simp only; omega)
    have hset : s.setVar x = some ([.set (s.size - a - 1 - 1)], { s with size := s.size - 1 }) := by
      rw [CS.setVar, h1, Option.bind_some, if_pos (by omega), CS.shrink_ok (by omega)]; rfl
    refine ⟨_, s', by rw [CS.setVars, hset, Option.bind_some, g1]; rfl, ?_, g3, g4, g5, ?_⟩
    · rw [g2, List.length_cons]; simp only; omega
    · exact (Plain.single rfl (by simp)).append g6

/-! ## Functions -/

/-- The code of a function. -/
def fnCode (entry tce nps ncaps usage : Nat) (body : List BOp) : List BOp :=
  [.label entry, .enter ncaps usage, .label tce] ++ (body ++ [.ret nps ncaps])

theorem count_fnCode {entry tce nps ncaps usage : Nat} {body : List BOp} {l : Nat} :
    (fnCode entry tce nps ncaps usage body).count (.label l) =
      (if entry = l then 1 else 0) + (if tce = l then 1 else 0) + body.count (.label l) := by
  simp only [fnCode, List.count_append, List.count_cons, List.count_nil, beq_iff_eq, reduceCtorEq, if_false,
    BOp.label.injEq]
  omega

theorem mem_label_fnCode {entry tce nps ncaps usage : Nat} {body : List BOp} {l : Nat} :
    .label l ∈ fnCode entry tce nps ncaps usage body ↔ l = entry ∨ l = tce ∨ .label l ∈ body := by
  simp [fnCode]

theorem ref_fnCode {entry tce nps ncaps usage : Nat} {body : List BOp} {l : Nat} :
    Ref l (fnCode entry tce nps ncaps usage body) ↔ Ref l body := by
  simp [fnCode, Ref.append, Ref.cons, BOp.refs, Ref.nil]

/-- Emitting a function. -/
theorem emit_fn {cx : FnCx} {E : Nat} {ps : List Name} {r : Option Name} {n n1 : Nat} {F F1 : List (List BOp)}
    {body code : List BOp} {nps ncaps usage : Nat} (h : Emit ⟨E, n + 1, ps, r⟩ (n + 2) F body n1 F1)
    (hc : ∀ l, code.count (.label l) = 0) (hr : ∀ l, Ref l code → l = n) :
    Emit cx n F code n1 (F1 ++ [fnCode n (n + 1) nps ncaps usage body]) := by
  have hn := h.next
  refine ⟨by omega, h.fns.trans (List.prefix_append _ _), fun l => ?_, fun l hl => ?_, fun hF l hl => ?_⟩
  · have := h.labels l
    rw [hc, List.flatten_append, List.count_append]
    simp only [List.flatten_cons, List.flatten_nil, List.append_nil, count_fnCode]
    split at this <;> split <;> split <;> split <;> omega
  · right; left
    rw [List.flatten_append, List.mem_append, hr l hl]
    right
    simp [mem_label_fnCode]
  · rw [List.flatten_append, List.mem_append]
    simp only [List.flatten_cons, List.flatten_nil, List.append_nil, mem_label_fnCode]
    rw [List.flatten_append, Ref.append] at hl
    simp only [List.flatten_cons, List.flatten_nil, List.append_nil, ref_fnCode] at hl
    rcases hl with hl | hl
    · exact .inl (h.fnrefs hF l hl)
    · rcases h.refs l hl with h1 | h1 | h1
      · exact .inr (.inr (.inr h1))
      · exact .inl h1
      · exact .inr (.inr (.inl h1.1))

/-- `fnEnd` succeeds. -/
theorem fnEnd_ok {entry tce nps ncaps : Nat} {st : CS} {b : List BOp × CS} (h : b.2.size = nps + 2 + ncaps + 1) :
    fnEnd entry tce nps ncaps st b = some (fnCode entry tce nps ncaps (b.2.maxSize - st.size + ncaps) b.1) := by
  rw [fnEnd, CS.shrink_ok (by omega), Option.bind_some, if_pos (by simp only; omega)]
  rfl

/-! ## Compiling never panics -/

/-- Parameters of the function being compiled are in scope. -/
def CxX (cx : FnCx) (X : List Name) : Prop := cx.rec?.isSome = true → ∀ p ∈ cx.params, p ∈ X

/-- `e` compiles. -/
def CompOK (cx : FnCx) (tail : Bool) (X : List Name) (e : Expr) : Prop :=
  ∀ s, InS X s → CxInv cx s → ∃ code s', comp cx tail e s = some (code, s') ∧ Post 1 (bcDefined e) cx s code s'

theorem Good.notDefined {X : List Name} {e : Expr} (h : Good X e) {x : Name} (hx : x ∈ X) : x ∉ bcDefined e := fun hd => by
  have := h.disj x hx
  have := (bcDefined_cnt e).1 hd
  omega

theorem notDefined_child {X : List Name} {e : Expr} (h : Good X e) {x : Name} (hx : x ∈ X) {c : List Name × Expr}
    (hc : c ∈ children e) : x ∉ bcDefined c.2 := fun hd =>
  h.notDefined hx ((mem_bcDefined e).2 (.inr ⟨c, hc, hd⟩))

theorem compL_ok {cx : FnCx} {X : List Name} (hX : CxX cx X) : ∀ (es : List Expr) (s : CS), InS X s → CxInv cx s →
    (∀ e ∈ es, CompOK cx false X e ∧ ∀ x ∈ X, x ∉ bcDefined e) →
    ∃ code s', compL cx es s = some (code, s') ∧ Post es.length (bcDefinedL es) cx s code s'
  | [], s, _, _, _ => ⟨[], s, rfl, rfl, fun _ _ => rfl, .plain (fun _ h => nomatch h)⟩
  | e :: es, s, hs, hc, h => by
    obtain ⟨h1, h2⟩ := h e (by simp)
    obtain ⟨c1, s1, e1, p1⟩ := h1 s hs hc
    obtain ⟨c2, s2, e2, p2⟩ := compL_ok hX es s1 (hs.post p1 h2) (hc.post p1 fun hr x hx => h2 x (hX hr x hx))
      (fun e he => h e (by simp [he]))
    refine ⟨c1 ++ c2, s2, ?_, ?_⟩
    · rw [compL, e1, Option.bind_some]; simp only [e2, Option.map_some]
    · have := p1.seq p2
      rw [List.length_cons, Nat.add_comm]
      exact this

theorem plainCall_ok {k : Nat} {s : CS} (h : k ≤ s.size) : ∃ s', plainCall k s = some ([.call], s') ∧
    s'.size = s.size - k ∧ s'.next = s.next ∧ s'.fns = s.fns ∧ s'.depths = s.depths := by
  let s1 : CS := { s.grow 1 with size := (s.grow 1).size - 1 }
  have h1 : s1.size = s.size := by simp [s1]
  refine ⟨{ s1 with size := s1.size - k }, ?_, by simp only [h1], rfl, rfl, rfl⟩
  rw [plainCall, CS.shrink_ok (by simp), Option.bind_some]
  change (s1.shrink k).map _ = _
  rw [CS.shrink_ok (by rw [h1]; exact h)]
  rfl

theorem tailCall_ok {cx : FnCx} {s : CS} (hr : cx.rec?.isSome = true) (hn : cx.params.length ≤ cx.entrySize)
    (hs : Slots s.depths 0 cx.params) (hz : cx.entrySize + cx.params.length ≤ s.size) :
    ∃ code s', tailCall cx s = some (code, s') ∧ s'.size = s.size - cx.params.length + 1 ∧ s'.depths = s.depths ∧
      Emit cx s.next s.fns code s'.next s'.fns := by
  obtain ⟨code, s', h1, h2, h3, h4, h5, h6⟩ := setVars_ok cx.entrySize cx.params.reverse s (fun x hx => by
    obtain ⟨i, hi⟩ := List.mem_iff_getElem?.1 (List.mem_reverse.1 hx)
    have := (List.getElem?_eq_some_iff.1 hi).1
    exact ⟨0 + i, hs i x hi, by omega⟩) (by rw [List.length_reverse]; exact hz)
  rw [List.length_reverse] at h2
  refine ⟨_, _, by rw [tailCall, h1, Option.bind_some, if_pos (by simp only; omega)], ?_, ?_, ?_⟩
  · simp only [CS.grow_size, h2]
  · simp only [CS.grow_depths, h5]
  · simp only [CS.grow_next, CS.grow_fns, h3, h4]
    refine Emit.seq (.plain h6) (Emit.seq (n' := s.next) (F' := s.fns) (.plain ?_) ?_)
    · split
      · exact .single rfl (by simp)
      · exact (fun _ h => nomatch h)
    · refine ⟨Nat.le_refl _, List.prefix_refl _, fun l => by simp [List.count_cons], fun l hl => ?_, fun h => h⟩
      simp only [Ref.cons, BOp.refs, List.mem_singleton, Ref.nil, or_false] at hl
      exact .inr (.inr ⟨hl, hr⟩)

/-- Taking a state whose size was changed. -/
theorem Post.resize {k k' bs cx s code s'} (h : Post k bs cx s code s') {t : CS} (hs : t.size = s.size + k')
    (hn : t.next = s'.next) (hf : t.fns = s'.fns) (hd : t.depths = s'.depths) : Post k' bs cx s code t :=
  ⟨hs, fun x hx => by rw [hd]; exact h.depths x hx, by rw [hn, hf]; exact h.emit⟩

theorem Post.plain {k bs cx s code s'} (h : Post k bs cx s code s') {ops : List BOp} (ho : Plain ops) :
    Post k bs cx s (code ++ ops) s' := ⟨h.size, h.depths, h.emit.seq (.plain ho)⟩

/-- What the branches of a match compile to. -/
structure BPost (bs : List Branch) (endL l : Nat) (cx : FnCx) (s : CS) (code : List BOp) (s' : CS) : Prop where
  size : s'.size = s.size
  depths : ∀ x, x ∉ bcDefinedB bs → assoc x s'.depths = assoc x s.depths
  next : s.next ≤ s'.next
  fns : s.fns <+: s'.fns
  labels : ∀ m, code.count (.label m) + s'.fns.flatten.count (.label m) ≤
    s.fns.flatten.count (.label m) + (if s.next ≤ m ∧ m < s'.next then 1 else 0) +
      (if l ≤ m ∧ m < l + bs.length then 1 else 0)
  has : ∀ i < bs.length, .label (l + i) ∈ code
  refs : ∀ m, Ref m code → .label m ∈ code ∨ .label m ∈ s'.fns.flatten ∨
    (m = cx.tailEntry ∧ cx.rec?.isSome = true) ∨ m = endL
  fnrefs : (∀ l, Ref l s.fns.flatten → .label l ∈ s.fns.flatten) →
    ∀ l, Ref l s'.fns.flatten → .label l ∈ s'.fns.flatten

theorem count_swapPops {n l : Nat} : (List.replicate n BOp.swapPop).count (.label l) = 0 := by
  rw [List.count_eq_zero, List.mem_replicate]
  simp

theorem ref_swapPops {n l : Nat} : ¬ Ref l (List.replicate n BOp.swapPop) := by
  rintro ⟨o, ho, hl⟩
  rw [(List.mem_replicate.1 ho).2] at hl
  cases hl

theorem compB_ok {cx : FnCx} {tail : Bool} {X : List Name} {endL : Nat} (hX : CxX cx X) :
    ∀ (bs : List Branch) (l : Nat) (s : CS), InS X s → CxInv cx s →
    (∀ b ∈ bs, CompOK cx tail (b.binds ++ X) b.body ∧ b.binds.Nodup ∧ (∀ x ∈ X, x ∉ b.binds ∧ x ∉ bcDefined b.body)) →
    ∃ code s', compB cx tail endL l bs s = some (code, s') ∧ BPost bs endL l cx s code s'
  | [], l, s, _, _, _ => ⟨[], s, rfl, rfl, fun _ _ => rfl, Nat.le_refl _, List.prefix_refl _,
      fun m => by simp only [List.count_nil]; omega, (fun _ h => nomatch h), fun m hm => absurd hm Ref.nil, fun h => h⟩
  | .mk c ns e :: bs, l, s, hs, hc, h => by
    obtain ⟨h1, h2, h3⟩ := h (.mk c ns e) (by simp)
    simp only [Branch.binds, Branch.body] at h1 h2 h3
    obtain ⟨s1, a1, a2, a3, a4, a5, a6⟩ := bindAll_ok ns s h2
    have hs1 : InS (ns ++ X) s1 := by
      intro x hx
      by_cases hm : x ∈ ns
      · obtain ⟨i, hi⟩ := List.mem_iff_getElem?.1 hm
        have := (List.getElem?_eq_some_iff.1 hi).1
        exact ⟨_, a6 i x hi, by omega⟩
      · rcases List.mem_append.1 hx with hx | hx
        · exact absurd hx hm
        · obtain ⟨a, ha, hb⟩ := hs x hx
          exact ⟨a, by rw [a5 x hm, ha], by omega⟩
    have hc1 : CxInv cx s1 := by
      intro hr
      obtain ⟨b0, b1, b2, b3⟩ := hc hr
      refine ⟨b0, b1, by omega, fun i x hx => ?_⟩
      rw [a5 x (h3 x (hX hr x (List.mem_of_getElem? hx))).1]
      exact b3 i x hx
    obtain ⟨c1, s2, e1, p1⟩ := h1 s1 hs1 hc1
    have hz := p1.size
    have hd2 : ∀ x ∈ X, assoc x s2.depths = assoc x s.depths := fun x hx => by
      rw [p1.depths x (h3 x hx).2, a5 x (h3 x hx).1]
    let s3 : CS := { s2 with size := s2.size - ns.length - 1 }
    have hs3 : InS X s3 := by
      intro x hx
      obtain ⟨a, ha, hb⟩ := hs x hx
      exact ⟨a, by simp only [s3]; rw [hd2 x hx, ha], by simp only [s3]; omega⟩
    have hc3 : CxInv cx s3 := by
      intro hr
      obtain ⟨b0, b1, b2, b3⟩ := hc hr
      refine ⟨b0, b1, by simp only [s3]; omega, fun i x hx => ?_⟩
      simp only [s3]
      rw [hd2 x (hX hr x (List.mem_of_getElem? hx))]
      exact b3 i x hx
    obtain ⟨c2, s', e2, p2⟩ := compB_ok (tail := tail) (endL := endL) hX bs (l + 1) s3 hs3 hc3 (fun b hb => h b (by simp [hb]))
    refine ⟨.label l :: (c1 ++ (List.replicate ns.length .swapPop ++ (.jump endL :: c2))), s', ?_, ?_⟩
    · rw [compB, a1, Option.bind_some, e1, Option.bind_some, CS.shrink_ok (by simp only; omega), Option.bind_some,
        CS.shrink_ok (by simp only; omega), Option.bind_some]
      change (compB cx tail endL (l + 1) bs s3).map _ = _
      rw [e2]
      rfl
    · have n1 := p1.emit.next
      have n2 := p2.next
      simp only [s3] at n2
      have hz2 := p2.size
      simp only [s3] at hz2
      refine ⟨by omega, fun x hx => ?_, by omega, ?_, fun m => ?_, fun i hi => ?_, fun m hm => ?_, fun hF => ?_⟩
      · simp only [bcDefinedB, List.mem_append, not_or] at hx
        rw [p2.depths x hx.2.2]
        simp only [s3]
        rw [p1.depths x hx.2.1, a5 x hx.1]
      · have := p1.emit.fns
        rw [a4] at this
        exact this.trans p2.fns
      · have q1 := p1.emit.labels m
        have q2 := p2.labels m
        simp only [s3, a3, a4] at q1 q2
        simp only [List.count_cons, List.count_append, count_swapPops, beq_iff_eq, BOp.label.injEq, reduceCtorEq, if_false,
          List.length_cons]
        have n2' : s2.next ≤ s'.next := n2
        rw [a3] at n1
        split at q1 <;> split at q2 <;> split at q2 <;> split <;> split <;> split <;> omega
      · cases i with
        | zero => simp
        | succ i =>
          have := p2.has i (by simpa using hi)
          rw [Nat.add_assoc, Nat.add_comm 1 i] at this
          simp [this]
      · simp only [Ref.cons, Ref.append, BOp.refs, List.not_mem_nil, false_or, ref_swapPops, List.mem_singleton] at hm
        simp only [List.mem_cons, List.mem_append, BOp.label.injEq, reduceCtorEq, false_or, List.mem_replicate, and_false]
        rcases hm with hm | hm | hm
        · rcases p1.emit.refs m hm with q | q | q
          · exact .inl (.inr (.inl q))
          · exact .inr (.inl (mem_flatten_prefix p2.fns q))
          · exact .inr (.inr (.inl q))
        · exact .inr (.inr (.inr hm))
        · rcases p2.refs m hm with q | q | q
          · exact .inl (.inr (.inr q))
          · exact .inr (.inl q)
          · exact .inr (.inr q)
      · have := p1.emit.fnrefs (by rw [a4]; exact hF)
        exact p2.fnrefs this

theorem InS.mono {X X' : List Name} {s : CS} (h : InS X s) (hx : ∀ x ∈ X', x ∈ X) : InS X' s := fun x h' => h x (hx x h')

/-- Shrinking back to the size at the start. -/
theorem InS.same {X : List Name} {s t : CS} (h : InS X s) (hd : ∀ x ∈ X, assoc x t.depths = assoc x s.depths)
    (hz : s.size ≤ t.size) : InS X t := fun x hx => by
  obtain ⟨a, h1, h2⟩ := h x hx
  exact ⟨a, by rw [hd x hx, h1], by omega⟩

theorem CxInv.same {X : List Name} {cx : FnCx} {s t : CS} (hX : CxX cx X) (h : CxInv cx s)
    (hd : ∀ x ∈ X, assoc x t.depths = assoc x s.depths) (hz : s.size ≤ t.size) : CxInv cx t := fun hr => by
  obtain ⟨h0, h1, h2, h3⟩ := h hr
  refine ⟨h0, h1, by omega, fun i x hx => ?_⟩
  rw [hd x (hX hr x (List.mem_of_getElem? hx))]
  exact h3 i x hx

theorem compRec_strip {x : Name} {caps : List Name} {s : CS} : ∀ {v : Expr} {ps : List Name} {b : Expr},
    recLam v = some (ps, b) → ∃ ps', ps = ps'.map (·.1) ∧ compRec x caps v s = compRec x caps (.lam ps' b) s
  | .pi a v, ps, b, h => by
    obtain ⟨ps', h1, h2⟩ := compRec_strip (x := x) (caps := caps) (s := s) (v := v) (by simpa [recLam, stripPis] using h)
    exact ⟨ps', h1, by rw [compRec, h2]⟩
  | .lam qs b', ps, b, h => by
    simp only [recLam, stripPis, Option.some.injEq, Prod.mk.injEq] at h
    exact ⟨qs, h.1.symm, by rw [h.2]⟩
  | .bool _, _, _, h => by simp [recLam, stripPis] at h
  | .int _, _, _, h => by simp [recLam, stripPis] at h
  | .str _, _, _, h => by simp [recLam, stripPis] at h
  | .name _, _, _, h => by simp [recLam, stripPis] at h
  | .call _ _, _, _, h => by simp [recLam, stripPis] at h
  | .ite _ _ _, _, _, h => by simp [recLam, stripPis] at h
  | .op _ _ _, _, _, h => by simp [recLam, stripPis] at h
  | .intr _ _, _, _, h => by simp [recLam, stripPis] at h
  | .mtch _ _, _, _, h => by simp [recLam, stripPis] at h
  | .con _ _ _, _, _, h => by simp [recLam, stripPis] at h
  | .let_ _ _ _, _, _, h => by simp [recLam, stripPis] at h
  | .letrec _ _ _ _, _, _, h => by simp [recLam, stripPis] at h
  | .piApp _ _, _, _, h => by simp [recLam, stripPis] at h
  | .trap _ _, _, _, h => by simp [recLam, stripPis] at h

/-- Everything about the function compiled for a lambda or a recursive definition. -/
structure FnGood (ps : List Name) (r : Option Name) (cn : List Name) (b : Expr) : Prop where
  nodup : (ps ++ (r.toList ++ cn)).Nodup
  good : Good (cn ++ (ps ++ r.toList)) b
  shape : BcShape b
  self_ : ∀ f, r = some f → ∀ xs, SubE (.call (.name f) xs) b → xs.length = ps.length

theorem fnGood_lam {X : List Name} {ps : List (Name × Ty)} {b : Expr} (hg : Good X (.lam ps b))
    (hs : BcShape (.lam ps b)) : FnGood (ps.map (·.1)) none (bcFree (.lam ps b)) b := by
  have hfree : ∀ x, x ∈ bcFree (.lam ps b) ↔ Free x (.lam ps b) := fun x => mem_bcFree hg
  have hp : ∀ y ∈ ps.map (·.1), y ∉ X := fun y hy => hg.own_new (by simpa [own] using hy)
  have hc : (ps.map (·.1), b) ∈ children (.lam ps b) := by simp [children]
  refine ⟨?_, ?_, hs.child hc, (fun f h => nomatch h)⟩
  · rw [List.nodup_append]
    refine ⟨by simpa [own] using hg.own_nodup, by simpa using nodup_bcFree _, fun a ha c hc e => ?_⟩
    simp only [Option.toList_none, List.nil_append] at hc
    subst e
    exact hp a ha (hg.scope a ((hfree a).1 hc))
  · refine (hg.child hc).shrink (fun x hx => ?_) (fun x hx => ?_)
    · simp only [Option.toList_none, List.append_nil, List.mem_append] at hx ⊢
      rcases hx with h | h
      · exact .inr (hg.scope x ((hfree x).1 h))
      · exact .inl h
    · simp only [Option.toList_none, List.append_nil, List.mem_append]
      by_cases h : x ∈ ps.map (·.1)
      · exact .inr h
      · exact .inl ((hfree x).2 (free_iff.2 (.inr ⟨_, hc, h, hx⟩)))

/-- The names captured by a recursive function. -/
def recCaps (x : Name) (ty : Ty) (v e : Expr) : List Name := (bcFree (.letrec x ty v e)).filter (fun c => c ≠ x)

theorem mem_recCaps {X : List Name} {x : Name} {ty : Ty} {v e : Expr} (hg : Good X (.letrec x ty v e)) {y : Name} :
    y ∈ recCaps x ty v e ↔ Free y (.letrec x ty v e) := by
  rw [recCaps, List.mem_filter, mem_bcFree hg]
  constructor
  · exact fun h => h.1
  · intro h
    refine ⟨h, ?_⟩
    have h1 := hg.scope y h
    have h2 : x ∉ X := hg.own_new (by simp [own])
    simp only [ne_eq, decide_not, Bool.not_eq_true', decide_eq_false_iff_not]
    exact fun e => h2 (e ▸ h1)

theorem fnGood_rec {X : List Name} {x : Name} {ty : Ty} {v e : Expr} {ps : List Name} {b : Expr}
    (hg : Good X (.letrec x ty v e)) (hs : BcShape (.letrec x ty v e)) (hr : recLam v = some (ps, b)) :
    FnGood ps (some x) (recCaps x ty v e) b := by
  have hx : x ∉ X := hg.own_new (by simp [own])
  have hcv : ([x], v) ∈ children (.letrec x ty v e) := by simp [children]
  obtain ⟨ps', hps, hst⟩ := stripPis_lam hr
  have hgv := stripPis_good (hg.child hcv)
  rw [hst] at hgv
  simp only at hgv
  have hc : (ps'.map (·.1), b) ∈ children (.lam ps' b) := by simp [children]
  have hp : ∀ y ∈ ps, y ∉ [x] ++ X := fun y hy => hgv.own_new (by simpa [own, hps] using hy)
  have hsb : SubE b (.letrec x ty v e) := (recLam_sub hr).trans (.step hcv .refl)
  refine ⟨?_, ?_, hs.sub hsb, ?_⟩
  · rw [List.nodup_append]
    refine ⟨?_, ?_, fun a ha c hc e => ?_⟩
    · have := hgv.own_nodup
      rw [own, ← hps] at this
      exact this
    · simp only [Option.toList_some, List.singleton_append, List.nodup_cons]
      refine ⟨fun h => hx (hg.scope x ((mem_recCaps hg).1 h)), ?_⟩
      rw [recCaps]
      exact List.Nodup.sublist List.filter_sublist (nodup_bcFree _)
    · subst e
      simp only [Option.toList_some, List.singleton_append, List.mem_cons] at hc
      refine hp a ha ?_
      rcases hc with h | h
      · simp [h]
      · exact List.mem_append_right _ (hg.scope a ((mem_recCaps hg).1 h))
  · refine (hgv.child hc).shrink (fun y hy => ?_) (fun y hy => ?_)
    · simp only [Option.toList_some, List.mem_append, List.mem_singleton, ← hps] at hy ⊢
      rcases hy with h | h | h
      · exact .inr (.inr (hg.scope y ((mem_recCaps hg).1 h)))
      · exact .inl h
      · exact .inr (.inl h)
    · simp only [Option.toList_some, List.mem_append, List.mem_singleton]
      by_cases h1 : y ∈ ps
      · exact .inr (.inl h1)
      · by_cases h2 : y = x
        · exact .inr (.inr h2)
        · left
          rw [mem_recCaps hg]
          exact free_iff.2 (.inr ⟨([x], v), hcv, by simpa using h2, (recLam_free hr).2 ⟨h1, hy⟩⟩)
  · intro f hf xs hxs
    cases hf
    exact hs.self_ x ty v b ps e .refl hr xs hxs

/-- The body of a function finds its names. -/
theorem fn_inS {next : Nat} {fns : List (List BOp)} {ps : List Name} {r : Option Name} {cn : List Name} {st : CS}
    (h : FnLayout next fns ps r cn st) : InS (cn ++ (ps ++ r.toList)) st := by
  intro x hx
  rw [List.mem_append, List.mem_append] at hx
  rcases hx with hx | hx | hx
  · obtain ⟨i, hi⟩ := List.mem_iff_getElem?.1 hx
    have := (List.getElem?_eq_some_iff.1 hi).1
    exact ⟨_, h.caps i x hi, by rw [h.size]; omega⟩
  · obtain ⟨i, hi⟩ := List.mem_iff_getElem?.1 hx
    have := (List.getElem?_eq_some_iff.1 hi).1
    exact ⟨_, h.params i x hi, by rw [h.size]; omega⟩
  · cases r with
    | none => simp at hx
    | some n =>
      simp only [Option.toList_some, List.mem_singleton] at hx
      subst hx
      exact ⟨_, h.rec_ x rfl, by rw [h.size]; omega⟩

theorem fn_cxInv {next : Nat} {fns : List (List BOp)} {ps : List Name} {r : Option Name} {cn : List Name} {st : CS}
    {tce : Nat} (h : FnLayout next fns ps r cn st) (hn : ps.Nodup) : CxInv ⟨st.size, tce, ps, r⟩ st :=
  fun _ => ⟨hn, by simp only [h.size]; omega, Nat.le_refl _, h.params⟩

/-- Compiling a function, given that its body compiles. -/
theorem compFn_ok {n : Nat} {F : List (List BOp)} {ps : List Name} {r : Option Name} {cn : List Name} {b : Expr}
    (hf : FnGood ps r cn b)
    (hb : ∀ cx, CxOK cx b → CxX cx (cn ++ (ps ++ r.toList)) → CompOK cx true (cn ++ (ps ++ r.toList)) b) :
    ∃ st code s1, fnStart (n + 2) F ps r cn = some st ∧ FnLayout (n + 2) F ps r cn st ∧
      comp ⟨st.size, n + 1, ps, r⟩ true b st = some (code, s1) ∧
      Post 1 (bcDefined b) ⟨st.size, n + 1, ps, r⟩ st code s1 ∧
      fnEnd n (n + 1) ps.length cn.length st (code, s1) =
        some (fnCode n (n + 1) ps.length cn.length (s1.maxSize - st.size + cn.length) code) := by
  obtain ⟨st, h1, h2⟩ := fnStart_ok (next := n + 2) (fns := F) hf.nodup
  obtain ⟨code, s1, h3, h4⟩ := hb ⟨st.size, n + 1, ps, r⟩ hf.self_
    (fun _ p hp => by simp [show p ∈ ps from hp]) st (fn_inS h2) (fn_cxInv h2 (List.nodup_append.1 hf.nodup).1)
  exact ⟨st, code, s1, h1, h2, h3, h4, fnEnd_ok (by simp only [h4.size, h2.size])⟩

theorem Post.sub {k bs bs' cx s code s'} (h : Post k bs cx s code s') (hb : ∀ x ∈ bs, x ∈ bs') : Post k bs' cx s code s' :=
  ⟨h.size, fun x hx => h.depths x fun hm => hx (hb x hm), h.emit⟩

/-- **Compiling never panics**, and what it does to the compiler's state. -/
theorem comp_ok : ∀ (e : Expr) (cx : FnCx) (tail : Bool) (X : List Name), Good X e → BcShape e → CxOK cx e → CxX cx X →
    CompOK cx tail X e := by
  intro e
  induction e using Expr.strong with
  | _ e ih0 =>
  intro cx tail X hg hsh hcx hX s hs hc
  have ih : ∀ t, ∀ c ∈ children e, CompOK cx t (c.1 ++ X) c.2 := fun t c hm =>
    ih0 c.2 (mem_children_size hm) cx t _ (hg.child hm) (hsh.child hm) (hcx.child hm)
      (fun hr p hp => List.mem_append_right _ (hX hr p hp))
  have ih' : ∀ t c, ([], c) ∈ children e → CompOK cx t X c := fun t c hm => ih t ([], c) hm
  have hnd : ∀ {c : List Name × Expr}, c ∈ children e → ∀ x ∈ X, x ∉ bcDefined c.2 := fun hm x hx =>
    notDefined_child hg hx hm
  have hlist : ∀ es : List Expr, (∀ e' ∈ es, ([], e') ∈ children e) → ∃ code s', compL cx es s = some (code, s') ∧
      Post es.length (bcDefinedL es) cx s code s' := fun es hes =>
    compL_ok hX es s hs hc fun e' he => ⟨ih' false e' (hes e' he), hnd (hes e' he)⟩
  have hpx : cx.rec?.isSome = true → ∀ {c : List Name × Expr}, c ∈ children e → ∀ x ∈ cx.params, x ∉ bcDefined c.2 :=
    fun hr c hm x hx => hnd hm x (hX hr x hx)
  have push : ∀ o : BOp, o.refs = [] → (∀ l, o ≠ .label l) → ∀ bs, Post 1 bs cx s [o] (s.grow 1) :=
    fun o h1 h2 bs => ⟨rfl, fun _ _ => rfl, .plain (.single h1 h2)⟩
  cases e with
  | bool b => exact ⟨_, _, by rw [comp], push _ rfl (by simp) _⟩
  | int i => exact ⟨_, _, by rw [comp], push _ rfl (by simp) _⟩
  | str t => exact ⟨_, _, by rw [comp], push _ rfl (by simp) _⟩
  | trap m t => exact ⟨_, _, by rw [comp], push _ rfl (by simp) _⟩
  | name x =>
    obtain ⟨a, h1, h2⟩ := hs x (hg.scope x rfl)
    exact ⟨_, _, by rw [comp, pickVar_ok h1 h2], push _ rfl (by simp) _⟩
  | call f xs =>
    obtain ⟨c1, s1, e1, p1⟩ := hlist xs (fun e' he => by simp [children, he])
    have hx1 : ∀ x ∈ X, x ∉ bcDefinedL xs := fun x hx hm => by
      obtain ⟨e', he, hm⟩ := mem_bcDefinedL.1 hm
      exact hnd (c := ([], e')) (by simp [children, he]) x hx hm
    have hs1 := hs.post p1 hx1
    have hc1 := hc.post p1 fun hr x hx => hx1 x (hX hr x hx)
    by_cases ht : isSelfTail cx tail f = true
    · obtain ⟨g, rfl, hgr⟩ : ∃ g, f = .name g ∧ cx.rec? = some g := by
        cases f with
        | name g =>
          simp only [isSelfTail, Bool.and_eq_true, beq_iff_eq] at ht
          exact ⟨g, rfl, ht.2⟩
        | _ => simp [isSelfTail] at ht
      have hr : cx.rec?.isSome = true := by rw [hgr]; rfl
      obtain ⟨q0, q1, q2, q3⟩ := hc hr
      obtain ⟨_, _, _, r3⟩ := hc1 hr
      have hl := hcx g hgr xs .refl
      have hz := p1.size
      obtain ⟨c2, s2, e2, z2, d2, m2⟩ := tailCall_ok hr q1 r3 (by omega)
      refine ⟨c1 ++ c2, s2, ?_, by omega, fun x hx => ?_, p1.emit.seq m2⟩
      · rw [comp, e1, Option.bind_some, if_pos ht]
        simp only [e2, Option.map_some]
      · rw [d2, p1.depths x]
        simp only [bcDefined, List.mem_append, not_or] at hx
        exact hx.2
    · obtain ⟨c2, s2, e2, p2⟩ := ih' false f (by simp [children]) s1 hs1 hc1
      have hz := p1.size
      have hz2 := p2.size
      obtain ⟨s3, e3, z3, n3, f3, d3⟩ := plainCall_ok (k := xs.length) (s := s2) (by omega)
      refine ⟨c1 ++ (c2 ++ [.call]), s3, ?_, ?_⟩
      · rw [comp, e1, Option.bind_some, if_neg ht]
        simp only [e2, Option.bind_some, e3, Option.map_some]
      · rw [← List.append_assoc]
        refine Post.plain (.resize ((p1.seq p2).sub fun x hx => ?_) (by omega) n3 f3 d3) (.single rfl (by simp))
        simp only [bcDefined, List.mem_append] at hx ⊢
        exact hx.symm
  | ite c t e =>
    obtain ⟨c1, s1, e1, p1⟩ := ih' false c (by simp [children]) s hs hc
    have hz1 := p1.size
    have d1 : ∀ x ∈ X, assoc x s1.depths = assoc x s.depths := fun x hx =>
      p1.depths x (hnd (c := ([], c)) (by simp [children]) x hx)
    let s2 : CS := { s1 with next := s1.next + 2, size := s1.size - 1 }
    have z2 : s2.size = s.size := by simp only [s2]; omega
    obtain ⟨c3, s3, e3, p3⟩ := ih' tail t (by simp [children]) s2 (hs.same d1 (by omega)) (hc.same hX d1 (by omega))
    have hz3 := p3.size
    have d3 : ∀ x ∈ X, assoc x s3.depths = assoc x s.depths := fun x hx => by
      rw [p3.depths x (hnd (c := ([], t)) (by simp [children]) x hx)]
      exact d1 x hx
    let s4 : CS := { s3 with size := s3.size - 1 }
    have z4 : s4.size = s.size := by simp only [s4]; omega
    obtain ⟨c5, s5, e5, p5⟩ := ih' tail e (by simp [children]) s4 (hs.same d3 (by omega)) (hc.same hX d3 (by omega))
    have hz5 := p5.size
    refine ⟨c1 ++ (.jumpIfFalse s1.next :: (c3 ++ (.jump (s1.next + 1) :: .label s1.next :: (c5 ++ [.label (s1.next + 1)])))),
      s5, ?_, by omega, fun x hx => ?_, ?_⟩
    · rw [comp, e1, Option.bind_some]
      dsimp only
      rw [CS.shrink_ok (by simp only; omega), Option.bind_some]
      change (comp cx tail t s2).bind _ = _
      rw [e3, Option.bind_some, CS.shrink_ok (by simp only; omega), Option.bind_some]
      change (comp cx tail e s4).map _ = _
      rw [e5]
      rfl
    · simp only [bcDefined, List.mem_append, not_or] at hx
      rw [p5.depths x hx.2.2]
      simp only [s4]
      rw [p3.depths x hx.2.1]
      simp only [s2]
      rw [p1.depths x hx.1]
    · have n1 := p1.emit.next
      have n3 := p3.emit.next
      have n5 := p5.emit.next
      have f3 := p3.emit.fns
      have f5 := p5.emit.fns
      simp only [s2] at n3 f3
      simp only [s4] at n5 f5
      refine ⟨by omega, p1.emit.fns.trans (f3.trans f5), fun l => ?_, fun l hl => ?_, fun hF => ?_⟩
      · have q1 := p1.emit.labels l
        have q3 := p3.emit.labels l
        have q5 := p5.emit.labels l
        simp only [s2] at q3
        simp only [s4] at q5
        simp only [List.count_cons, List.count_append, List.count_nil, beq_iff_eq, BOp.label.injEq, reduceCtorEq, if_false]
        clear hlist hpx push ih ih' ih0 hnd p1 p3 p5
        split at q1 <;> split at q3 <;> split at q5 <;> split <;> split <;> split <;> omega
      · simp only [Ref.cons, Ref.append, BOp.refs, List.not_mem_nil, false_or, List.mem_singleton, Ref.nil, or_false] at hl
        simp only [List.mem_cons, List.mem_append, BOp.label.injEq, reduceCtorEq, false_or, List.not_mem_nil, or_false]
        rcases hl with hl | hl | hl | hl | hl
        · rcases p1.emit.refs l hl with q | q | q
          · exact .inl (.inl q)
          · exact .inr (.inl (mem_flatten_prefix (f3.trans f5) q))
          · exact .inr (.inr q)
        · exact .inl (.inr (.inr (.inl hl)))
        · rcases p3.emit.refs l hl with q | q | q
          · exact .inl (.inr (.inl q))
          · exact .inr (.inl (mem_flatten_prefix f5 q))
          · exact .inr (.inr q)
        · exact .inl (.inr (.inr (.inr (.inr hl))))
        · rcases p5.emit.refs l hl with q | q | q
          · exact .inl (.inr (.inr (.inr (.inl q))))
          · exact .inr (.inl q)
          · exact .inr (.inr q)
      · exact p5.emit.fnrefs (p3.emit.fnrefs (p1.emit.fnrefs hF))
  | op a o b =>
    obtain ⟨c1, s1, e1, p1⟩ := ih' false a (by simp [children]) s hs hc
    obtain ⟨c2, s2, e2, p2⟩ := ih' false b (by simp [children]) s1
      (hs.post p1 (hnd (c := ([], a)) (by simp [children])))
      (hc.post p1 fun hr => hpx hr (c := ([], a)) (by simp [children]))
    have hz := p1.size
    have hz2 := p2.size
    refine ⟨c1 ++ (c2 ++ [.arith o]), { s2 with size := s2.size - 1 }, ?_, ?_⟩
    · rw [comp, e1, Option.bind_some, e2, Option.bind_some, CS.shrink_ok (by simp only; omega)]; rfl
    · rw [← List.append_assoc]
      refine Post.plain (.resize (p1.seq p2) ?_ ?_ ?_ ?_) ?_
      · dsimp only; omega
      · rfl
      · rfl
      · rfl
      · exact .single rfl (by simp)
  | intr i xs =>
    obtain ⟨c1, s1, e1, p1⟩ := hlist xs (fun e' he => by simp [children, he])
    have hz := p1.size
    have hl := hsh.intr i xs .refl
    have ha : 1 ≤ i.arity := by cases i <;> decide
    refine ⟨c1 ++ [.intr i], { s1 with size := s1.size - (i.arity - 1) }, ?_, ?_⟩
    · rw [comp, e1, Option.bind_some, CS.shrink_ok (by simp only; omega)]; rfl
    · refine Post.plain (.resize p1 ?_ ?_ ?_ ?_) ?_
      · dsimp only; omega
      · rfl
      · rfl
      · rfl
      · exact .single rfl (by simp)
  | con c ts xs =>
    obtain ⟨c1, s1, e1, p1⟩ := hlist xs (fun e' he => by simp [children, he])
    have hz := p1.size
    refine ⟨c1 ++ [.construct c xs.length], CS.grow { s1 with size := s1.size - xs.length } 1, ?_, ?_⟩
    · rw [comp, e1, Option.bind_some, CS.shrink_ok (by simp only; omega)]; rfl
    · refine Post.plain (.resize p1 ?_ ?_ ?_ ?_) ?_
      · simp only [CS.grow_size]; omega
      · rfl
      · rfl
      · rfl
      · exact .single rfl (by simp)
  | lam ps b =>
    have hf := fnGood_lam hg hsh
    obtain ⟨st, code, s1, a1, a2, a3, a4, a5⟩ := compFn_ok (n := s.next) (F := s.fns) hf (fun cx' h1 h2 =>
      ih0 b (mem_children_size (c := (ps.map (·.1), b)) (by simp [children])) cx' true _ hf.good hf.shape h1 h2)
    rw [List.length_map] at a5
    obtain ⟨c2, s2, b1, b2, b3, b4, b5, b6⟩ := pickVars_ok (bcFree (.lam ps b))
      { s with next := s1.next, fns := s1.fns ++ [fnCode s.next (s.next + 1) ps.length (bcFree (.lam ps b)).length
        (s1.maxSize - st.size + (bcFree (.lam ps b)).length) code] }
      (fun x hx => hs x (hg.scope x ((mem_bcFree hg).1 hx)))
    simp only at b2 b3 b4 b5
    refine ⟨c2 ++ [.closure s.next (bcFree (.lam ps b)).length],
      CS.grow { s2 with size := s2.size - (bcFree (.lam ps b)).length } 1, ?_, ?_, fun x hx => ?_, ?_⟩
    · rw [comp, a1, Option.bind_some, a3, Option.bind_some, a5, Option.bind_some, b1, Option.bind_some,
        CS.shrink_ok (by simp only; omega)]
      rfl
    · simp only [CS.grow_size]; omega
    · simp only [CS.grow_depths, b5]
    · simp only [CS.grow_next, CS.grow_fns, b3, b4]
      have he := a4.emit
      rw [a2.next, a2.fns] at he
      refine emit_fn he (fun l => ?_) (fun l hl => ?_)
      · simp [List.count_append, b6.count, List.count_cons]
      · simpa [Ref.append, b6.ref, Ref.cons, BOp.refs, Ref.nil] using hl
  | mtch d bs =>
    have hbm : ∀ b ∈ bs, (b.binds, b.body) ∈ children (.mtch d bs) := fun b hb => by
      simp only [children, List.mem_cons, List.mem_map]
      exact .inr ⟨b, hb, rfl⟩
    obtain ⟨c1, s1, e1, p1⟩ := ih' false d (by simp [children]) s hs hc
    have hz1 := p1.size
    have d1 : ∀ x ∈ X, assoc x s1.depths = assoc x s.depths := fun x hx =>
      p1.depths x (hnd (c := ([], d)) (by simp [children]) x hx)
    let s2 : CS := { s1 with next := s1.next + 1 + bs.length, size := s1.size - 1 }
    have z2 : s2.size = s.size := by simp only [s2]; omega
    obtain ⟨c3, s3, e3, p3⟩ := compB_ok (cx := cx) (tail := tail) (X := X) (endL := s1.next) hX bs (s1.next + 1) s2
      (hs.same d1 (by omega)) (hc.same hX d1 (by omega)) (fun b hb => ⟨ih tail _ (hbm b hb), by
        refine List.Nodup.sublist (l₂ := own (.mtch d bs)) ?_ hg.own_nodup
        simp only [own]
        obtain ⟨pre, post, rfl⟩ := List.append_of_mem hb
        simp only [List.flatMap_append, List.flatMap_cons]
        exact (List.sublist_append_left _ _).trans (List.sublist_append_right _ _), fun x hx =>
        ⟨fun hm => hg.own_new (y := x) (by simp only [own, List.mem_flatMap]; exact ⟨b, hb, hm⟩) hx, hnd (hbm b hb) x hx⟩⟩)
    have hz3 := p3.size
    refine ⟨c1 ++ (.branch ((bs.map fun b => (b.ctor, b.binds.length)).mapIdx fun i p => (p.1, s1.next + 1 + i, p.2)) ::
      (c3 ++ [.label s1.next])), s3.grow 1, ?_, ?_, fun x hx => ?_, ?_⟩
    · rw [comp, e1, Option.bind_some]
      dsimp only
      rw [CS.shrink_ok (by simp only; omega), Option.bind_some]
      change (compB cx tail s1.next (s1.next + 1) bs s2).map _ = _
      rw [e3]
      rfl
    · simp only [CS.grow_size]; omega
    · simp only [bcDefined, List.mem_append, not_or] at hx
      simp only [CS.grow_depths]
      rw [p3.depths x hx.2]
      simp only [s2]
      rw [p1.depths x hx.1]
    · have n1 := p1.emit.next
      have n3 := p3.next
      have f3 := p3.fns
      simp only [s2] at n3 f3
      simp only [CS.grow_next, CS.grow_fns]
      refine ⟨by omega, p1.emit.fns.trans f3, fun l => ?_, fun l hl => ?_, fun hF => ?_⟩
      · have q1 := p1.emit.labels l
        have q3 := p3.labels l
        simp only [s2] at q3
        simp only [List.count_cons, List.count_append, List.count_nil, beq_iff_eq, BOp.label.injEq, reduceCtorEq, if_false]
        clear hlist hpx push ih ih' ih0 hnd p1 p3
        split at q1 <;> split at q3 <;> split at q3 <;> split <;> split <;> omega
      · simp only [Ref.cons, Ref.append, BOp.refs, List.not_mem_nil, false_or, Ref.nil, or_false] at hl
        simp only [List.mem_cons, List.mem_append, BOp.label.injEq, reduceCtorEq, false_or, List.not_mem_nil, or_false]
        rcases hl with hl | hl | hl
        · rcases p1.emit.refs l hl with q | q | q
          · exact .inl (.inl q)
          · exact .inr (.inl (mem_flatten_prefix f3 q))
          · exact .inr (.inr q)
        · left; right; left
          obtain ⟨p, hp, rfl⟩ := List.mem_map.1 hl
          obtain ⟨i, hi, rfl⟩ := List.mem_mapIdx.1 hp
          rw [List.length_map] at hi
          have := p3.has i hi
          exact this
        · rcases p3.refs l hl with q | q | q | q
          · exact .inl (.inr (.inl q))
          · exact .inr (.inl q)
          · exact .inr (.inr q)
          · exact .inl (.inr (.inr q))
      · exact p3.fnrefs (p1.emit.fnrefs hF)
  | let_ n v e =>
    obtain ⟨c1, s1, e1, p1⟩ := ih' false v (by simp [children]) s hs hc
    have hz1 := p1.size
    have hnn : n ∉ X := hg.own_new (by simp [own])
    let s2 : CS := { s1 with depths := (n, s1.size - 1) :: s1.depths }
    have d2 : ∀ x ∈ X, assoc x s2.depths = assoc x s.depths := fun x hx => by
      simp only [s2, assoc]
      rw [if_neg (fun (h : n = x) => hnn (h ▸ hx))]
      exact p1.depths x (hnd (c := ([], v)) (by simp [children]) x hx)
    have hs2 : InS ([n] ++ X) s2 := by
      intro x hx
      rcases List.mem_append.1 hx with hx | hx
      · rw [List.mem_singleton] at hx
        subst hx
        exact ⟨s1.size - 1, by simp [s2, assoc], by simp only [s2]; omega⟩
      · exact (hs.same (t := s2) d2 (by simp only [s2]; omega)) x hx
    obtain ⟨c3, s3, e3, p3⟩ := ih tail ([n], e) (by simp [children]) s2 hs2
      (hc.same hX d2 (by simp only [s2]; omega))
    have hz3 := p3.size
    simp only [s2] at hz3
    refine ⟨c1 ++ (c3 ++ [.swapPop]), { s3 with size := s3.size - 1 }, ?_, by simp only; omega, fun x hx => ?_, ?_⟩
    · rw [comp, e1, Option.bind_some, CS.define_ok (by simp only; omega), Option.bind_some]
      change (comp cx tail e s2).bind _ = _
      rw [e3, Option.bind_some, CS.shrink_ok (by simp only; omega)]
      rfl
    · simp only [bcDefined, List.mem_cons, List.mem_append, not_or] at hx
      simp only
      rw [p3.depths x hx.2.2]
      simp only [s2, assoc]
      rw [if_neg (fun h => hx.1 h.symm), p1.depths x hx.2.1]
    · exact p1.emit.seq (p3.emit.seq (.plain (.single rfl (by simp))))
  | letrec n ty v e =>
    have hnn : n ∉ X := hg.own_new (by simp [own])
    have hv : (recLam v).isSome = true := hg.recs _ .refl
    obtain ⟨⟨ps, b⟩, hr⟩ := Option.isSome_iff_exists.1 hv
    have hf := fnGood_rec hg hsh hr
    obtain ⟨st, code, s1, a1, a2, a3, a4, a5⟩ := compFn_ok (n := s.next) (F := s.fns) hf (fun cx' h1 h2 =>
      ih0 b (Nat.lt_trans (recLam_size hr) (mem_children_size (c := ([n], v)) (by simp [children]))) cx' true _
        hf.good hf.shape h1 h2)
    obtain ⟨ps', hps, hst⟩ := compRec_strip (x := n) (caps := recCaps n ty v e) (s := s) hr
    have hcr : compRec n (recCaps n ty v e) v s = some { s with next := s1.next, fns := s1.fns ++ [fnCode s.next
        (s.next + 1) ps.length (recCaps n ty v e).length (s1.maxSize - st.size + (recCaps n ty v e).length) code] } := by
      rw [hst, compRec, ← hps, a1, Option.bind_some, a3, Option.bind_some]
      rw [show ps'.length = ps.length by rw [hps, List.length_map], a5]
      rfl
    obtain ⟨c2, s2, b1, b2, b3, b4, b5, b6⟩ := pickVars_ok (recCaps n ty v e)
      { s with next := s1.next, fns := s1.fns ++ [fnCode s.next (s.next + 1) ps.length (recCaps n ty v e).length
        (s1.maxSize - st.size + (recCaps n ty v e).length) code] }
      (fun x hx => hs x (hg.scope x ((mem_recCaps hg).1 hx)))
    simp only at b2 b3 b4 b5
    let s3 : CS := { CS.grow { s2 with size := s2.size - (recCaps n ty v e).length } 1 with
      depths := (n, s.size) :: s.depths }
    have z3 : s3.size = s.size + 1 := by simp only [s3, CS.grow_size]; omega
    have d3 : ∀ x ∈ X, assoc x s3.depths = assoc x s.depths := fun x hx => by
      simp only [s3, assoc]
      rw [if_neg (fun (h : n = x) => hnn (h ▸ hx))]
    have hs3 : InS ([n] ++ X) s3 := by
      intro x hx
      rcases List.mem_append.1 hx with hx | hx
      · rw [List.mem_singleton] at hx
        subst hx
        exact ⟨s.size, by simp [s3, assoc], by omega⟩
      · exact (hs.same (t := s3) d3 (by omega)) x hx
    obtain ⟨c4, s4, e4, p4⟩ := ih tail ([n], e) (by simp [children]) s3 hs3 (hc.same hX d3 (by omega))
    have z4 := p4.size
    refine ⟨c2 ++ (.closure s.next (recCaps n ty v e).length :: (c4 ++ [.swapPop])), { s4 with size := s4.size - 1 },
      ?_, by simp only; omega, fun x hx => ?_, ?_⟩
    · rw [comp]
      rw [← recCaps, hcr, Option.bind_some, b1, Option.bind_some, CS.shrink_ok (by simp only; omega), Option.bind_some,
        CS.define_ok (by simp), Option.bind_some]
      have : ({ CS.grow { s2 with size := s2.size - (recCaps n ty v e).length } 1 with
          depths := (n, (CS.grow { s2 with size := s2.size - (recCaps n ty v e).length } 1).size - 1) :: s2.depths } : CS) = s3 := by
        have hq : s2.size - (recCaps n ty v e).length + 1 - 1 = s.size := by omega
        simp only [s3, CS.grow_size, b5, hq]
      change (comp cx tail e { CS.grow { s2 with size := s2.size - (recCaps n ty v e).length } 1 with
          depths := (n, (CS.grow { s2 with size := s2.size - (recCaps n ty v e).length } 1).size - 1) :: s2.depths }).bind _ = _
      rw [this, e4, Option.bind_some, CS.shrink_ok (by simp only; omega)]
      rfl
    · simp only [bcDefined, List.mem_cons, List.mem_append, not_or] at hx
      simp only
      rw [p4.depths x hx.2.2]
      simp only [s3, assoc]
      rw [if_neg (fun h => hx.1 h.symm)]
    · have he := a4.emit
      rw [a2.next, a2.fns] at he
      have h1 : Emit cx s.next s.fns (c2 ++ [.closure s.next (recCaps n ty v e).length]) s3.next s3.fns := by
        simp only [s3, CS.grow_next, CS.grow_fns, b3, b4]
        refine emit_fn he (fun l => ?_) (fun l hl => ?_)
        · simp [List.count_append, b6.count, List.count_cons]
        · simpa [Ref.append, b6.ref, Ref.cons, BOp.refs, Ref.nil] using hl
      have h2 := h1.seq (p4.emit.seq (.plain (.single (o := .swapPop) rfl (by simp))))
      rw [List.append_assoc] at h2
      exact h2
  | pi v e => 
    obtain ⟨c1, s1, e1, p1⟩ := ih' tail e (by simp [children]) s hs hc
    exact ⟨c1, s1, by rw [comp, e1], p1⟩
  | piApp e t =>
    obtain ⟨c1, s1, e1, p1⟩ := ih' tail e (by simp [children]) s hs hc
    exact ⟨c1, s1, by rw [comp, e1], p1⟩

end Tic.Core
