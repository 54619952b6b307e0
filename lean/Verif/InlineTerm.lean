import Verif.InlineGo
import Verif.PropReduce
/-
Helper: the inlining walk ends.
-/
namespace Tic.Core

mutual
/-- The size of an expression, where names count for what they may be replaced by. -/
def wt (W : Name → Nat) : Expr → Nat
  | .bool _ => 1
  | .int _ => 1
  | .str _ => 1
  | .trap _ _ => 1
  | .name x => W x
  | .call f xs => 1 + (wt W f + wtL W xs)
  | .intr _ xs => 1 + wtL W xs
  | .op a _ b => 1 + (wt W a + wt W b)
  | .let_ _ a b => 1 + (wt W a + wt W b)
  | .letrec _ _ a b => 1 + (wt W a + wt W b)
  | .ite a b c => 1 + (wt W a + (wt W b + wt W c))
  | .lam _ a => 1 + wt W a
  | .mtch a bs => 1 + (wt W a + wtB W bs)
  | .con _ _ xs => 1 + wtL W xs
  | .pi _ a => 1 + wt W a
  | .piApp a _ => 1 + wt W a
/-- ... of a list. -/
def wtL (W : Name → Nat) : List Expr → Nat
  | [] => 0
  | e :: es => wt W e + wtL W es
/-- ... of branches. -/
def wtB (W : Name → Nat) : List Branch → Nat
  | [] => 0
  | .mk _ _ e :: bs => wt W e + wtB W bs
end

theorem wtL_eq (W : Name → Nat) : ∀ xs : List Expr, wtL W xs = ((xs.map fun x => (([] : List Name), x)).map fun c => wt W c.2).sum
  | [] => rfl
  | x :: xs => by simp only [wtL, List.map_cons, List.sum_cons, wtL_eq W xs]

theorem wtB_eq (W : Name → Nat) : ∀ bs : List Branch, wtB W bs = ((bs.map fun b => (b.binds, b.body)).map fun c => wt W c.2).sum
  | [] => rfl
  | .mk _ _ x :: xs => by simp only [wtB, List.map_cons, List.sum_cons, wtB_eq W xs, Branch.body]

theorem wt_eq (W : Name → Nat) {e : Expr} (h : ∀ x, e ≠ .name x) : wt W e = 1 + ((children e).map fun c => wt W c.2).sum := by
  cases e <;> simp only [wt, children, List.map_cons, List.map_nil, List.sum_cons, List.sum_nil, wtL_eq, wtB_eq, Nat.add_zero]
  case name x => exact absurd rfl (h x)

theorem map_sum_congr {α : Type} {f g : α → Nat} {l : List α} (h : ∀ a ∈ l, f a = g a) : (l.map f).sum = (l.map g).sum := by
  rw [List.map_congr_left h]

theorem wt_congr {W W' : Name → Nat} {e : Expr} (h : ∀ y, Occ y e → W y = W' y) : wt W e = wt W' e := by
  induction e using Expr.childInd with
  | _ e ih =>
    by_cases hn : ∃ x, e = .name x
    · obtain ⟨x, rfl⟩ := hn
      exact h x (.inl (by simp [Free]))
    · have hn' : ∀ x, e ≠ .name x := fun x hx => hn ⟨x, hx⟩
      rw [wt_eq W hn', wt_eq W' hn', map_sum_congr fun c hc => ih c hc fun y hy => h y (occ_child hc hy)]

mutual
theorem wt_ren {σ : Name → Name} (W : Name → Nat) : ∀ {e e' : Expr}, Ren σ e e' → wt W e' = wt (fun y => W (σ y)) e
  | _, _, .bool b | _, _, .int b | _, _, .str b | _, _, .name x | _, _, .trap _ _ _ => rfl
  | _, _, .call h hs => by simp only [wt, wt_ren W h, wtL_ren W hs]
  | _, _, .ite a b c => by simp only [wt, wt_ren W a, wt_ren W b, wt_ren W c]
  | _, _, .op _ a b => by simp only [wt, wt_ren W a, wt_ren W b]
  | _, _, .intr _ hs => by simp only [wt, wtL_ren W hs]
  | _, _, .con _ _ _ hs => by simp only [wt, wtL_ren W hs]
  | _, _, .lam hp hb => by simp only [wt, wt_ren W hb]
  | _, _, .mtch h hs => by simp only [wt, wt_ren W h, wtB_ren W hs]
  | _, _, .let_ _ a b => by simp only [wt, wt_ren W a, wt_ren W b]
  | _, _, .letrec _ _ _ a b => by simp only [wt, wt_ren W a, wt_ren W b]
  | _, _, .pi _ _ a => by simp only [wt, wt_ren W a]
  | _, _, .piApp _ _ a => by simp only [wt, wt_ren W a]
theorem wtL_ren {σ : Name → Name} (W : Name → Nat) : ∀ {e e' : List Expr}, RenL σ e e' → wtL W e' = wtL (fun y => W (σ y)) e
  | _, _, .nil => rfl
  | _, _, .cons h hs => by simp only [wtL, wt_ren W h, wtL_ren W hs]
theorem wtB_ren {σ : Name → Name} (W : Name → Nat) : ∀ {e e' : List Branch}, RenB σ e e' → wtB W e' = wtB (fun y => W (σ y)) e
  | _, _, .nil => rfl
  | _, _, .cons _ _ h hs => by simp only [wtB, wt_ren W h, wtB_ren W hs]
end

/-- Names bound by `let` count for more than their values. -/
def OKW (W : Name → Nat) (e : Expr) : Prop := ∀ n v b, SubE (.let_ n v b) e → wt W v < W n

theorem okW_iff {W : Name → Nat} {e : Expr} : OKW W e ↔ (∀ n v b, e = .let_ n v b → wt W v < W n) ∧ ∀ c ∈ children e, OKW W c.2 := by
  constructor
  · intro h
    exact ⟨fun n v b he => h n v b (he ▸ .refl), fun c hc n v b hs => h n v b (.step hc hs)⟩
  · rintro ⟨h1, h2⟩ n v b hs
    rcases SubE.cases_iff.1 hs with h | ⟨c, hc, hs⟩
    · exact h1 n v b h.symm
    · exact h2 c hc n v b hs

theorem okW_congr {W W' : Name → Nat} {e : Expr} (h : ∀ y, Occ y e → W y = W' y) (ho : OKW W e) : OKW W' e := by
  induction e using Expr.childInd with
  | _ e ih =>
    rw [okW_iff] at ho ⊢
    refine ⟨fun n v b he => ?_, fun c hc => ih c hc (fun y hy => h y (occ_child hc hy)) (ho.2 c hc)⟩
    subst he
    have h1 : wt W v = wt W' v := wt_congr fun y hy => h y (occ_child (c := ([], v)) (by simp [children]) hy)
    rw [← h1, ← h n (.inr (own_sub_binders (by simp [own])))]
    exact ho.1 n v b rfl

theorem okW_ren {σ : Name → Name} {W : Name → Nat} {e : Expr} : ∀ {e' : Expr}, Ren σ e e' → OKW (fun y => W (σ y)) e → OKW W e' := by
  induction e using Expr.childInd with
  | _ e ih =>
    intro e' hr ho
    rw [okW_iff] at ho ⊢
    constructor
    · intro n v b he
      subst he
      cases hr with
      | let_ m a b =>
        rw [wt_ren W a]
        exact ho.1 _ _ _ rfl
    · intro c' hc'
      obtain ⟨c, hc, h1, h2⟩ := hr.children.right c' hc'
      exact ih c hc h2 (ho.2 c hc)

/-- Weights for which an expression is fine. -/
theorem okW_exists {X : List Name} {e : Expr} (h : Good X e) : ∀ W : Name → Nat, ∃ W', (∀ y, y ∉ binders e → W' y = W y) ∧ OKW W' e := by
  induction e using Expr.childInd generalizing X with
  | _ e ih =>
    intro W
    have hchild : ∀ (cs : List (List Name × Expr)) (W : Name → Nat), (∀ c ∈ cs, c ∈ children e) → (cs.Pairwise fun c d => ∀ y, y ∈ binders d.2 → ¬ Occ y c.2) →
        ∃ W', (∀ y, (∀ c ∈ cs, y ∉ binders c.2) → W' y = W y) ∧ ∀ c ∈ cs, OKW W' c.2 := by
      intro cs
      induction cs with
      | nil => intro W _ _; exact ⟨W, fun _ _ => rfl, by simp⟩
      | cons c cs ihc =>
        intro W hm hp
        rw [List.pairwise_cons] at hp
        obtain ⟨W1, h1, h2⟩ := ih c (hm c (by simp)) (h.child (hm c (by simp))) W
        obtain ⟨W2, h3, h4⟩ := ihc W1 (fun d hd => hm d (by simp [hd])) hp.2
        refine ⟨W2, fun y hy => ?_, fun d hd => ?_⟩
        · rw [h3 y fun d hd => hy d (by simp [hd]), h1 y (hy c (by simp))]
        · rcases List.mem_cons.1 hd with rfl | hd
          · exact okW_congr (fun y hy => (h3 y fun d hd hyd => hp.1 d hd y hyd hy).symm) h2
          · exact h4 d hd
    by_cases hlet : ∃ n v b, e = .let_ n v b
    · obtain ⟨n, v, b, rfl⟩ := hlet
      obtain ⟨g1, g2, g3, g4, g5⟩ := good_let.1 h
      obtain ⟨W1, h1, h2⟩ := ih ([], v) (by simp [children]) g1 W
      obtain ⟨W2, h3, h4⟩ := ih ([n], b) (by simp [children]) g2 fun y => if y = n then 1 + wt W1 v else W1 y
      have hnv : ¬ Occ n v := fun hn => by
        rcases hn with hn | hn
        · exact g3 (g1.scope n hn)
        · have := mem_binders_iff.1 hn; omega
      have hnb : n ∉ binders b := fun hn => by
        have := mem_binders_iff.1 hn; have := g2.disj n (by simp); omega
      have hbv : ∀ y, Occ y v → y ∉ binders b := fun y hy hb => by
        have h5 := mem_binders_iff.1 hb
        rcases hy with hy | hy
        · have := g2.disj y (by simp [g1.scope y hy]); omega
        · have := mem_binders_iff.1 hy; have := g5 y; omega
      have hag : ∀ y, Occ y v → W1 y = W2 y := fun y hy => by
        have hne : y ≠ n := fun he => hnv (he ▸ hy)
        rw [h3 y (hbv y hy), if_neg hne]
      refine ⟨W2, fun y hy => ?_, okW_iff.2 ⟨fun n' v' b' he => ?_, fun c hc => ?_⟩⟩
      · simp only [binders, List.mem_cons, List.mem_append, not_or] at hy
        rw [h3 y hy.2.2, if_neg hy.1, h1 y hy.2.1]
      · cases he
        rw [← wt_congr hag, h3 n hnb, if_pos rfl]; omega
      · simp only [children, List.mem_cons, List.not_mem_nil, or_false] at hc
        rcases hc with rfl | rfl
        · exact okW_congr hag h2
        · exact h4
    · have hpw : (children e).Pairwise fun c d => ∀ y, y ∈ binders d.2 → ¬ Occ y c.2 := by
        have hgen : ∀ (cs : List (List Name × Expr)), (∀ c ∈ cs, c ∈ children e) → (∀ y, (cs.map fun c => cnt y c.2).sum ≤ 1) →
            cs.Pairwise fun c d => ∀ y, y ∈ binders d.2 → ¬ Occ y c.2 := by
          intro cs
          induction cs with
          | nil => intro _ _; exact .nil
          | cons c cs ihc =>
            intro hm hs
            simp only [List.map_cons, List.sum_cons] at hs
            refine List.pairwise_cons.2 ⟨fun d hd y hy ho => ?_, ihc (fun d hd => hm d (by simp [hd])) fun y => by have := hs y; omega⟩
            have h1 := mem_binders_iff.1 hy
            have h2 := le_sum_map (fun c : List Name × Expr => cnt y c.2) hd
            have h3 := cnt_eq y e
            have h4 := le_sum_map (fun c : List Name × Expr => cnt y c.2) (hm d (by simp [hd]))
            rcases ho with ho | ho
            · rcases List.mem_append.1 ((h.child (hm c (by simp))).scope y ho) with hx | hx
              · have := List.count_pos_iff.2 (own_of_scope (hm c (by simp)) hx)
                have := h.uniq y; omega
              · have := h.disj y hx; omega
            · have := mem_binders_iff.1 ho
              have := hs y; omega
        exact hgen (children e) (fun c hc => hc) fun y => by have := h.uniq y; rw [cnt_eq] at this; omega
      obtain ⟨W', h1, h2⟩ := hchild (children e) W (fun c hc => hc) hpw
      exact ⟨W', fun y hy => h1 y fun c hc hyc => hy (child_sub_binders hc hyc), okW_iff.2 ⟨fun n v b he => absurd ⟨n, v, b, he⟩ hlet, h2⟩⟩

theorem createCopy_ren {X : List Name} {v : Expr} {st : InlSt} (h : Good X v) :
    ∃ σ, Ren σ v (createCopy v st).1 ∧ (∀ y, Free y v → σ y = y) ∧ (∀ y ∈ binders v, st.next ≤ σ y) ∧
      ∀ x ∈ binders v, ∀ y ∈ binders v, σ x = σ y → x = y := by
  have hn : (binders v).Nodup := List.nodup_iff_count.2 h.uniq
  have hf : ∀ y, Free y v → y ∉ binders v := fun y hy hb => by
    have h1 := h.disj y (h.scope y hy)
    have h2 := mem_binders_iff.1 hb
    omega
  have hok := copyE_ok v ⟨st.next, st.nextTy, [], []⟩ hn
  have hr := copyE_ren v ⟨st.next, st.nextTy, [], []⟩ hn hf (copyE v ⟨st.next, st.nextTy, [], []⟩).2.r fun _ _ => rfl
  exact ⟨_, hr, fun y hy => by rw [hok.other y (hf y hy)]; rfl, fun y hy => (hok.fresh y hy).1, hok.inj⟩

/-- Weights for a copy. -/
theorem createCopy_wt {X : List Name} {v : Expr} {st : InlSt} (h : Good X v) (hX : ∀ x ∈ X, x < st.next) (W : Name → Nat) (ho : OKW W v) :
    ∃ W', (∀ y : Nat, y < st.next → W' y = W y) ∧ wt W' (createCopy v st).1 = wt W v ∧ OKW W' (createCopy v st).1 := by
  obtain ⟨σ, h1, h2, h3, h4⟩ := createCopy_ren (st := st) h
  let W' : Name → Nat := fun y => if y < st.next then W y else (((binders v).find? fun x => σ x == y).map W).getD 0
  have hlow : ∀ y : Nat, y < st.next → W' y = W y := fun y hy => if_pos hy
  have hW : ∀ y, Occ y v → W y = W' (σ y) := fun y hy => by
    by_cases hb : y ∈ binders v
    · have hge : ¬ σ y < st.next := Nat.not_lt.2 (h3 y hb)
      show W y = if σ y < st.next then _ else _
      rw [if_neg hge]
      cases hf : (binders v).find? fun x => σ x == σ y with
      | none => have := List.find?_eq_none.1 hf y hb; simp at this
      | some x =>
        have hx : σ x = σ y := by simpa using List.find?_some hf
        rw [h4 x (List.mem_of_find?_eq_some hf) y hb hx]; rfl
    · have hfr := hy.resolve_right hb
      rw [h2 y hfr, hlow y (hX y (h.scope y hfr))]
  refine ⟨W', hlow, ?_, okW_ren h1 (okW_congr hW ho)⟩
  rw [wt_ren W' h1, wt_congr hW]

/-! ### The walk -/

/-- Names that can be inlined count for more than what they are replaced by. -/
def WOK (W : Name → Nat) (X : List Name) (st : InlSt) : Prop :=
  ∀ x ∈ X, ∀ v c, st.get x = some (v, c) → wt W v < W x ∧ OKW W v ∧ ∀ y : Nat, Occ y v → y < st.next

theorem WOK.mono {W W' : Name → Nat} {X : List Name} {st st' : InlSt} (h : WOK W X st) (hle : st.next ≤ st'.next) (hw : ∀ y : Nat, y < st.next → W' y = W y)
    (hg : ∀ x ∈ X, st'.get x = st.get x) (hx : ∀ x : Nat, x ∈ X → x < st.next) : WOK W' X st' := by
  intro x hm v c hv
  obtain ⟨h1, h2, h3⟩ := h x hm v c (by rw [← hg x hm]; exact hv)
  have hag : ∀ y, Occ y v → W y = W' y := fun y hy => (hw y (h3 y hy)).symm
  refine ⟨?_, okW_congr hag h2, fun y hy => Nat.lt_of_lt_of_le (h3 y hy) hle⟩
  rw [← wt_congr hag, hw x (hx x hm)]; exact h1

theorem WOK.ext {W : Name → Nat} {X ns : List Name} {st : InlSt} (h : WOK W X st) (hn : ∀ y ∈ ns, st.get y = none) : WOK W (ns ++ X) st := by
  intro x hm v c hv
  rcases List.mem_append.1 hm with hx | hx
  · rw [hn x hx] at hv; cases hv
  · exact h x hx v c hv

/-- The walk succeeds. -/
def GoT (k : Nat) (g : Expr → InlSt → Option (Expr × InlSt)) : Prop :=
  ∀ X e st W, IPre X e st → WOK W X st → OKW W e → wt W e < k →
    ∃ e' st' W', g e st = some (e', st') ∧ (∀ y : Nat, y < st.next → W' y = W y) ∧ OKW W' e' ∧ wt W' e' ≤ wt W e

theorem IPre.occ {X : List Name} {e : Expr} {st : InlSt} (h : IPre X e st) {y : Nat} (hy : Occ y e) : y < st.next := by
  rcases hy with hy | hy
  · exact h.xlt y (h.good.scope y hy)
  · exact h.blt y (mem_binders_iff.1 hy)

/-- Before a list is visited. -/
structure LPre (X : List Name) (cs : List (List Name × Expr)) (st : InlSt) : Prop where
  good : ∀ c ∈ cs, Good (c.1 ++ X) c.2
  uniq : ∀ y, (cs.map fun c => cnt y c.2).sum ≤ 1
  own : ∀ c ∈ cs, ∀ y : Nat, y ∈ c.1 → y < st.next ∧ y ∉ X ∧ st.get y = none ∧ (cs.map fun c => cnt y c.2).sum = 0
  xlt : ∀ x : Nat, x ∈ X → x < st.next
  blt : ∀ y : Nat, 0 < (cs.map fun c => cnt y c.2).sum → y < st.next ∧ st.get y = none
  fnone : ∀ y : Nat, st.next ≤ y → st.get y = none
  stat : StatOK st.get X

theorem LPre.head {X : List Name} {c : List Name × Expr} {cs : List (List Name × Expr)} {st : InlSt} (h : LPre X (c :: cs) st) :
    IPre (c.1 ++ X) c.2 st := by
  have hb := h.blt
  have ho := h.own
  simp only [List.map_cons, List.sum_cons] at hb ho
  refine ⟨h.good c (by simp), fun x hx' => ?_, fun y hy => (hb y (by omega)).1, fun y hy => (hb y (by omega)).2, h.fnone, h.stat.ext fun y hy => (ho c (by simp) y hy).2.2.1⟩
  rcases List.mem_append.1 hx' with h' | h'
  · exact (ho c (by simp) x h').1
  · exact h.xlt x h'

theorem LPre.tail {d : Bool} {s : Mode} {X : List Name} {c : List Name × Expr} {cs : List (List Name × Expr)} {st st1 : InlSt} {e1 : Expr} (h : LPre X (c :: cs) st)
    (hp : IPost d s (c.1 ++ X) c.2 st e1 st1) : LPre X cs st1 ∧ (∀ x ∈ X, st1.get x = st.get x) ∧ ∀ d ∈ cs, ∀ y : Nat, Occ y d.2 → y < st.next := by
  have hb := h.blt
  have ho := h.own
  have hu := h.uniq
  simp only [List.map_cons, List.sum_cons] at hb ho hu
  have hX1 : ∀ x : Nat, x ∈ X → cnt x c.2 = 0 := fun x hx => (h.good c (by simp)).disj x (by simp [hx])
  have hXget : ∀ x ∈ X, st1.get x = st.get x := fun x hx' => hp.get x (h.xlt x hx') (hX1 x hx')
  refine ⟨⟨fun d hd => h.good d (by simp [hd]), fun y => by have := hu y; omega, fun d hd y hy => ?_, fun x hx' => Nat.lt_of_lt_of_le (h.xlt x hx') hp.le, fun y hy => ?_, hp.fnone, h.stat.congr hXget⟩, hXget, fun d hd y hy => ?_⟩
  · obtain ⟨o1, o2, o3, o4⟩ := ho d (by simp [hd]) y hy
    exact ⟨Nat.lt_of_lt_of_le o1 hp.le, o2, by rw [hp.get y o1 (by omega)]; exact o3, by omega⟩
  · obtain ⟨b1, b2⟩ := hb y (by omega)
    exact ⟨Nat.lt_of_lt_of_le b1 hp.le, by rw [hp.get y b1 (by have := hu y; omega)]; exact b2⟩
  · rcases hy with hy | hy
    · rcases List.mem_append.1 ((h.good d (by simp [hd])).scope y hy) with hx | hx
      · exact (ho d (by simp [hd]) y hx).1
      · exact h.xlt y hx
    · have := mem_binders_iff.1 hy
      have := le_sum_map (fun c : List Name × Expr => cnt y c.2) hd
      exact (hb y (by omega)).1

theorem goL_T {d : Bool} {s : Mode} {g : Expr → InlSt → Option (Expr × InlSt)} {k : Nat} (hg : GoOK d s g) (ht : GoT k g) {X : List Name} :
    ∀ (cs : List (List Name × Expr)) (st : InlSt) (W : Name → Nat), LPre X cs st → WOK W X st → (∀ c ∈ cs, OKW W c.2) →
      (cs.map fun c => wt W c.2).sum < k →
      ∃ es' st' W', goL g (cs.map (·.2)) st = some (es', st') ∧ (∀ y : Nat, y < st.next → W' y = W y) ∧ (∀ e ∈ es', OKW W' e) ∧
        (es'.map (wt W')).sum ≤ (cs.map fun c => wt W c.2).sum := by
  intro cs
  induction cs with
  | nil => intro st W _ _ _ _; exact ⟨[], st, W, rfl, fun _ _ => rfl, by simp, by simp⟩
  | cons c cs ih =>
    intro st W hp hw ho hk
    simp only [List.map_cons, List.sum_cons] at hk
    obtain ⟨e1, st1, W1, h1, h2, h3, h4⟩ := ht (c.1 ++ X) c.2 st W hp.head (hw.ext fun y hy => (hp.own c (by simp) y hy).2.2.1) (ho c (by simp)) (by omega)
    have hpost := hg _ _ _ _ _ hp.head h1
    obtain ⟨t1, t2, t3⟩ := hp.tail hpost
    have hag : ∀ d ∈ cs, ∀ y, Occ y d.2 → W y = W1 y := fun d hd y hy => (h2 y (t3 d hd y hy)).symm
    have hsum : (cs.map fun c => wt W c.2).sum = (cs.map fun c => wt W1 c.2).sum := map_sum_congr fun d hd => wt_congr (hag d hd)
    obtain ⟨es2, st2, W2, i1, i2, i3, i4⟩ := ih st1 W1 t1 (hw.mono hpost.le h2 t2 hp.xlt) (fun d hd => okW_congr (hag d hd) (ho d (by simp [hd]))) (by omega)
    have hle := hpost.le
    have hocc : ∀ y : Nat, Occ y e1 → y < st1.next := fun y hy => by
      rcases hy with hy | hy
      · exact Nat.lt_of_lt_of_le (hp.head.xlt y (hpost.good.scope y hy)) hle
      · have := mem_binders_iff.1 hy
        by_cases hz : y < st1.next
        · exact hz
        · have := hpost.cnew y (by omega); omega
    have hag1 : ∀ y, Occ y e1 → W1 y = W2 y := fun y hy => (i2 y (hocc y hy)).symm
    refine ⟨e1 :: es2, st2, W2, ?_, fun y hy => by rw [i2 y (by omega), h2 y hy], fun e he => ?_, ?_⟩
    · simp only [List.map_cons, goL, h1, i1, Option.bind_some]
    · rcases List.mem_cons.1 he with rfl | he
      · exact okW_congr hag1 h3
      · exact i3 e he
    · simp only [List.map_cons, List.sum_cons]
      rw [← wt_congr hag1]; omega

theorem IPost.occ {d : Bool} {s : Mode} {X : List Name} {e e' : Expr} {st st' : InlSt} (h : IPre X e st) (h' : IPost d s X e st e' st') {y : Nat} (hy : Occ y e') : y < st'.next := by
  rcases hy with hy | hy
  · exact Nat.lt_of_lt_of_le (h.xlt y (h'.good.scope y hy)) h'.le
  · have := mem_binders_iff.1 hy
    by_cases hz : y < st'.next
    · exact hz
    · have := h'.cnew y (by omega); omega

theorem IPre.children {X : List Name} {e : Expr} {st : InlSt} (h : IPre X e st) : LPre X (Core.children e) st := by
  have hcnt : ∀ y, cnt y e = (own e).count y + ((Core.children e).map fun c => cnt y c.2).sum := fun y => cnt_eq y e
  refine ⟨fun c hc => h.good.child hc, fun y => by have := h.good.uniq y; rw [hcnt] at this; omega, fun c hc y hy => ?_, h.xlt,
    fun y hy => ⟨h.blt y (by rw [hcnt]; omega), h.bnone y (by rw [hcnt]; omega)⟩, h.fnone, h.stat⟩
  have h1 := List.count_pos_iff.2 (own_of_scope hc hy)
  have h2 := hcnt y
  have h3 := h.good.uniq y
  exact ⟨h.blt y (by omega), fun hx => by have := h.good.disj y hx; omega, h.bnone y (by omega), by omega⟩

theorem rebuild_let {e : Expr} {cs : List Expr} {n : Name} {v b : Expr} (h : rebuild e cs = .let_ n v b) : ∃ v0 b0, e = .let_ n v0 b0 := by
  unfold rebuild at h
  split at h <;> first | (simp only [Expr.let_.injEq] at h; obtain ⟨rfl, -⟩ := h; exact ⟨_, _, rfl⟩) | simp only [reduceCtorEq] at h | exact ⟨_, _, h⟩

theorem zipWith_snd_mem {cs : List (List Name × Expr)} : ∀ {es : List Expr} {c : List Name × Expr}, c ∈ List.zipWith (fun (c : List Name × Expr) x => (c.1, x)) cs es → c.2 ∈ es := by
  induction cs with
  | nil => intro es c h; simp at h
  | cons d cs ih =>
    intro es c h
    cases es with
    | nil => simp at h
    | cons e es =>
      rw [List.zipWith_cons_cons] at h
      rcases List.mem_cons.1 h with rfl | h
      · simp
      · exact List.mem_cons_of_mem _ (ih h)

theorem goL_length {g : Expr → InlSt → Option (Expr × InlSt)} : ∀ {es : List Expr} {st : InlSt} {es' : List Expr} {st' : InlSt}, goL g es st = some (es', st') → es'.length = es.length
  | [], st, es', st', h => by simp only [goL, Option.some.injEq, Prod.mk.injEq] at h; rw [← h.1]
  | e :: es, st, es', st', h => by
    simp only [goL] at h
    obtain ⟨⟨e1, st1⟩, h1, h2⟩ := Option.bind_eq_some_iff.1 h
    obtain ⟨⟨es2, st2⟩, h3, h4⟩ := Option.bind_eq_some_iff.1 h2
    simp only [Option.some.injEq, Prod.mk.injEq] at h4
    obtain ⟨rfl, rfl⟩ := h4
    simp [goL_length h3]

theorem goSub_T {d : Bool} {s : Mode} {g : Expr → InlSt → Option (Expr × InlSt)} {k : Nat} (hg : GoOK d s g) (ht : GoT k g) {X : List Name} {e : Expr} {st : InlSt} {W : Name → Nat}
    (h : IPre X e st) (hw : WOK W X st) (ho : OKW W e) (hk : wt W e < k + 1) (hl : ∀ n v b, e ≠ .let_ n v b) :
    ∃ e' st' W', goSub g e st = some (e', st') ∧ (∀ y : Nat, y < st.next → W' y = W y) ∧ OKW W' e' ∧ wt W' e' ≤ wt W e := by
  have hsub : goSub g e st = (goL g ((children e).map (·.2)) st).bind fun r => some (rebuild e r.1, r.2) := by
    cases e <;> first | rfl | exact absurd rfl (hl _ _ _)
  by_cases hn : ∃ x, e = .name x
  · obtain ⟨x, rfl⟩ := hn
    exact ⟨.name x, st, W, rfl, fun _ _ => rfl, ho, Nat.le_refl _⟩
  · have hn' : ∀ x, e ≠ .name x := fun x hx => hn ⟨x, hx⟩
    have hwe := wt_eq W hn'
    obtain ⟨es', st', W', h1, h2, h3, h4⟩ := goL_T hg ht (children e) st W h.children hw (okW_iff.1 ho).2 (by omega)
    have hlen : es'.length = (children e).length := by rw [goL_length h1]; simp
    refine ⟨rebuild e es', st', W', by rw [hsub, h1]; rfl, h2, okW_iff.2 ⟨fun n v b he => ?_, fun c hc => ?_⟩, ?_⟩
    · obtain ⟨v0, b0, he0⟩ := rebuild_let he
      exact absurd he0 (hl _ _ _)
    · rw [children_rebuild hlen] at hc
      exact h3 _ (zipWith_snd_mem hc)
    · rw [wt_eq W' fun x hx => hn' x (rebuild_name hlen hx), children_rebuild hlen, zipWith_sum (fun _ : Nat => 0) _ _ hlen]
      omega

theorem inlineAt_wt {e d : Expr} {x : Name} {c : Nat} (h : checkForInline e = some (x, c)) (W : Name → Nat) :
    wt W (inlineAt d e) + W x = wt W e + wt W d := by
  induction e using Expr.childInd generalizing c with
  | _ e ih =>
    cases e <;> simp only [checkForInline, reduceCtorEq] at h
    case name n => cases h; simp only [inlineAt, wt]; omega
    case call f xs =>
      obtain ⟨⟨x0, c0⟩, h1, h2⟩ := Option.map_eq_some_iff.1 h
      cases h2
      have := ih ([], f) (by simp [Core.children]) h1
      simp only [inlineAt, wt] at this ⊢; omega
    case piApp f t =>
      have := ih ([], f) (by simp [Core.children]) h
      simp only [inlineAt, wt] at this ⊢; omega

theorem inlineAt_okW {e d : Expr} {x : Name} {c : Nat} (h : checkForInline e = some (x, c)) {W : Name → Nat} (he : OKW W e) (hd : OKW W d) :
    OKW W (inlineAt d e) := by
  induction e using Expr.childInd generalizing c with
  | _ e ih =>
    cases e <;> simp only [checkForInline, reduceCtorEq] at h
    case name n => exact hd
    case call f xs =>
      obtain ⟨⟨x0, c0⟩, h1, h2⟩ := Option.map_eq_some_iff.1 h
      cases h2
      rw [okW_iff] at he ⊢
      refine ⟨fun _ _ _ h => by simp [inlineAt] at h, fun c hc => ?_⟩
      simp only [inlineAt, Core.children, List.mem_cons] at hc
      rcases hc with rfl | hc
      · exact ih ([], f) (by simp [Core.children]) h1 (he.2 ([], f) (by simp [Core.children]))
      · exact he.2 c (by simp only [Core.children, List.mem_cons]; exact .inr hc)
    case piApp f t =>
      rw [okW_iff] at he ⊢
      refine ⟨fun _ _ _ h => by simp [inlineAt] at h, fun c hc => ?_⟩
      simp only [inlineAt, Core.children, List.mem_cons, List.not_mem_nil, or_false] at hc
      subst hc
      exact ih ([], f) (by simp [Core.children]) h (he.2 ([], f) (by simp [Core.children]))

theorem inlineNode_T {X : List Name} {e : Expr} {st : InlSt} {W : Name → Nat} (h : IPre X e st) (hw : WOK W X st) (ho : OKW W e) :
    ∃ W', (∀ y : Nat, y < st.next → W' y = W y) ∧ OKW W' (inlineNode e st).1 ∧ wt W' (inlineNode e st).1 ≤ wt W e := by
  have hrefl : ∃ W', (∀ y : Nat, y < st.next → W' y = W y) ∧ OKW W' e ∧ wt W' e ≤ wt W e := ⟨W, fun _ _ => rfl, ho, Nat.le_refl _⟩
  unfold inlineNode
  cases hc : checkForInline e with
  | none => exact hrefl
  | some p =>
    obtain ⟨x, calls⟩ := p
    dsimp only
    cases hg : st.get x with
    | none => exact hrefl
    | some q =>
      obtain ⟨v, need⟩ := q
      dsimp only
      split
      · have hx : x ∈ X := h.good.scope x (checkForInline_free hc)
        obtain ⟨X0, h1, h2⟩ := h.stat x hx v need hg
        obtain ⟨w1, w2, w3⟩ := hw x hx v need hg
        obtain ⟨W', c1, c2, c3⟩ := createCopy_wt h2 (fun x hx => h.xlt x (h1 x hx)) W w2
        have hag : ∀ y, Occ y e → W y = W' y := fun y hy => (c1 y (h.occ hy)).symm
        refine ⟨W', c1, inlineAt_okW hc (okW_congr hag ho) c3, ?_⟩
        have h5 := inlineAt_wt (d := (createCopy v st).1) hc W'
        rw [c2, ← wt_congr hag, c1 x (h.xlt x hx)] at h5
        show wt W' (inlineAt (createCopy v st).1 e) ≤ _
        omega
      · exact hrefl

theorem goLet_T {d : Bool} {s : Mode} {g : Expr → InlSt → Option (Expr × InlSt)} {k : Nat} (ht : GoT k g) {X : List Name} {n : Name} {v v' b : Expr} {st st1 : InlSt} {W W1 : Name → Nat}
    (h : IPre X (.let_ n v b) st) (hw : WOK W X st) (ho : OKW W (.let_ n v b)) (hk : wt W (.let_ n v b) < k + 1) (o : Option Nat)
    (hp : IPost d s X v st v' st1) (h2 : ∀ y : Nat, y < st.next → W1 y = W y) (h3 : OKW W1 v') (h4 : wt W1 v' ≤ wt W v) :
    ∃ b' st' W', g b (st1.insert n v' o) = some (b', st') ∧ (∀ y : Nat, y < st.next → W' y = W y) ∧ OKW W' (.let_ n v' b') ∧ wt W' (.let_ n v' b') ≤ wt W (.let_ n v b) := by
  obtain ⟨r1, r2, r3, r4⟩ := h.rest o hp
  have ho' := okW_iff.1 ho
  have hn := h.name.1
  have hlt : wt W v < W n := ho'.1 n v b rfl
  have hb : ∀ y, Occ y b → W y = W1 y := fun y hy => (h2 y (h.occ (occ_child (c := ([n], b)) (by simp [Core.children]) hy))).symm
  have hocc : ∀ y : Nat, Occ y v' → y < st1.next := fun y hy => hp.occ h.val hy
  simp only [wt] at hk
  have hW1 : WOK W1 (n :: X) (st1.insert n v' o) := by
    intro x hx u c hu
    rcases List.mem_cons.1 hx with rfl | hx
    · rw [r4 u c hu, h2 x hn]
      refine ⟨by omega, h3, fun y hy => ?_⟩
      rw [next_insert]; exact hocc y hy
    · exact hw.mono (by rw [next_insert]; exact hp.le) h2 r3 h.xlt x hx u c hu
  obtain ⟨b', st', W2, g1, g2, g3, g4⟩ := ht (n :: X) b _ W1 r1 hW1 (okW_congr hb (ho'.2 ([n], b) (by simp [Core.children]))) (by rw [← wt_congr hb]; omega)
  rw [next_insert] at g2
  have hv' : ∀ y, Occ y v' → W1 y = W2 y := fun y hy => (g2 y (hocc y hy)).symm
  have hle := hp.le
  rw [← wt_congr hb] at g4
  refine ⟨b', st', W2, g1, fun y hy => by rw [g2 y (by omega), h2 y hy], okW_iff.2 ⟨fun n0 v0 b0 he => ?_, fun c hc => ?_⟩, ?_⟩
  · cases he
    rw [← wt_congr hv', g2 n (Nat.lt_of_lt_of_le hn hle), h2 n hn]; omega
  · simp only [Core.children, List.mem_cons, List.not_mem_nil, or_false] at hc
    rcases hc with rfl | rfl
    · exact okW_congr hv' h3
    · exact g3
  · simp only [wt]
    rw [← wt_congr hv']; omega

/-- The walk ends. -/
theorem inlineGo_T : ∀ k, GoT k (inlineGo k)
  | 0 => fun _ _ _ _ _ _ _ h => by omega
  | k + 1 => by
    intro X e st W hpre hw ho hk
    have ih := inlineGo_T k
    have hok := inlineGo_ok (d := true) (s := lax) k
    by_cases hlet : ∃ n v b, e = .let_ n v b
    · obtain ⟨n, v, b, rfl⟩ := hlet
      have hk' := hk
      simp only [wt] at hk'
      obtain ⟨v', st1, W1, h1, h2, h3, h4⟩ := ih X v st W hpre.val hw ((okW_iff.1 ho).2 ([], v) (by simp [Core.children])) (by omega)
      obtain ⟨b', st', W', g1, g2, g3, g4⟩ := goLet_T ih hpre hw ho hk (checkInlinable v' false) (hok _ _ _ _ _ hpre.val h1) h2 h3 h4
      exact ⟨.let_ n v' b', st', W', by simp only [inlineGo, h1, Option.bind_some, goSub, g1], g2, g3, g4⟩
    · have hgo : inlineGo (k + 1) e st = goSub (inlineGo k) (inlineNode e st).1 (inlineNode e st).2 := by
        cases e <;> first | rfl | exact absurd ⟨_, _, _, rfl⟩ hlet
      rw [hgo]
      obtain ⟨n1, n2⟩ := inlineNode_ok (d := true) (s := lax) hpre
      have hp1 := n1.pre hpre n2
      obtain ⟨W1, t1, t2, t3⟩ := inlineNode_T hpre hw ho
      have hle := n1.le
      have hw1 : WOK W1 X (inlineNode e st).2 := hw.mono hle t1 (fun x _ => by unfold InlSt.get; rw [n2]) hpre.xlt
      generalize (inlineNode e st).1 = e1 at *
      generalize (inlineNode e st).2 = st1 at *
      by_cases hlet1 : ∃ n v b, e1 = .let_ n v b
      · obtain ⟨n, v, b, rfl⟩ := hlet1
        obtain ⟨b', st', W', g1, g2, g3, g4⟩ := goLet_T ih hp1 hw1 t2 (by omega) none (.refl (d := true) (s := lax) hp1.val) (fun _ _ => rfl) ((okW_iff.1 t2).2 ([], v) (by simp [Core.children])) (Nat.le_refl _)
        refine ⟨.let_ n v b', st', W', ?_, fun y hy => by rw [g2 y (by omega), t1 y hy], g3, by omega⟩
        rw [insert_none] at g1
        simp only [goSub, g1, Option.bind_some]
      · obtain ⟨e', st', W', g1, g2, g3, g4⟩ := goSub_T hok ih hp1 hw1 t2 (by omega) fun n v b he => hlet1 ⟨n, v, b, he⟩
        exact ⟨e', st', W', g1, fun y hy => by rw [g2 y (by omega), t1 y hy], g3, by omega⟩

theorem inlineDefs_T {k : Nat} : ∀ (ds : List ValueDef) (X : List Name) (st : InlSt) (W : Name → Nat), IPre X (lets (defPairs ds) unit) st → WOK W X st →
    OKW W (lets (defPairs ds) unit) → wt W (lets (defPairs ds) unit) < k → (inlineDefs k ds st).isSome = true := by
  intro ds
  induction ds with
  | nil => intro X st W _ _ _ _; rfl
  | cons d ds ih =>
    intro X st W hp hw ho hk
    have hp : IPre X (.let_ d.name d.value (lets (defPairs ds) unit)) st := hp
    have ho : OKW W (.let_ d.name d.value (lets (defPairs ds) unit)) := ho
    have hk : wt W (.let_ d.name d.value (lets (defPairs ds) unit)) < k := hk
    have hk' := hk
    simp only [wt] at hk'
    obtain ⟨v', st1, W1, h1, h2, h3, h4⟩ := inlineGo_T k X d.value st W hp.val hw ((okW_iff.1 ho).2 ([], d.value) (by simp [Core.children])) (by omega)
    have hpost := inlineGo_ok k (d := true) (s := lax) _ _ _ _ _ hp.val h1
    -- the rest as if it was one expression
    classical
    have hdummy : GoT k fun e st' => if e = lets (defPairs ds) unit then (inlineDefs k ds st').map fun r => (e, r.2) else some (e, st') := by
      intro X' e' st' W' q1 q2 q3 q4
      by_cases he : e' = lets (defPairs ds) unit
      · subst he
        obtain ⟨r, hr⟩ := Option.isSome_iff_exists.1 (ih X' st' W' q1 q2 q3 q4)
        exact ⟨_, r.2, W', by dsimp only; rw [if_pos rfl, hr]; rfl, fun _ _ => rfl, q3, Nat.le_refl _⟩
      · exact ⟨e', st', W', by dsimp only; rw [if_neg he], fun _ _ => rfl, q3, Nat.le_refl _⟩
    obtain ⟨b', st', W', g1, -⟩ := goLet_T hdummy hp hw ho (by omega) ((checkInlinable v' false).or (checkSmall v')) hpost h2 h3 h4
    rw [if_pos rfl] at g1
    obtain ⟨r, hr, -⟩ := Option.map_eq_some_iff.1 g1
    simp only [inlineDefs, h1, Option.bind_some, hr, Option.isSome_some]

end Tic.Core
