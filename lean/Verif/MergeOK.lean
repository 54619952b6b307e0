import Verif.MergeLemmas
import Verif.PropInlineSimple
/-
Helper: `merge_match` satisfies `StepOK`.
-/
namespace Tic.Core

variable {s : Mode} {X : List Name}

/-- Binders in a list of branches. -/
def cntB (y : Name) (bs : List Branch) : Nat := (bindersB bs).count y
@[simp] theorem cntB_nil (y : Name) : cntB y [] = 0 := rfl
@[simp] theorem cntB_cons (y : Name) (b : Branch) (bs : List Branch) :
    cntB y (b :: bs) = b.binds.count y + cnt y b.body + cntB y bs := by
  cases b; simp [cntB, cnt, bindersB, List.count_append, Branch.binds, Branch.body]; omega
theorem cnt_mtch (y : Name) (e : Expr) (bs : List Branch) : cnt y (.mtch e bs) = cnt y e + cntB y bs := by
  simp [cntB, cnt, binders, List.count_append]
theorem cntB_perm {bs bs' : List Branch} (h : bs.Perm bs') (y : Name) : cntB y bs = cntB y bs' := by
  induction h with
  | nil => rfl
  | cons x _ ih => simp [ih]
  | swap x z l => simp only [cntB_cons]; omega
  | trans _ _ h1 h2 => rw [h1, h2]
theorem cntB_mem {b : Branch} {bs : List Branch} (h : b ∈ bs) (y : Name) : b.binds.count y + cnt y b.body ≤ cntB y bs := by
  induction bs with
  | nil => cases h
  | cons a l ih =>
    rw [cntB_cons]
    rcases List.mem_cons.1 h with rfl | h
    · omega
    · have := ih h; omega

theorem free_mtch {x : Name} {e : Expr} {bs : List Branch} : Free x (.mtch e bs) ↔ Free x e ∨ FreeB x bs := by rw [Free]
theorem free_letrec {x n : Name} {t : Ty} {v e : Expr} : Free x (.letrec n t v e) ↔ (x ≠ n ∧ Free x v) ∨ (x ≠ n ∧ Free x e) := by
  rw [Free]; constructor <;> intro h
  · rcases h with ⟨h1, h2 | h2⟩
    · exact .inl ⟨h1, h2⟩
    · exact .inr ⟨h1, h2⟩
  · rcases h with ⟨h1, h2⟩ | ⟨h1, h2⟩
    · exact ⟨h1, .inl h2⟩
    · exact ⟨h1, .inr h2⟩

theorem findBranch_mem {c : Name} {b : Branch} : ∀ {bs : List Branch}, findBranch c bs = some b → b ∈ bs ∧ b.ctor = c
  | a :: l, h => by
    simp only [findBranch] at h
    split at h
    · cases h; exact ⟨by simp, by assumption⟩
    · obtain ⟨h1, h2⟩ := findBranch_mem h
      exact ⟨List.mem_cons_of_mem _ h1, h2⟩

theorem findBranch_of_mem {b : Branch} : ∀ {bs : List Branch}, (bs.map Branch.ctor).Nodup → b ∈ bs → findBranch b.ctor bs = some b
  | a :: l, hn, h => by
    simp only [List.map_cons, List.nodup_cons] at hn
    simp only [findBranch]
    rcases List.mem_cons.1 h with rfl | h
    · simp
    · rw [if_neg fun he : a.ctor = b.ctor => hn.1 (he ▸ List.mem_map.2 ⟨b, h, rfl⟩)]
      exact findBranch_of_mem hn.2 h

theorem findBranch_perm {bs bs' : List Branch} (hn : (bs.map Branch.ctor).Nodup) (h : bs.Perm bs') (c : Name) :
    findBranch c bs = findBranch c bs' := by
  have hn' : (bs'.map Branch.ctor).Nodup := (h.map _).nodup_iff.1 hn
  cases hb : findBranch c bs with
  | some b =>
    obtain ⟨h1, rfl⟩ := findBranch_mem hb
    exact (findBranch_of_mem hn' (h.mem_iff.1 h1)).symm
  | none =>
    cases hb' : findBranch c bs' with
    | none => rfl
    | some b =>
      obtain ⟨h1, rfl⟩ := findBranch_mem hb'
      rw [findBranch_of_mem hn (h.mem_iff.2 h1)] at hb
      cases hb

theorem insertBy_perm {α : Type} (key : α → Nat) (a : α) : ∀ l : List α, (insertBy key a l).Perm (a :: l)
  | [] => .refl _
  | b :: l => by
    simp only [insertBy]
    split
    · exact .refl _
    · exact ((insertBy_perm key a l).cons b).trans (.swap a b l)

theorem sortBy_perm {α : Type} (key : α → Nat) (l : List α) : (sortBy key l).Perm l := by
  have : ∀ (l acc : List α), (l.foldl (fun acc a => insertBy key a acc) acc).Perm (l ++ acc) := by
    intro l
    induction l with
    | nil => intro acc; exact .refl _
    | cons a l ih =>
      intro acc
      rw [List.foldl_cons]
      refine (ih _).trans ?_
      refine ((insertBy_perm key a acc).append_left l).trans ?_
      exact List.perm_middle
  simpa [sortBy] using this l []

/-! ### One branch -/

theorem mergeBranch_ok (hs : s.panic = false) {o : Branch} {outer : List Branch} (hf : findBranch o.ctor outer = some o) :
    ∀ (e : Expr) (X : List Name) {r : Expr}, Good X (.mtch e outer) → mergeBranch o e = some r →
      Le s X (.mtch e outer) r ∧ (∀ y, cnt y r = cnt y e + (o.binds.count y + cnt y o.body)) ∧ (∀ x, Free x r → x ∈ X) ∧ WellShaped r := by
  have hmem := (findBranch_mem hf).1
  intro e
  induction e using Expr.strong with
  | _ e ih =>
    intro X r hg hr
    have hB : ∀ x, FreeB x outer → x ∈ X := fun x hx => hg.scope x (free_mtch.2 (.inr hx))
    have hc := hg.uniq
    have hd := hg.disj
    have hws := wellShaped_mtch.1 hg.recs
    simp only [cnt_mtch] at hc hd
    have hge : Good X e := by simpa using hg.child (c := ([], e)) (by simp [children])
    have hob : ∀ y, o.binds.count y + cnt y o.body ≤ cntB y outer := cntB_mem hmem
    cases e <;> simp only [mergeBranch, reduceCtorEq] at hr
    case con c ts fields =>
      split at hr
      · rename_i hcl
        cases hr
        obtain ⟨rfl, hl⟩ := hcl
        have hargs : ∀ e ∈ fields, ∀ y, Free y e → y ∈ X := fun e he y hy =>
          hge.scope y (by rw [Free]; exact FreeL_iff.2 ⟨e, he, hy⟩)
        have hbody : ∀ y, Free y o.body → y ∈ o.binds ++ X := fun y hy => by
          by_cases hm : y ∈ o.binds
          · simp [hm]
          · exact List.mem_append_right _ (hB y (FreeB_iff.2 ⟨o, hmem, hm, hy⟩))
        have hmap : (o.binds.map fun n => (n, Ty.int)).map (·.1) = o.binds := by simp [Function.comp_def]
        refine ⟨Le.trans (e' := .call (.lam (o.binds.map fun n => (n, Ty.int)) o.body) fields) (fun k ρ ρ' hρ => ?_) ?_, fun y => ?_, fun x hx => ?_, ?_⟩
        · refine rel_mtch_con hs (all2_fund fun e he y hy => hρ y (hargs e he y hy)) hf hmap fun j hj vs vs' hvs hlen => fund _ fun y hy => ?_
          exact lookRel_append hρ hj hvs hlen y (hbody y hy)
        · have := leD_bindLets (d := true) (s := s) (b := o.body) (ps := o.binds.map fun n => (n, Ty.int)) (es := fields) (X := X) (by simp [hl]) hargs
            (by
              rw [hmap]
              refine List.nodup_iff_count.2 fun y => ?_
              have := hob y; have := hc y; omega)
            (by
              rw [hmap]
              intro p hp hpx
              have := hd p hpx; have := hob p
              have : 0 < o.binds.count p := List.count_pos_iff.2 hp
              omega)
            (by rw [hmap]; exact hbody)
          rw [hmap] at this
          exact this
        · rw [cnt_bindLets y _ hl.symm, cnt_con]; omega
        · rcases free_bindLets hl.symm hx with h | ⟨h1, h2⟩
          · exact hge.scope x (by rw [Free]; exact h)
          · exact hB x (FreeB_iff.2 ⟨o, hmem, h1, h2⟩)
        · rw [wellShaped_bindLets hl.symm]
          exact ⟨wellShaped_con.1 hws.2.1, hws.2.2 o hmem⟩
      · cases hr
    case let_ n v e =>
      obtain ⟨r', hr', rfl⟩ := Option.map_eq_some_iff.1 hr
      obtain ⟨h1, h2, h3, h4, h5⟩ := good_let.1 hge
      simp only [cnt_let] at hc hd
      have hg' : Good (n :: X) (.mtch e outer) := by
        refine ⟨fun y => ?_, fun y hy => ?_, fun x hx => ?_, wellShaped_mtch.2 ⟨hws.1, h2.recs, hws.2.2⟩⟩
        · have := hc y; rw [cnt_mtch]; omega
        · rw [cnt_mtch]
          rcases List.mem_cons.1 hy with rfl | hy
          · have := hc y; simp at this; omega
          · have := hd y hy; omega
        · rcases free_mtch.1 hx with h | h
          · exact h2.scope x h
          · exact List.mem_cons_of_mem _ (hB x h)
      obtain ⟨i1, i2, i3, i4⟩ := ih e (by simp only [Expr.let_.sizeOf_spec]; omega) (n :: X) hg' hr'
      refine ⟨Le.trans (e' := .let_ n v (.mtch e outer)) (fun k ρ ρ' hρ => ?_) (le_let (.refl h1.scope) i1), fun y => ?_, fun x hx => ?_, wellShaped_let.2 ⟨h1.recs, i4⟩⟩
      · refine rel_mtch_let (fund v fun y hy => hρ y (h1.scope y hy)) (fun j hj w w' hw => fund e fun y hy => ?_) fun w' => fundBr fun x hx => ?_
        · exact lookRel_cons hρ hj hw y (h2.scope y hy)
        · exact (hρ x (hB x hx)).consR fun he => h3 (he ▸ hB x hx)
      · have := i2 y; rw [cnt_let, cnt_let]; omega
      · rcases free_let.1 hx with h | ⟨hn, h⟩
        · exact h1.scope x h
        · rcases List.mem_cons.1 (i3 x h) with h | h
          · exact absurd h hn
          · exact h
    case letrec n t v e =>
      obtain ⟨r', hr', rfl⟩ := Option.map_eq_some_iff.1 hr
      have h1 : Good (n :: X) v := hge.child (c := ([n], v)) (by simp [children])
      have h2 : Good (n :: X) e := hge.child (c := ([n], e)) (by simp [children])
      simp only [cnt_letrec] at hc hd
      have h3 : n ∉ X := fun hn => by have := hd n hn; simp at this
      obtain ⟨⟨ps, b⟩, hrec⟩ := Option.isSome_iff_exists.1 (hge.recSome rfl)
      have hg' : Good (n :: X) (.mtch e outer) := by
        refine ⟨fun y => ?_, fun y hy => ?_, fun x hx => ?_, wellShaped_mtch.2 ⟨hws.1, h2.recs, hws.2.2⟩⟩
        · have := hc y; rw [cnt_mtch]; omega
        · rw [cnt_mtch]
          rcases List.mem_cons.1 hy with rfl | hy
          · have := hc y; simp at this; omega
          · have := hd y hy; omega
        · rcases free_mtch.1 hx with h | h
          · exact h2.scope x h
          · exact List.mem_cons_of_mem _ (hB x h)
      obtain ⟨i1, i2, i3, i4⟩ := ih e (by simp only [Expr.letrec.sizeOf_spec]; omega) (n :: X) hg' hr'
      have hbs : ∀ y, Free y b → y ∈ ps ++ n :: X := fun y hy => by
        by_cases hp : y ∈ ps
        · simp [hp]
        · exact List.mem_append_right _ (h1.scope y ((recLam_free hrec).2 ⟨hp, hy⟩))
      refine ⟨Le.trans (e' := .letrec n t v (.mtch e outer)) (fun k ρ ρ' hρ => ?_)
        (le_letrec (.inr ⟨ps, b, b, hrec, hrec, .refl hbs⟩) i1), fun y => ?_, fun x hx => ?_, wellShaped_letrec.2 ⟨by simp [hrec], h1.recs, i4⟩⟩
      · have hV : V s k (.rclo ρ n ps b) (.rclo ρ' n ps b) := by
          refine FR_rclo rfl fun i hi hself vs vs' hvs hl => ?_
          refine fund b fun x hx => LookRel.cons hself fun hxn => LookRel.bindAll hvs hl fun hxp => ?_
          rcases List.mem_append.1 (hbs x hx) with h | h
          · exact absurd h hxp
          · rcases List.mem_cons.1 h with h | h
            · exact absurd h hxn
            · exact (hρ x h).mono (by omega)
        refine rel_mtch_letrec hrec (fund e fun y hy => ?_) fun w' => fundBr fun x hx => ?_
        · exact lookRel_cons hρ (Nat.le_refl _) hV y (h2.scope y hy)
        · exact (hρ x (hB x hx)).consR fun he => h3 (he ▸ hB x hx)
      · have := i2 y; rw [cnt_letrec, cnt_letrec]; omega
      · rcases free_letrec.1 hx with ⟨hn, h⟩ | ⟨hn, h⟩
        · rcases List.mem_cons.1 (h1.scope x h) with h | h
          · exact absurd h hn
          · exact h
        · rcases List.mem_cons.1 (i3 x h) with h | h
          · exact absurd h hn
          · exact h
    case pi v e =>
      obtain ⟨r', hr', rfl⟩ := Option.map_eq_some_iff.1 hr
      have h2 : Good X e := by simpa using hge.child (c := ([], e)) (by simp [children])
      simp only [cnt_pi] at hc hd
      have hg' : Good X (.mtch e outer) := by
        refine ⟨fun y => by rw [cnt_mtch]; exact hc y, fun y hy => by rw [cnt_mtch]; exact hd y hy, fun x hx => ?_, wellShaped_mtch.2 ⟨hws.1, h2.recs, hws.2.2⟩⟩
        rcases free_mtch.1 hx with h | h
        · exact h2.scope x h
        · exact hB x h
      obtain ⟨i1, i2, i3, i4⟩ := ih e (by simp only [Expr.pi.sizeOf_spec]; omega) X hg' hr'
      refine ⟨Le.trans (e' := .pi v (.mtch e outer)) (fun k ρ ρ' hρ => ?_) (fun k ρ ρ' hρ => rel_pi (i1 k ρ ρ' hρ)), fun y => ?_, fun x hx => i3 x (by simpa [Free] using hx), wellShaped_pi.2 i4⟩
      · exact rel_mtch_pi (fund e fun y hy => hρ y (h2.scope y hy)) (fundBr fun x hx => hρ x (hB x hx))
      · rw [cnt_pi, cnt_pi]; exact i2 y
    case piApp e v =>
      obtain ⟨r', hr', rfl⟩ := Option.map_eq_some_iff.1 hr
      have h2 : Good X e := by simpa using hge.child (c := ([], e)) (by simp [children])
      simp only [cnt_piApp] at hc hd
      have hg' : Good X (.mtch e outer) := by
        refine ⟨fun y => by rw [cnt_mtch]; exact hc y, fun y hy => by rw [cnt_mtch]; exact hd y hy, fun x hx => ?_, wellShaped_mtch.2 ⟨hws.1, h2.recs, hws.2.2⟩⟩
        rcases free_mtch.1 hx with h | h
        · exact h2.scope x h
        · exact hB x h
      obtain ⟨i1, i2, i3, i4⟩ := ih e (by simp only [Expr.piApp.sizeOf_spec]; omega) X hg' hr'
      refine ⟨Le.trans (e' := .piApp (.mtch e outer) v) (fun k ρ ρ' hρ => ?_) (fun k ρ ρ' hρ => rel_piApp (i1 k ρ ρ' hρ)), fun y => ?_, fun x hx => i3 x (by simpa [Free] using hx), wellShaped_piApp.2 i4⟩
      · exact rel_mtch_piApp (fund e fun y hy => hρ y (h2.scope y hy)) (fundBr fun x hx => hρ x (hB x hx))
      · rw [cnt_piApp, cnt_piApp]; exact i2 y

/-! ### The loop over the branches -/

theorem takeBranch_spec {k : Name} {bs rest : List Branch} {o : Branch} (hn : (bs.map Branch.ctor).Nodup) (h : takeBranch k bs = some (o, rest)) :
    o ∈ bs ∧ o.ctor = k ∧ (∀ b ∈ rest, b ∈ bs) ∧ (rest.map Branch.ctor).Nodup ∧
    (∀ y, o.binds.count y + cnt y o.body + cntB y rest = cntB y bs) := by
  simp only [takeBranch, Option.map_eq_some_iff, Prod.mk.injEq] at h
  obtain ⟨o', h1, rfl, rfl⟩ := h
  have hm : o' ∈ bs := by simpa using List.mem_of_find?_eq_some h1
  have hk : o'.ctor = k := by simpa using List.find?_some h1
  refine ⟨hm, hk, fun b hb => (List.mem_filter.1 hb).1, ?_, fun y => ?_⟩
  · exact hn.sublist (List.filter_sublist.map _)
  · clear h1
    induction bs with
    | nil => cases hm
    | cons a l ih =>
      simp only [List.map_cons, List.nodup_cons] at hn
      rcases List.mem_cons.1 hm with rfl | hm
      · rw [List.filter_cons_of_neg (by simp [hk]), cntB_cons]
        have : l.filter (fun b => b.ctor ≠ k) = l := by
          rw [List.filter_eq_self]
          intro b hb
          have : b.ctor ≠ k := fun he => hn.1 (List.mem_map.2 ⟨b, hb, by rw [he, hk]⟩)
          simpa using this
        rw [this]
      · have : a.ctor ≠ k := fun he => hn.1 (List.mem_map.2 ⟨o', hm, by rw [he, hk]⟩)
        rw [List.filter_cons_of_pos (by simpa using this), cntB_cons, cntB_cons]
        have := ih hn.2 hm; omega

theorem mergeLoop_spec (outer : List Branch) (hno : (outer.map Branch.ctor).Nodup) : ∀ (bs rem : List Branch) {r : List Branch},
    (rem.map Branch.ctor).Nodup → (∀ b ∈ rem, b ∈ outer) → mergeLoop bs rem = some r →
    All2 (fun b b' => b.ctor = b'.ctor ∧ b.binds = b'.binds ∧ ∃ o, findBranch o.ctor outer = some o ∧ mergeBranch o b.body = some b'.body) bs r ∧
    ((∀ b o r, b ∈ bs → o ∈ outer → mergeBranch o b.body = some r → ∀ y, cnt y r = cnt y b.body + (o.binds.count y + cnt y o.body)) →
      ∀ y, cntB y r ≤ cntB y bs + cntB y rem) ∧
    r.map Branch.ctor = bs.map Branch.ctor := by
  intro bs
  induction bs with
  | nil => intro rem r _ _ h; simp only [mergeLoop, Option.some.injEq] at h; subst h; exact ⟨trivial, by simp, rfl⟩
  | cons b bs ih =>
    intro rem r hn hsub h
    simp only [mergeLoop, Option.bind_eq_some_iff, Option.map_eq_some_iff] at h
    obtain ⟨k, hk, ⟨o, rest⟩, ht, e, he, r', hr', rfl⟩ := h
    obtain ⟨t1, t2, t3, t4, t5⟩ := takeBranch_spec hn ht
    obtain ⟨i1, i2, i3⟩ := ih rest t4 (fun b hb => hsub b (t3 b hb)) hr'
    refine ⟨⟨⟨rfl, rfl, o, findBranch_of_mem hno (hsub o t1), he⟩, i1⟩, fun hc y => ?_, ?_⟩
    · have h1 := i2 (fun b o r hb => hc b o r (by simp [hb])) y
      have h2 := hc b o e (by simp) (hsub o t1) he y
      have h3 := t5 y
      rw [cntB_cons, cntB_cons]
      simp only [Branch.binds, Branch.body] at *
      omega
    · simp [i3, Branch.ctor]

theorem all2_mem_right {α β : Type} {P : α → β → Prop} : ∀ {as : List α} {bs : List β}, All2 P as bs → ∀ b ∈ bs, ∃ a ∈ as, P a b
  | [], [], _, b, hb => by cases hb
  | _ :: _, _ :: _, ⟨h1, h2⟩, b, hb => by
    rcases List.mem_cons.1 hb with rfl | hb
    · exact ⟨_, by simp, h1⟩
    · obtain ⟨a, ha, h⟩ := all2_mem_right h2 b hb
      exact ⟨a, by simp [ha], h⟩

theorem All2.map_left {α β γ : Type} {P : γ → β → Prop} {f : α → γ} : ∀ {as : List α} {bs : List β},
    All2 (fun a b => P (f a) b) as bs → All2 P (as.map f) bs
  | [], [], _ => trivial
  | _ :: _, _ :: _, ⟨h1, h2⟩ => ⟨h1, All2.map_left h2⟩

theorem All2.imp_mem {α β : Type} {P Q : α → β → Prop} : ∀ {as : List α} {bs : List β}, (∀ a ∈ as, ∀ b, P a b → Q a b) → All2 P as bs → All2 Q as bs
  | [], [], _, _ => trivial
  | a :: _, b :: _, h, ⟨h1, h2⟩ => ⟨h a (by simp) b h1, All2.imp_mem (fun a ha => h a (by simp [ha])) h2⟩

theorem le_mtch_find {d : Expr} {bs bs' : List Branch} (hd : ∀ x, Free x (.mtch d bs) → x ∈ X) (h : ∀ c, findBranch c bs = findBranch c bs') :
    Le s X (.mtch d bs) (.mtch d bs') := by
  intro k ρ ρ' hρ
  refine rel_mtch (fund d fun x hx => hρ x (hd x (free_mtch.2 (.inl hx)))) fun j hj t fs fs' hf n => ?_
  have := fundBr (s := s) (k := k) (ρ := ρ) (ρ' := ρ') (bs := bs) (fun x hx => hρ x (hd x (free_mtch.2 (.inr hx)))) j hj t fs fs' hf n
  simp only [runBranch] at this ⊢
  rw [← h]
  exact this

theorem mergeBranches_ok (hs : s.panic = false) {d : Expr} {inner outer : List Branch} {r : Expr}
    (hg : Good X (.mtch (.mtch d inner) outer)) (hr : mergeBranches d inner outer = some r) :
    LeD true s X (.mtch (.mtch d inner) outer) r ∧ Good X r ∧ ∀ y, cnt y r ≤ cnt y (.mtch (.mtch d inner) outer) := by
  unfold mergeBranches at hr
  split at hr
  case isFalse => cases hr
  obtain ⟨m, hm, rfl⟩ := Option.map_eq_some_iff.1 hr
  generalize hsd : sortBy (fun b : Branch => (extractCtor b.body).getD 0) inner = sorted at hm
  have hperm : sorted.Perm inner := hsd ▸ sortBy_perm _ _
  obtain ⟨hno, hwi, hwo⟩ := wellShaped_mtch.1 hg.recs
  obtain ⟨hni, hwd, hwb⟩ := wellShaped_mtch.1 hwi
  obtain ⟨m1, m2, m3⟩ := mergeLoop_spec outer hno sorted outer hno (fun b hb => hb) hm
  have hB : ∀ x, FreeB x outer → x ∈ X := fun x hx => hg.scope x (free_mtch.2 (.inr hx))
  have hI : ∀ x, FreeB x inner → x ∈ X := fun x hx => hg.scope x (free_mtch.2 (.inl (free_mtch.2 (.inr hx))))
  have hD : ∀ x, Free x d → x ∈ X := fun x hx => hg.scope x (free_mtch.2 (.inl (free_mtch.2 (.inl hx))))
  have hc := hg.uniq
  have hdj := hg.disj
  simp only [cnt_mtch] at hc hdj
  -- a branch with the outer match inside
  have hgb : ∀ b ∈ inner, Good (b.binds ++ X) (.mtch b.body outer) := by
    intro b hb
    have hcb := cntB_mem hb
    refine ⟨fun y => ?_, fun y hy => ?_, fun x hx => ?_, wellShaped_mtch.2 ⟨hno, hwb b hb, hwo⟩⟩
    · have := hcb y; have := hc y; rw [cnt_mtch]; omega
    · rw [cnt_mtch]
      have h1 := hcb y
      rcases List.mem_append.1 hy with hy | hy
      · have := hc y
        have : 0 < b.binds.count y := List.count_pos_iff.2 hy
        omega
      · have := hdj y hy; omega
    · rcases free_mtch.1 hx with h | h
      · by_cases hm : x ∈ b.binds
        · simp [hm]
        · exact List.mem_append_right _ (hI x (FreeB_iff.2 ⟨b, hb, hm, h⟩))
      · exact List.mem_append_right _ (hB x h)
  have hbr : ∀ b ∈ inner, ∀ o r, findBranch o.ctor outer = some o → mergeBranch o b.body = some r → _ :=
    fun b hb o r ho hr => mergeBranch_ok (s := s) hs ho b.body _ (hgb b hb) hr
  have hcnt : ∀ y, cntB y m ≤ cntB y inner + cntB y outer := by
    intro y
    rw [← cntB_perm hperm]
    refine m2 (fun b o r hb ho hr => ?_) y
    exact (hbr b (hperm.mem_iff.1 hb) o r (findBranch_of_mem hno ho) hr).2.1
  have hcle : ∀ y, cnt y (.mtch d m) ≤ cnt y (.mtch (.mtch d inner) outer) := fun y => by
    have := hcnt y; simp only [cnt_mtch]; omega
  refine ⟨?_, hg.of_le hcle (fun x hx => ?_) ?_, hcle⟩
  · let g : Branch → Branch := fun b => Branch.mk b.ctor b.binds (.mtch b.body outer)
    have hgc : ∀ b, (g b).ctor = b.ctor := fun b => rfl
    refine Le.trans (e' := .mtch d (inner.map g)) (fun k ρ ρ' hρ => ?_) (Le.trans (e' := .mtch d (sorted.map g)) (le_mtch_find (fun x hx => ?_) fun c => ?_) ?_)
    · refine rel_mtch_mtch hs (fund d fun x hx => hρ x (hD x hx)) fun b hb j hj fs fs' hfs hl => ⟨fund _ fun x hx => ?_, fundBr fun x hx => ?_⟩
      · exact LookRel.bindAll hfs hl fun hn => (hρ x (hI x (FreeB_iff.2 ⟨b, hb, hn, hx⟩))).mono hj
      · have hnb : x ∉ b.binds := fun hxb => by
          have h1 := cntB_mem hb x
          have h2 := hdj x (hB x hx)
          have : 0 < b.binds.count x := List.count_pos_iff.2 hxb
          omega
        have h1 := (hρ x (hB x hx)).mono hj
        unfold LookRel at h1 ⊢
        rw [lookup_bindAll_notMem hnb]
        exact h1
    · rcases free_mtch.1 hx with h | h
      · exact hD x h
      · obtain ⟨b', hb', h1, h2⟩ := FreeB_iff.1 h
        obtain ⟨b, hb, rfl⟩ := List.mem_map.1 hb'
        rcases List.mem_append.1 ((hgb b hb).scope x h2) with h | h
        · exact absurd h h1
        · exact h
    · exact findBranch_perm (by simpa [Function.comp_def, hgc] using hni) (hperm.symm.map g) c
    · refine le_mtch (.refl hD) (All2.map_left (All2.imp_mem (fun b hb b' h => ?_) m1))
      obtain ⟨h1, h2, o, ho, h3⟩ := h
      exact ⟨h1, h2, (hbr b (hperm.mem_iff.1 hb) o _ ho h3).1⟩
  · rcases free_mtch.1 hx with h | h
    · exact hD x h
    · obtain ⟨b', hb', h1, h2⟩ := FreeB_iff.1 h
      obtain ⟨b, hb, e1, e2, o, ho, h3⟩ := all2_mem_right m1 b' hb'
      have := (hbr b (hperm.mem_iff.1 hb) o _ ho h3).2.2.1 x h2
      rcases List.mem_append.1 this with h | h
      · rw [e2] at h; exact absurd h h1
      · exact h
  · refine wellShaped_mtch.2 ⟨?_, hwd, fun b' hb' => ?_⟩
    · rw [m3]; exact (hperm.map _).nodup_iff.2 hni
    · obtain ⟨b, hb, e1, e2, o, ho, h3⟩ := all2_mem_right m1 b' hb'
      exact (hbr b (hperm.mem_iff.1 hb) o _ ho h3).2.2.2

theorem stepOK_merge (hs : s.panic = false) : StepOK true s (fun e => (mergeStep e).getD e) := by
  refine ⟨fun X e hg => ?_, fun ps b => ⟨ps, rfl, rfl⟩, fun v e => rfl⟩
  unfold mergeStep
  split
  · rename_i d inner outer
    split
    · cases hr : mergeBranches d inner outer with
      | none => exact Tri.refl hg
      | some r => exact mergeBranches_ok hs hg hr
    · exact Tri.refl hg
  · exact Tri.refl hg

/-! ### The bound on the walk -/

theorem wsizeL_mem {e : Expr} {es : List Expr} (h : e ∈ es) : wsize e ≤ wsizeL es := by
  induction es with
  | nil => cases h
  | cons a l ih =>
    simp only [wsizeL]
    rcases List.mem_cons.1 h with rfl | h
    · omega
    · have := ih h; omega

theorem wsizeB_cons (b : Branch) (bs : List Branch) : wsizeB (b :: bs) = wsize b.body + wsizeB bs := by cases b; rfl

theorem wsizeB_mem {b : Branch} {bs : List Branch} (h : b ∈ bs) : wsize b.body ≤ wsizeB bs := by
  induction bs with
  | nil => cases h
  | cons a l ih =>
    rw [wsizeB_cons]
    rcases List.mem_cons.1 h with rfl | h
    · omega
    · have := ih h; omega

theorem wsize_pos (e : Expr) : 0 < wsize e := by cases e <;> simp [wsize]

theorem mem_children_wsize (e : Expr) (c : List Name × Expr) (h : c ∈ children e) : wsize c.2 < wsize e := by
  have hL : ∀ xs : List Expr, c ∈ xs.map (fun x => (([] : List Name), x)) → wsize c.2 ≤ wsizeL xs := fun xs hx => by
    obtain ⟨x, hm, rfl⟩ := List.mem_map.1 hx; exact wsizeL_mem hm
  cases e <;> simp only [children, List.mem_cons, List.not_mem_nil, or_false] at h <;> simp only [wsize]
  case call => rcases h with rfl | h
               · dsimp only; omega
               · have := hL _ h; omega
  case ite => rcases h with rfl | rfl | rfl <;> dsimp only <;> omega
  case op => rcases h with rfl | rfl <;> dsimp only <;> omega
  case intr => have := hL _ h; omega
  case lam => subst h; dsimp only; omega
  case mtch => rcases h with rfl | h
               · dsimp only; omega
               · obtain ⟨b, hb, rfl⟩ := List.mem_map.1 h
                 have := wsizeB_mem hb; dsimp only; omega
  case con => have := hL _ h; omega
  case let_ => rcases h with rfl | rfl <;> dsimp only <;> omega
  case letrec => rcases h with rfl | rfl <;> dsimp only <;> omega
  case pi => subst h; dsimp only; omega
  case piApp => subst h; dsimp only; omega

theorem wsize_bindLets {b : Expr} : ∀ {ns : List Name} {es : List Expr}, ns.length = es.length →
    wsize (bindLets ns es b) = wsizeL es + es.length + wsize b
  | [], [], _ => by simp [bindLets, wsizeL]
  | n :: ns, e :: es, h => by
    rw [bindLets, wsize, wsize_bindLets (by simpa using h), wsizeL, List.length_cons]; omega

theorem wsize_mergeBranch {o : Branch} : ∀ (e : Expr) {r : Expr}, mergeBranch o e = some r → wsize r ≤ wsize e + wsize o.body := by
  intro e
  induction e using Expr.childInd with
  | _ e ih =>
    intro r hr
    cases e <;> simp only [mergeBranch, reduceCtorEq] at hr
    case con c ts fs =>
      split at hr
      · rename_i h
        cases hr
        rw [wsize_bindLets h.2.symm, wsize]; omega
      · cases hr
    case let_ n v e =>
      obtain ⟨r', hr', rfl⟩ := Option.map_eq_some_iff.1 hr
      have := ih ([n], e) (by simp [children]) hr'
      simp only [wsize]; dsimp only at this; omega
    case letrec n t v e =>
      obtain ⟨r', hr', rfl⟩ := Option.map_eq_some_iff.1 hr
      have := ih ([n], e) (by simp [children]) hr'
      simp only [wsize]; dsimp only at this; omega
    case pi v e =>
      obtain ⟨r', hr', rfl⟩ := Option.map_eq_some_iff.1 hr
      have := ih ([], e) (by simp [children]) hr'
      simp only [wsize]; dsimp only at this; omega
    case piApp e v =>
      obtain ⟨r', hr', rfl⟩ := Option.map_eq_some_iff.1 hr
      have := ih ([], e) (by simp [children]) hr'
      simp only [wsize]; dsimp only at this; omega

theorem wsizeB_perm {bs bs' : List Branch} (h : bs.Perm bs') : wsizeB bs = wsizeB bs' := by
  induction h with
  | nil => rfl
  | cons x _ ih => simp [wsizeB_cons, ih]
  | swap x z l => simp only [wsizeB_cons]; omega
  | trans _ _ h1 h2 => rw [h1, h2]

theorem takeBranch_wsize {k : Name} {bs rest : List Branch} {o : Branch} (h : takeBranch k bs = some (o, rest)) :
    wsize o.body + wsizeB rest ≤ wsizeB bs := by
  simp only [takeBranch, Option.map_eq_some_iff, Prod.mk.injEq] at h
  obtain ⟨o', h1, rfl, rfl⟩ := h
  have hm : o' ∈ bs := by simpa using List.mem_of_find?_eq_some h1
  have hk : o'.ctor = k := by simpa using List.find?_some h1
  have hf : ∀ l : List Branch, wsizeB (l.filter fun b => b.ctor ≠ k) ≤ wsizeB l := by
    intro l
    induction l with
    | nil => simp
    | cons a l ih =>
      simp only [List.filter_cons]
      split
      · rw [wsizeB_cons, wsizeB_cons]; omega
      · rw [wsizeB_cons]; omega
  clear h1
  induction bs with
  | nil => cases hm
  | cons a l ih =>
    rcases List.mem_cons.1 hm with rfl | hm
    · rw [List.filter_cons_of_neg (by simp [hk]), wsizeB_cons]
      have := hf l; omega
    · simp only [List.filter_cons]
      have := ih hm
      split
      · rw [wsizeB_cons, wsizeB_cons]; omega
      · rw [wsizeB_cons]; omega

theorem mergeLoop_wsize : ∀ (bs rem : List Branch) {r : List Branch}, mergeLoop bs rem = some r → wsizeB r ≤ wsizeB bs + wsizeB rem := by
  intro bs
  induction bs with
  | nil => intro rem r h; simp only [mergeLoop, Option.some.injEq] at h; subst h; simp [wsizeB]
  | cons b bs ih =>
    intro rem r h
    simp only [mergeLoop, Option.bind_eq_some_iff, Option.map_eq_some_iff] at h
    obtain ⟨k, hk, ⟨o, rest⟩, ht, e, he, r', hr', rfl⟩ := h
    have h1 := ih rest hr'
    have h2 := wsize_mergeBranch _ he
    have h3 := takeBranch_wsize ht
    rw [wsizeB_cons, wsizeB_cons]
    simp only [Branch.body] at *
    omega

theorem wsize_mergeStep (e e' : Expr) (h : mergeStep e = some e') : wsize e' ≤ wsize e := by
  unfold mergeStep at h
  split at h
  · split at h
    · unfold mergeBranches at h
      split at h
      · obtain ⟨m, hm, rfl⟩ := Option.map_eq_some_iff.1 h
        have := mergeLoop_wsize _ _ hm
        rw [wsizeB_perm (sortBy_perm _ _)] at this
        simp only [wsize]; omega
      · cases h
    · cases h; exact Nat.le_refl _
  · cases h; exact Nat.le_refl _

end Tic.Core
