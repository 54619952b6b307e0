/-
C57: what the language server shows is up to date after every history of notifications.
-/
import Verif.ServerProof

namespace Tic.Server

section
variable {K N T U E D : Type} [DecidableEq K]

/-! ### Versions tell contents -/

/-- Versions grow when contents change. -/
def Later (f f' : Files K T E) : Prop := ∀ k c, find k f = some c → ∃ c', find k f' = some c' ∧ c.version ≤ c'.version ∧ (c.version = c'.version → c' = c)

theorem Grew.later {disk : Disk K T E} {f f' : Files K T E} (h : Grew disk f f') : Later f f' := fun _ c hc => ⟨c, h.keep hc, Nat.le_refl _, fun _ => rfl⟩

theorem Later.trans {f g h : Files K T E} (a : Later f g) (b : Later g h) : Later f h := fun k c hc => by
  obtain ⟨c1, h1, h2, h3⟩ := a k c hc
  obtain ⟨c2, g1, g2, g3⟩ := b k c1 h1
  refine ⟨c2, g1, Nat.le_trans h2 g2, fun e => ?_⟩
  have e1 : c.version = c1.version := by omega
  have := h3 e1
  subst this
  exact g3 e

theorem find_set (f : Files K T E) (k j : K) (t : T) : find j (f.set k t) = if k = j then some ⟨.ok t, ((find k f).map (·.version)).getD 0 + 1⟩ else find j f := by
  unfold Files.set
  cases h : find k f <;> simp [find_insert]

theorem set_later (f : Files K T E) (k : K) (t : T) : Later f (f.set k t) := fun j c hc => by
  rw [find_set]
  split
  · rename_i e; subst e
    rw [hc]
    exact ⟨_, rfl, by simp, fun h => absurd h (by simp)⟩
  · exact ⟨c, hc, Nat.le_refl _, fun _ => rfl⟩

/-! ### A unit that is up to date -/

/-- The unit of an open file is made of the contents the server knows. -/
def Cur (L : Lang K N T U E) (fuel : Nat) (k : K) (comp : Compilation K T U) (u : U) (files : Files K T E) : Prop :=
  find k files = some ⟨.ok comp.text, comp.sourceVersion⟩ ∧ Versions comp.deps files ∧
  ∀ disk, ∃ rs, lookups (specLookup L (view disk files) fuel k) (L.imports comp.text) [] = some (rs, table comp.deps) ∧ u = L.build comp.text rs

theorem cur_later {L : Lang K N T U E} {fuel k comp u} {f f' : Files K T E} (h : Cur L fuel k comp u f) (hl : Later f f')
    (h1 : ∀ c, find k f' = some c → c.version ≤ comp.sourceVersion) (h2 : ∀ j d, find j comp.deps = some d → ∀ c, find j f' = some c → c.version ≤ d.version) :
    Cur L fuel k comp u f' := by
  obtain ⟨a1, a2, a3⟩ := h
  have same : ∀ j d, find j comp.deps = some d → find j f' = find j f := by
    intro j d hd
    obtain ⟨c, b1, b2⟩ := a2 j d hd
    obtain ⟨c', b3, b4, b5⟩ := hl j c b1
    have := h2 j d hd c' b3
    rw [b1, b3, b5 (by omega)]
  refine ⟨?_, ?_, fun disk => ?_⟩
  · obtain ⟨c', b3, b4, b5⟩ := hl k _ a1
    have := h1 c' b3
    simp only at b4 b5
    rw [b3, b5 (by omega)]
  · intro j d hd
    rw [same j d hd]
    exact a2 j d hd
  · obtain ⟨rs, b1, b2⟩ := a3 disk
    refine ⟨rs, ?_, b2⟩
    have hfin : ∀ j, find j (table comp.deps) ≠ none → view disk f' j = view disk f j := by
      intro j hj
      rw [find_table] at hj
      match hd : find j comp.deps with
      | none => rw [hd] at hj; exact absurd rfl hj
      | some d => unfold view; rw [same j d hd]
    exact (lookups_reads (Le := Sub) (fun _ _ _ h1 h2 k hk => h2 k (h1 k hk)) (fun _ _ h => h) (spec_reads L hfin fuel k) _ _ _ _ b1).2 fun _ h => h

theorem cur_grew {L : Lang K N T U E} {fuel k comp u} {disk : Disk K T E} {f f' : Files K T E} (h : Cur L fuel k comp u f) (hg : Grew disk f f') : Cur L fuel k comp u f' := by
  refine cur_later h hg.later (fun c hc => ?_) fun j d hd c hc => ?_
  · rw [hg.keep h.1] at hc; cases hc; exact Nat.le_refl _
  · obtain ⟨c', h1, h2⟩ := h.2.1 j d hd
    rw [hg.keep h1] at hc; cases hc; omega

/-! ### Refreshing -/

theorem stale_spec {disk : Disk K T E} : ∀ (deps : List (K × Dependency U)) (f : Files K T E), Grew disk f (stale disk deps f).2 ∧
    ((stale disk deps f).1 = false → ∀ x ∈ deps, ∀ c, find x.1 (stale disk deps f).2 = some c → c.version ≤ x.2.version)
  | [], f => ⟨.refl f, fun _ x hx => nomatch hx⟩
  | (k, d) :: ds, f => by
    obtain ⟨g1, g2, -⟩ := get_spec disk f k
    rw [stale]
    by_cases h : (Files.get disk f k).1.version > d.version
    · simp only [if_pos h]
      exact ⟨g1, fun h => nomatch h⟩
    · simp only [if_neg h]
      obtain ⟨i1, i2⟩ := stale_spec ds (Files.get disk f k).2
      refine ⟨g1.trans i1, fun hb x hx c hc => ?_⟩
      rcases List.mem_cons.1 hx with rfl | hx
      · rw [i1.keep g2] at hc; cases hc; simp only at h ⊢; omega
      · exact i2 hb x hx c hc

/-- Not compiled yet. -/
def Pending (k : K) (comp : Compilation K T U) (files : Files K T E) : Prop :=
  comp.unit = none ∧ comp.deps = [] ∧ find k files = some ⟨.ok comp.text, comp.sourceVersion⟩

/-- Before refreshing: never compiled, or compiled from contents that were there. -/
def Before (L : Lang K N T U E) (fuel : Nat) (k : K) (comp : Compilation K T U) (files : Files K T E) : Prop :=
  ∃ t v, find k files = some ⟨.ok t, v⟩ ∧ (comp.sourceVersion < v ∨ ∃ u f0, comp.unit = some u ∧ Cur L fuel k comp u f0 ∧ Later f0 files)

theorem before_grew {L : Lang K N T U E} {fuel k comp} {disk : Disk K T E} {f f' : Files K T E} (h : Before L fuel k comp f) (hg : Grew disk f f') : Before L fuel k comp f' := by
  obtain ⟨t, v, h1, h2⟩ := h
  exact ⟨t, v, hg.keep h1, h2.imp id fun ⟨u, f0, a, b, c⟩ => ⟨u, f0, a, b, c.trans hg.later⟩⟩

theorem refresh_spec {L : Lang K N T U E} {fuel k comp} {disk : Disk K T E} {f : Files K T E} (h : Before L fuel k comp f) :
    Grew disk f (refresh L disk k comp f).2.2 ∧
    (((refresh L disk k comp f).1 = true ∧ Pending k (refresh L disk k comp f).2.1 (refresh L disk k comp f).2.2) ∨
     ((refresh L disk k comp f).1 = false ∧ (refresh L disk k comp f).2.1 = comp ∧ ∃ u, comp.unit = some u ∧ Cur L fuel k comp u (refresh L disk k comp f).2.2)) := by
  obtain ⟨s1, s2⟩ := stale_spec (disk := disk) comp.deps f
  obtain ⟨g1, g2, -⟩ := get_spec disk (stale disk comp.deps f).2 k
  obtain ⟨t, v, hk, hb⟩ := h
  have hk := (s1.trans g1).keep hk
  rw [g2] at hk
  have hsrc := Option.some.inj hk
  unfold refresh
  simp only
  by_cases hc : ((stale disk comp.deps f).1 || decide (comp.sourceVersion < (Files.get disk (stale disk comp.deps f).2 k).1.version)) = true
  · rw [if_pos hc]
    refine ⟨s1.trans g1, .inl ⟨rfl, rfl, rfl, ?_⟩⟩
    rw [g2]
    simp only [hsrc]
  · rw [if_neg hc]
    simp only [Bool.or_eq_true, decide_eq_true_eq, not_or, Bool.not_eq_true] at hc
    obtain ⟨c1, c2⟩ := hc
    rw [hsrc] at c2
    simp only at c2
    refine ⟨s1.trans g1, .inr ⟨rfl, rfl, ?_⟩⟩
    rcases hb with hb | ⟨u, f0, b1, b2, b3⟩
    · exact absurd hb c2
    refine ⟨u, b1, cur_later b2 (b3.trans (s1.trans g1).later) (fun c hc => ?_) fun j d hd c hc => ?_⟩
    · rw [g2, hsrc] at hc; cases hc; simp only; omega
    · match hj : find j (stale disk comp.deps f).2 with
      | some c' =>
        rw [g1.keep hj] at hc
        cases hc
        exact s2 c1 _ (find_mem hd) c hj
      | none =>
        obtain ⟨c', e1, e2⟩ := b2.2.1 j d hd
        obtain ⟨c'', e3, -⟩ := b3 j c' e1
        rw [s1.keep e3] at hj
        cases hj

theorem pending_grew {k : K} {comp : Compilation K T U} {disk : Disk K T E} {f f' : Files K T E} (h : Pending k comp f) (hg : Grew disk f f') : Pending k comp f' := ⟨h.1, h.2.1, hg.keep h.2.2⟩

theorem refreshAll_spec {L : Lang K N T U E} {fuel : Nat} {disk : Disk K T E} : ∀ (cs : List (K × Compilation K T U)) (f : Files K T E), (∀ x ∈ cs, Before L fuel x.1 x.2 f) →
    Grew disk f (refreshAll L disk cs f).2.2 ∧ (refreshAll L disk cs f).2.1.map Prod.fst = cs.map Prod.fst ∧ (∀ k ∈ (refreshAll L disk cs f).1, k ∈ cs.map Prod.fst) ∧
    ∀ x ∈ (refreshAll L disk cs f).2.1, (x.1 ∈ (refreshAll L disk cs f).1 ∧ Pending x.1 x.2 (refreshAll L disk cs f).2.2) ∨
      (x ∈ cs ∧ ∃ u, x.2.unit = some u ∧ Cur L fuel x.1 x.2 u (refreshAll L disk cs f).2.2)
  | [], f, _ => ⟨.refl f, rfl, nofun, nofun⟩
  | (k, comp) :: cs, f, h => by
    obtain ⟨r1, r2⟩ := refresh_spec (disk := disk) (h _ (List.mem_cons_self ..))
    obtain ⟨i1, i2, i3, i4⟩ := refreshAll_spec (L := L) (fuel := fuel) (disk := disk) cs (refresh L disk k comp f).2.2 fun x hx => before_grew (h x (List.mem_cons_of_mem _ hx)) r1
    rw [refreshAll]
    simp only at r1 r2 ⊢
    refine ⟨r1.trans i1, by rw [List.map_cons, List.map_cons, i2], fun j hj => ?_, fun x hx => ?_⟩
    · rw [List.map_cons]
      split at hj
      · rcases List.mem_cons.1 hj with rfl | hj
        · exact List.mem_cons_self ..
        · exact List.mem_cons_of_mem _ (i3 j hj)
      · exact List.mem_cons_of_mem _ (i3 j hj)
    · rcases List.mem_cons.1 hx with rfl | hx
      · rcases r2 with ⟨a, b⟩ | ⟨a, b, u, c, d⟩
        · rw [if_pos a]
          exact .inl ⟨List.mem_cons_self .., pending_grew b i1⟩
        · refine .inr ⟨by rw [b]; exact List.mem_cons_self .., u, by rw [b]; exact c, ?_⟩
          simp only [b]
          exact cur_grew d i1
      · rcases i4 x hx with ⟨a, b⟩ | ⟨a, b⟩
        · refine .inl ⟨?_, b⟩
          split
          · exact List.mem_cons_of_mem _ a
          · exact a
        · exact .inr ⟨List.mem_cons_of_mem _ a, b⟩

/-! ### Sending -/

/-- An open file whose unit is up to date and whose diagnostics were sent. -/
def Done (L : Lang K N T U E) (diags : U → List D) (fuel : Nat) (s : Server K T U E D) (x : K × Compilation K T U) : Prop :=
  ∃ u, x.2.unit = some u ∧ Cur L fuel x.1 x.2 u s.files ∧ find x.1 s.sent = some (diags u)

theorem mem_insert {V : Type} {k : K} {v : V} {l : List (K × V)} (hn : (l.map Prod.fst).Nodup) {x : K × V} (h : x ∈ insert k v l) : x = (k, v) ∨ (x ∈ l ∧ x.1 ≠ k) := by
  have h1 : find x.1 (insert k v l) = some x.2 := mem_find (nodup_insert hn) h
  rw [find_insert] at h1
  split at h1
  · rename_i e; cases h1; left; rw [e]
  · rename_i e; exact .inr ⟨find_mem h1, fun e' => e e'.symm⟩

theorem send_spec {L : Lang K N T U E} {diags : U → List D} {fuel : Nat} {disk : Disk K T E} {ks : List K} {k : K} {s s' : Server K T U E D} (hn : (s.comps.map Prod.fst).Nodup)
    (h : ∀ x ∈ s.comps, (x.1 ∈ k :: ks ∧ Pending x.1 x.2 s.files) ∨ Done L diags fuel s x) (hs : sendDiagnostics L diags fuel disk s k = some s') :
    Grew disk s.files s'.files ∧ s'.comps.map Prod.fst = s.comps.map Prod.fst ∧ (∀ x ∈ s'.comps, (x.1 ∈ ks ∧ Pending x.1 x.2 s'.files) ∨ Done L diags fuel s' x) ∧
    ∀ j, j ≠ k → find j s'.sent = find j s.sent := by
  unfold sendDiagnostics at hs
  match hk : find k s.comps with
  | none => rw [hk] at hs; cases hs
  | some comp =>
    rw [hk] at hs
    simp only at hs
    have hmem := find_mem hk
    have others : ∀ (s' : Server K T U E D), Grew disk s.files s'.files → (∀ j, j ≠ k → find j s'.sent = find j s.sent) → ∀ x ∈ s.comps, x.1 ≠ k →
        (x.1 ∈ ks ∧ Pending x.1 x.2 s'.files) ∨ Done L diags fuel s' x := by
      intro s' hg hsent x hx hne
      rcases h x hx with ⟨a, b⟩ | ⟨u, a, b, c⟩
      · rcases List.mem_cons.1 a with a | a
        · exact absurd a hne
        · exact .inl ⟨a, pending_grew b hg⟩
      · exact .inr ⟨u, a, cur_grew b hg, by rw [hsent _ hne, c]⟩
    match hu : comp.unit with
    | some u =>
      rw [hu] at hs
      cases hs
      have hsent : ∀ j, j ≠ k → find j ((k, diags u) :: s.sent) = find j s.sent := fun j hj => by rw [find, if_neg (Ne.symm hj)]
      refine ⟨.refl _, rfl, fun x hx => ?_, hsent⟩
      by_cases hxk : x.1 = k
      · have : x.2 = comp := by
          have := mem_find hn hx
          rw [hxk, hk] at this
          exact (Option.some.inj this).symm
        rcases h x hx with ⟨a, b⟩ | ⟨u', a, b, c⟩
        · have hb := b.1
          rw [this, hu] at hb
          cases hb
        · rw [this, hu] at a
          cases a
          exact .inr ⟨u, by rw [this, hu], b, by rw [find, if_pos hxk.symm]⟩
      · exact others ⟨s.files, s.comps, (k, diags u) :: s.sent⟩ (.refl _) hsent x hx hxk
    | none =>
      rw [hu] at hs
      simp only at hs
      have hp : Pending k comp s.files := by
        rcases h _ hmem with ⟨-, b⟩ | ⟨u, a, -⟩
        · exact b
        · simp only at a; rw [hu] at a; cases a
      have sim := lookups_sim (fun n st => lookup_sim L (disk := disk) (v := view disk s.files) fuel k n st) (L.imports comp.text) ⟨comp.deps, s.files⟩ rfl
        (by rw [hp.2.1]; exact fun _ _ h => nomatch h)
      rcases sim with ⟨e1, -⟩ | ⟨rs, st, e1, e2, g1, g2, -⟩
      · rw [e1] at hs; cases hs
      rw [e1] at hs
      cases hs
      simp only at g1 e2
      have hsent : ∀ j, j ≠ k → find j ((k, diags (L.build comp.text rs)) :: s.sent) = find j s.sent := fun j hj => by rw [find, if_neg (Ne.symm hj)]
      refine ⟨g1, ?_, fun x hx => ?_, hsent⟩
      · simp only [keys_insert]
        rw [if_pos (List.mem_map.2 ⟨_, hmem, rfl⟩)]
      · rcases mem_insert hn hx with rfl | ⟨hx, hxk⟩
        · refine .inr ⟨_, rfl, ⟨g1.keep hp.2.2, g2, fun disk' => ⟨rs, ?_, rfl⟩⟩, by rw [find, if_pos rfl]⟩
          rw [hp.2.1] at e2
          have hfin : ∀ j, find j (table st.deps) ≠ none → view disk' st.files j = view disk s.files j := by
            intro j hj
            rw [find_table] at hj
            match hd : find j st.deps with
            | none => rw [hd] at hj; exact absurd rfl hj
            | some d =>
              obtain ⟨c, c1, -⟩ := g2 j d hd
              rw [← g1.view]
              unfold view
              rw [c1]
          exact (lookups_reads (Le := Sub) (fun _ _ _ h1 h2 k hk => h2 k (h1 k hk)) (fun _ _ h => h) (spec_reads L hfin fuel k) _ _ _ _ e2).2 fun _ h => h
        · exact others ⟨st.files, s.comps, (k, diags (L.build comp.text rs)) :: s.sent⟩ g1 hsent x hx hxk

theorem sendAll_spec {L : Lang K N T U E} {diags : U → List D} {fuel : Nat} {disk : Disk K T E} : ∀ (ks : List K) (s s' : Server K T U E D), (s.comps.map Prod.fst).Nodup →
    (∀ x ∈ s.comps, (x.1 ∈ ks ∧ Pending x.1 x.2 s.files) ∨ Done L diags fuel s x) → sendAll L diags fuel disk ks s = some s' →
    Grew disk s.files s'.files ∧ s'.comps.map Prod.fst = s.comps.map Prod.fst ∧ (∀ x ∈ s'.comps, Done L diags fuel s' x) ∧ ∀ j, j ∉ ks → find j s'.sent = find j s.sent
  | [], s, s', _, h, hs => by
    cases hs
    exact ⟨.refl _, rfl, fun x hx => (h x hx).resolve_left (fun h => nomatch h.1), fun _ _ => rfl⟩
  | k :: ks, s, s', hn, h, hs => by
    rw [sendAll] at hs
    match h1 : sendDiagnostics L diags fuel disk s k with
    | none => rw [h1] at hs; cases hs
    | some s1 =>
      rw [h1] at hs
      obtain ⟨a1, a2, a3, a4⟩ := send_spec hn h h1
      obtain ⟨b1, b2, b3, b4⟩ := sendAll_spec ks s1 s' (by rw [a2]; exact hn) a3 hs
      exact ⟨a1.trans b1, b2.trans a2, b3, fun j hj => by rw [b4 j fun h => hj (List.mem_cons_of_mem _ h), a4 j fun e => hj (e ▸ List.mem_cons_self ..)]⟩

/-! ### An update -/

theorem update_spec {L : Lang K N T U E} {diags : U → List D} {sort : List K → List K} (hsort : ∀ l x, x ∈ sort l ↔ x ∈ l) {fuel : Nat} {disk : Disk K T E} {s s' : Server K T U E D}
    (hn : (s.comps.map Prod.fst).Nodup) (hb : ∀ x ∈ s.comps, Before L fuel x.1 x.2 s.files) (hsent : ∀ x ∈ s.comps, ∀ u, x.2.unit = some u → find x.1 s.sent = some (diags u))
    (hs : onFileUpdate L diags sort fuel disk s = some s') :
    Grew disk s.files s'.files ∧ s'.comps.map Prod.fst = s.comps.map Prod.fst ∧ (∀ x ∈ s'.comps, Done L diags fuel s' x) ∧ ∀ j, j ∉ s.comps.map Prod.fst → find j s'.sent = find j s.sent := by
  obtain ⟨r1, r2, r3, r4⟩ := refreshAll_spec (disk := disk) s.comps s.files hb
  unfold onFileUpdate at hs
  simp only at hs
  obtain ⟨a1, a2, a3, a4⟩ := sendAll_spec _ _ _ (by simp only [r2]; exact hn) (fun x hx => by
    rcases r4 x hx with ⟨a, b⟩ | ⟨a, u, b, c⟩
    · exact .inl ⟨(hsort _ _).2 a, b⟩
    · exact .inr ⟨u, b, c, hsent x a u b⟩) hs
  exact ⟨r1.trans a1, a2.trans r2, a3, fun j hj => a4 j fun h => hj (r3 j ((hsort _ _).1 h))⟩

/-! ### Histories -/

theorem latest_snoc (k : K) (e : Disk K T E × Note K T) : ∀ es, latest k (es ++ [e]) = (latest k [e]).or (latest k es)
  | [] => by simp [latest]
  | (d, .opened k' t) :: es => by rw [List.cons_append, latest, latest, latest_snoc k e es, Option.or_assoc]
  | (d, .changed k' t m) :: es => by rw [List.cons_append, latest, latest, latest_snoc k e es, Option.or_assoc]
  | (d, .closed k') :: es => by rw [List.cons_append, latest, latest, latest_snoc k e es]

theorem isOpen_snoc (k : K) (e : Disk K T E × Note K T) : ∀ es b, isOpen k (es ++ [e]) b = isOpen k [e] (isOpen k es b)
  | [], _ => rfl
  | (d, .opened k' t) :: es, b => by rw [List.cons_append, isOpen, isOpen, isOpen_snoc k e es]
  | (d, .changed k' t m) :: es, b => by rw [List.cons_append, isOpen, isOpen, isOpen_snoc k e es]
  | (d, .closed k') :: es, b => by rw [List.cons_append, isOpen, isOpen, isOpen_snoc k e es]

theorem run_snoc (L : Lang K N T U E) (diags : U → List D) (sort : List K → List K) (fuel : Nat) (e : Disk K T E × Note K T) : ∀ es s,
    run L diags sort fuel (es ++ [e]) s = (run L diags sort fuel es s).bind fun s => step L diags sort fuel e.1 s e.2
  | [], s => by
    obtain ⟨d, n⟩ := e
    show (step L diags sort fuel d s n).bind some = step L diags sort fuel d s n
    cases step L diags sort fuel d s n <;> rfl
  | (d, n) :: es, s => by
    rw [List.cons_append, run, run]
    cases step L diags sort fuel d s n with
    | none => rfl
    | some s => exact run_snoc L diags sort fuel e es s

theorem snoc_ind {A : Type} {P : List A → Prop} (h0 : P []) (h1 : ∀ l a, P l → P (l ++ [a])) (l : List A) : P l := by
  rw [← l.reverse_reverse]
  induction l.reverse with
  | nil => exact h0
  | cons a r ih => rw [List.reverse_cons]; exact h1 _ _ ih

/-- The server after a history. -/
structure Inv (L : Lang K N T U E) (diags : U → List D) (fuel : Nat) (es : List (Disk K T E × Note K T)) (s : Server K T U E D) : Prop where
  nodup : (s.comps.map Prod.fst).Nodup
  opens : ∀ k, k ∈ s.comps.map Prod.fst ↔ isOpen k es false = true
  done : ∀ x ∈ s.comps, Done L diags fuel s x
  clear : ∀ k, k ∉ s.comps.map Prod.fst → (find k s.sent).getD [] = []
  told : ∀ k t, latest k es = some t → ∃ v, find k s.files = some ⟨.ok t, v⟩
  read : ∀ k c, find k s.files = some c → latest k es = none → ∃ e ∈ es, c.content = e.1 k

/-- Setting a text and updating. -/
theorem inv_update {L : Lang K N T U E} {diags : U → List D} {sort : List K → List K} (hsort : ∀ l x, x ∈ sort l ↔ x ∈ l) {fuel : Nat} {es} {s s' : Server K T U E D} (h : Inv L diags fuel es s)
    {disk : Disk K T E} {n : Note K T} {key : K} {text : T} {comps : List (K × Compilation K T U)}
    (hn : (comps.map Prod.fst).Nodup) (hc : ∀ x ∈ comps, x ∈ s.comps ∨ (x.1 = key ∧ x.2 = ⟨0, L.empty, none, []⟩))
    (hopen : ∀ k, k ∈ comps.map Prod.fst ↔ isOpen k (es ++ [(disk, n)]) false = true) (hsub : ∀ k ∈ s.comps.map Prod.fst, k ∈ comps.map Prod.fst)
    (hl : ∀ k, latest k (es ++ [(disk, n)]) = if key = k then some text else latest k es)
    (hs : onFileUpdate L diags sort fuel disk { s with files := s.files.set key text, comps := comps } = some s') : Inv L diags fuel (es ++ [(disk, n)]) s' := by
  obtain ⟨a1, a2, a3, a4⟩ := update_spec hsort (s := { s with files := s.files.set key text, comps := comps }) hn (fun x hx => by
    rcases hc x hx with hx | ⟨e1, e2⟩
    · obtain ⟨u, h1, h2, -⟩ := h.done x hx
      by_cases hk : key = x.1
      · exact ⟨text, _, by simp only [find_set]; rw [if_pos hk], .inr ⟨u, s.files, h1, h2, set_later _ _ _⟩⟩
      · exact ⟨x.2.text, x.2.sourceVersion, by simp only [find_set]; rw [if_neg hk]; exact h2.1, .inr ⟨u, s.files, h1, h2, set_later _ _ _⟩⟩
    · refine ⟨text, _, by simp only [find_set]; rw [if_pos e1.symm], .inl ?_⟩
      rw [e2]
      exact Nat.succ_pos _) (fun x hx u hu => by
    rcases hc x hx with hx | ⟨e1, e2⟩
    · obtain ⟨u', h1, -, h3⟩ := h.done x hx
      rw [hu] at h1; cases h1
      exact h3
    · rw [e2] at hu; cases hu) hs
  simp only at a1 a2 a4
  refine ⟨by rw [a2]; exact hn, fun k => by rw [a2]; exact hopen k, a3, fun k hk => ?_, fun k t ht => ?_, fun k c hf hno => ?_⟩
  · rw [a2] at hk
    rw [a4 k hk]
    exact h.clear k fun h' => hk (hsub k h')
  · rw [hl] at ht
    split at ht
    · rename_i e
      cases ht
      exact ⟨_, a1.keep (by rw [find_set, if_pos e])⟩
    · rename_i e
      obtain ⟨v, hv⟩ := h.told k t ht
      exact ⟨v, a1.keep (by rw [find_set, if_neg e]; exact hv)⟩
  · rw [hl] at hno
    split at hno
    · cases hno
    · rename_i e
      rcases a1 k with a | ⟨-, a⟩
      · rw [a, find_set, if_neg e] at hf
        obtain ⟨e', he, hec⟩ := h.read k c hf hno
        exact ⟨e', List.mem_append_left _ he, hec⟩
      · rw [a] at hf
        cases hf
        exact ⟨(disk, n), List.mem_append_right _ (List.mem_cons_self ..), rfl⟩

/-- Each change brings one text. -/
def OneText : Note K T → Prop
  | .changed _ _ more => more = []
  | _ => True

theorem inv_run {L : Lang K N T U E} {diags : U → List D} {sort : List K → List K} (hsort : ∀ l x, x ∈ sort l ↔ x ∈ l) {fuel : Nat} (es : List (Disk K T E × Note K T)) :
    (∀ e ∈ es, OneText e.2) → ∀ s, run L diags sort fuel es start = some s → Inv L diags fuel es s := by
  refine snoc_ind (P := fun es => (∀ e ∈ es, OneText e.2) → ∀ s, run L diags sort fuel es start = some s → Inv L diags fuel es s) (fun _ s hs => ?_) (fun es e ih hone s' hs => ?_) es
  · cases hs
    exact ⟨List.nodup_nil, fun k => by simp [start, isOpen], nofun, fun _ _ => rfl, fun _ _ h => (nomatch h), fun _ _ h => (nomatch h)⟩
  · rw [run_snoc] at hs
    match h1 : run L diags sort fuel es start with
    | none => rw [h1] at hs; cases hs
    | some s =>
      rw [h1] at hs
      have h := ih (fun e he => hone e (List.mem_append_left _ he)) s h1
      have ho := hone e (List.mem_append_right _ (List.mem_cons_self ..))
      obtain ⟨disk, n⟩ := e
      replace hs : step L diags sort fuel disk s n = some s' := hs
      match n, hs, ho with
      | .opened key text, hs, _ =>
        refine inv_update hsort h (nodup_insert h.nodup) (fun x hx => ?_) (fun k => ?_) (fun k hk => ?_) (fun k => ?_) hs
        · rcases mem_insert h.nodup hx with rfl | ⟨hx, -⟩
          · exact .inr ⟨rfl, rfl⟩
          · exact .inl hx
        · rw [isOpen_snoc, isOpen, isOpen, Bool.or_eq_true, decide_eq_true_eq, ← h.opens, keys_insert]
          split
          · rename_i hm
            exact ⟨.inl, fun h => h.elim id fun e => e ▸ hm⟩
          · rw [List.mem_append, List.mem_singleton]
            exact or_congr Iff.rfl ⟨Eq.symm, Eq.symm⟩
        · rw [keys_insert]
          split
          · exact hk
          · exact List.mem_append_left _ hk
        · rw [latest_snoc, latest, latest]
          split <;> simp
      | .changed key text more, hs, ho =>
        have hm : more = [] := ho
        subst hm
        refine inv_update hsort h h.nodup (fun x hx => .inl hx) (fun k => ?_) (fun k hk => hk) (fun k => ?_) hs
        · rw [isOpen_snoc, isOpen, isOpen]; exact h.opens k
        · rw [latest_snoc, latest, latest]
          split <;> simp
      | .closed key, hs, _ =>
        cases hs
        have hkeys : ∀ k, k ∈ (s.comps.filter (fun c => c.1 ≠ key)).map Prod.fst ↔ k ∈ s.comps.map Prod.fst ∧ k ≠ key := by
          intro k
          simp only [List.mem_map, List.mem_filter, decide_eq_true_eq]
          exact ⟨fun ⟨x, ⟨h1, h2⟩, h3⟩ => ⟨⟨x, h1, h3⟩, h3 ▸ h2⟩, fun ⟨⟨x, h1, h3⟩, h2⟩ => ⟨x, ⟨h1, h3 ▸ h2⟩, h3⟩⟩
        have hlat : ∀ k, latest k (es ++ [(disk, .closed key)]) = latest k es := fun k => by rw [latest_snoc, latest, latest]; simp
        refine ⟨List.Nodup.sublist (List.filter_sublist.map _) h.nodup, fun k => ?_, fun x hx => ?_, fun k hk => ?_, fun k t ht => ?_, fun k c hf hno => ?_⟩
        · rw [isOpen_snoc, isOpen, isOpen, Bool.and_eq_true, decide_eq_true_eq, ← h.opens, hkeys]
          exact and_congr Iff.rfl ⟨Ne.symm, Ne.symm⟩
        · obtain ⟨hx, hne⟩ := List.mem_filter.1 hx
          obtain ⟨u, b1, b2, b3⟩ := h.done x hx
          refine ⟨u, b1, b2, ?_⟩
          rw [decide_eq_true_eq] at hne
          simp only
          rw [find, if_neg (Ne.symm hne)]
          exact b3
        · simp only
          rw [find]
          split
          · rfl
          · rename_i hne
            refine h.clear k fun h' => hk ((hkeys k).2 ⟨h', Ne.symm hne⟩)
        · rw [hlat] at ht
          exact h.told k t ht
        · rw [hlat] at hno
          obtain ⟨e', he, hec⟩ := h.read k c hf hno
          exact ⟨e', List.mem_append_left _ he, hec⟩

/-! ### The property -/

/-- C57.  After every history of notifications in which each change brings one text, there are contents of all files such that a file has the text the editor sent last, if it sent one, and
otherwise what is or was on the disk, and the unit of each open file, by which requests are answered, is what compiling it from scratch gives with these contents, and the diagnostics last sent
for it are those of this unit.  For a file that is not open there is no unit, and no diagnostics are shown. -/
theorem server_fresh (L : Lang K N T U E) (diags : U → List D) (sort : List K → List K) (hsort : ∀ l x, x ∈ sort l ↔ x ∈ l) (fuel : Nat) (es : List (Disk K T E × Note K T))
    (hone : ∀ e ∈ es, OneText e.2) (s : Server K T U E D) (hrun : run L diags sort fuel es start = some s) (now : Disk K T E) :
    ∃ contents : Disk K T E,
      (∀ k t, latest k es = some t → contents k = .ok t) ∧
      (∀ k, latest k es = none → contents k = now k ∨ ∃ e ∈ es, contents k = e.1 k) ∧
      (∀ k, isOpen k es false = true → ∃ u, (find k s.comps).bind (·.unit) = some u ∧ specUnit L contents fuel k = some u ∧ find k s.sent = some (diags u)) ∧
      ∀ k, isOpen k es false = false → find k s.comps = none ∧ (find k s.sent).getD [] = [] := by
  have h := inv_run hsort es hone s hrun
  refine ⟨view now s.files, fun k t ht => ?_, fun k hk => ?_, fun k hk => ?_, fun k hk => ?_⟩
  · obtain ⟨v, hv⟩ := h.told k t ht
    unfold view
    rw [hv]
  · unfold view
    match hf : find k s.files with
    | none => exact .inl rfl
    | some c => exact .inr (h.read k c hf hk)
  · have hm := (h.opens k).2 hk
    match hf : find k s.comps with
    | none => exact absurd hm (find_none.1 hf)
    | some comp =>
      obtain ⟨u, b1, b2, b3⟩ := h.done _ (find_mem hf)
      refine ⟨u, b1, ?_, b3⟩
      obtain ⟨rs, c1, c2⟩ := b2.2.2 now
      unfold specUnit
      have : view now s.files k = .ok comp.text := by unfold view; rw [b2.1]
      rw [this]
      simp only at c1 c2 ⊢
      rw [c1, c2]
      rfl
  · have hm : k ∉ s.comps.map Prod.fst := fun h' => by rw [(h.opens k).1 h'] at hk; cases hk
    exact ⟨find_none.2 hm, h.clear k hm⟩

end

end Tic.Server
