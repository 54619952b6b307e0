/-
The language server answers every history of notifications: the recursion over imports ends.
-/
import Verif.PropServer

namespace Tic.Server

section
variable {K N T U E D : Type} [DecidableEq K]

/-- The files that can be reached through imports are among these. -/
def Closed (L : Lang K N T U E) (v : Disk K T E) (all : List K) : Prop :=
  ∀ k ∈ all, ∀ t, v k = .ok t → ∀ n ∈ L.imports t, ∀ j, L.join k n = some j → j ∈ all

/-- How many of these were not looked up. -/
def left (all : List K) (t : List (K × Option U)) : Nat := (all.filter fun k => (find k t).isNone).length

theorem left_sub {all : List K} {t t' : List (K × Option U)} (h : Sub t t') : left all t' ≤ left all t := by
  unfold left
  rw [← List.countP_eq_length_filter, ← List.countP_eq_length_filter]
  refine List.countP_mono_left fun k _ hk => ?_
  match h1 : find k t with
  | none => rfl
  | some u => exact absurd (by simpa using hk) (h k (by rw [h1]; exact nofun))

theorem left_insert {k : K} {u : Option U} {t : List (K × Option U)} (hk : find k t = none) : ∀ {all : List K}, k ∈ all → left all (insert k u t) < left all t
  | j :: all, h => by
    have hle := left_sub (all := all) (sub_insert k u t)
    unfold left at hle ⊢
    rw [List.filter_cons, List.filter_cons]
    by_cases e : j = k
    · subst e
      rw [find_insert, if_pos rfl, hk]
      simp only [Option.isNone_none, Option.isNone_some, if_true, List.length_cons]
      simp only [Bool.false_eq_true, if_false]
      omega
    · have ih := left_insert (u := u) hk (all := all) ((List.mem_cons.1 h).resolve_left fun e' => e e'.symm)
      unfold left at ih
      rw [find_insert, if_neg (Ne.symm e)]
      split <;> (try simp only [List.length_cons]) <;> omega

theorem spec_total (L : Lang K N T U E) {v : Disk K T E} {all : List K} (hall : Closed L v all) : ∀ (fuel : Nat) (cur : K) (n : N) (t : List (K × Option U)),
    (∀ j, L.join cur n = some j → j ∈ all) → left all t < fuel → specLookup L v fuel cur n t ≠ none
  | 0, _, _, _, _, h => absurd h (Nat.not_lt_zero _)
  | fuel + 1, cur, n, t, hj, hl => by
    rw [specLookup]
    match hjn : L.join cur n with
    | none => exact nofun
    | some key =>
      simp only
      match hf : find key t with
      | some none => exact nofun
      | some (some u) => exact nofun
      | none =>
        simp only
        match hv : v key with
        | .error .notFound => exact nofun
        | .error (.other e) => exact nofun
        | .ok text =>
          simp only
          have hkey := hj key hjn
          have hloop : ∀ (ns : List N) (t : List (K × Option U)), (∀ n ∈ ns, n ∈ L.imports text) → left all t < fuel → lookups (specLookup L v fuel key) ns t ≠ none := by
            intro ns
            induction ns with
            | nil => exact fun _ _ _ => nofun
            | cons n ns ih =>
              intro t hns hlt
              rw [lookups]
              match h1 : specLookup L v fuel key n t with
              | none => exact absurd h1 (spec_total L hall fuel key n t (fun j hj => hall key hkey text hv n (hns n (List.mem_cons_self ..)) j hj) hlt)
              | some (r, t1) =>
                simp only
                have hsub := (spec_reads L (v' := v) (fin := t1) (fun _ _ => rfl) fuel key n t r t1 h1).1
                match h2 : lookups (specLookup L v fuel key) ns t1 with
                | none => exact absurd h2 (ih t1 (fun n hn => hns n (List.mem_cons_of_mem _ hn)) (Nat.lt_of_le_of_lt (left_sub hsub) hlt))
                | some (rs, t2) => exact nofun
          match h1 : lookups (specLookup L v fuel key) (L.imports text) (insert key none t) with
          | none => exact absurd h1 (hloop _ _ (fun _ h => h) (by have := left_insert (u := none) hf hkey; omega))
          | some (rs, t1) => exact nofun

theorem spec_total_all (L : Lang K N T U E) {v : Disk K T E} {all : List K} (hall : Closed L v all) {fuel : Nat} {key : K} {text : T} (hkey : key ∈ all) (hv : v key = .ok text)
    (hf : all.length < fuel) : ∀ (ns : List N) (t : List (K × Option U)), (∀ n ∈ ns, n ∈ L.imports text) → lookups (specLookup L v fuel key) ns t ≠ none := by
  intro ns
  induction ns with
  | nil => exact fun _ _ => nofun
  | cons n ns ih =>
    intro t hns
    rw [lookups]
    match h1 : specLookup L v fuel key n t with
    | none =>
      refine absurd h1 (spec_total L hall fuel key n t (fun j hj => hall key hkey text hv n (hns n (List.mem_cons_self ..)) j hj) (Nat.lt_of_le_of_lt ?_ hf))
      exact List.length_filter_le ..
    | some (r, t1) =>
      simp only
      match h2 : lookups (specLookup L v fuel key) ns t1 with
      | none => exact absurd h2 (ih t1 fun n hn => hns n (List.mem_cons_of_mem _ hn))
      | some (rs, t2) => exact nofun

theorem sendAll_total {L : Lang K N T U E} {diags : U → List D} {fuel : Nat} {disk : Disk K T E} {all : List K} (hf : all.length < fuel) : ∀ (ks : List K) (s : Server K T U E D),
    (s.comps.map Prod.fst).Nodup → (∀ x ∈ s.comps, (x.1 ∈ ks ∧ Pending x.1 x.2 s.files) ∨ Done L diags fuel s x) → (∀ k ∈ ks, k ∈ s.comps.map Prod.fst) →
    (∀ k ∈ s.comps.map Prod.fst, k ∈ all) → Closed L (view disk s.files) all → sendAll L diags fuel disk ks s ≠ none
  | [], s, _, _, _, _, _ => nofun
  | k :: ks, s, hn, h, hks, hin, hall => by
    rw [sendAll]
    match h1 : sendDiagnostics L diags fuel disk s k with
    | some s1 =>
      obtain ⟨a1, a2, a3, a4⟩ := send_spec hn h h1
      exact sendAll_total hf ks s1 (by rw [a2]; exact hn) a3 (fun k hk => by rw [a2]; exact hks k (List.mem_cons_of_mem _ hk)) (by rw [a2]; exact hin) (by rw [a1.view]; exact hall)
    | none =>
      exfalso
      unfold sendDiagnostics at h1
      match hk : find k s.comps with
      | none => exact find_none.1 hk (hks k (List.mem_cons_self ..))
      | some comp =>
        rw [hk] at h1
        simp only at h1
        match hu : comp.unit with
        | some u => rw [hu] at h1; cases h1
        | none =>
          rw [hu] at h1
          simp only at h1
          have hp : Pending k comp s.files := by
            rcases h _ (find_mem hk) with ⟨-, b⟩ | ⟨u, a, -⟩
            · exact b
            · simp only at a; rw [hu] at a; cases a
          rcases lookups_sim (fun n st => lookup_sim L (disk := disk) (v := view disk s.files) fuel k n st) (L.imports comp.text) ⟨comp.deps, s.files⟩ rfl
            (by rw [hp.2.1]; exact fun _ _ h => nomatch h) with ⟨-, e⟩ | ⟨rs, st, e1, -⟩
          · refine spec_total_all L hall (hin k (hks k (List.mem_cons_self ..))) (text := comp.text) ?_ hf _ _ (fun _ h => h) e
            unfold view
            rw [hp.2.2]
          · rw [e1] at h1; cases h1

theorem update_total {L : Lang K N T U E} {diags : U → List D} {sort : List K → List K} (hsort : ∀ l x, x ∈ sort l ↔ x ∈ l) {fuel : Nat} {disk : Disk K T E} {s : Server K T U E D}
    (hn : (s.comps.map Prod.fst).Nodup) (hb : ∀ x ∈ s.comps, Before L fuel x.1 x.2 s.files) (hsent : ∀ x ∈ s.comps, ∀ u, x.2.unit = some u → find x.1 s.sent = some (diags u))
    {all : List K} (hf : all.length < fuel) (hin : ∀ k ∈ s.comps.map Prod.fst, k ∈ all) (hall : Closed L (view disk s.files) all) : onFileUpdate L diags sort fuel disk s ≠ none := by
  obtain ⟨r1, r2, r3, r4⟩ := refreshAll_spec (disk := disk) s.comps s.files hb
  unfold onFileUpdate
  refine sendAll_total hf _ _ (by simp only [r2]; exact hn) (fun x hx => ?_) (fun k hk => ?_) (by simp only [r2]; exact hin) (by simp only [r1.view]; exact hall)
  · rcases r4 x hx with ⟨a, b⟩ | ⟨a, u, b, c⟩
    · exact .inl ⟨(hsort _ _).2 a, b⟩
    · exact .inr ⟨u, b, c, hsent x a u b⟩
  · simp only [r2]
    exact r3 k ((hsort _ _).1 hk)

/-- The texts that a file has in a history: those on the disk and those sent by the editor. -/
def HasText (es : List (Disk K T E × Note K T)) (k : K) (t : T) : Prop :=
  ∃ e ∈ es, e.1 k = .ok t ∨ e.2 = .opened k t ∨ ∃ more, e.2 = .changed k t more

theorem latest_hasText {k : K} {t : T} : ∀ {es : List (Disk K T E × Note K T)}, (∀ e ∈ es, OneText e.2) → latest k es = some t → HasText es k t
  | [], _, h => nomatch h
  | (d, n) :: es, ho, h => by
    have up : latest k es = some t → HasText ((d, n) :: es) k t := fun h => by
      obtain ⟨e, he, h⟩ := latest_hasText (fun e he => ho e (List.mem_cons_of_mem _ he)) h
      exact ⟨e, List.mem_cons_of_mem _ he, h⟩
    match n, h, ho _ (List.mem_cons_self ..) with
    | .closed _, h, _ => exact up h
    | .opened k' t', h, _ =>
      rw [latest] at h
      rcases Option.or_eq_some_iff.1 h with h | ⟨-, h⟩
      · exact up h
      · split at h
        · rename_i e; cases h; subst e
          exact ⟨_, List.mem_cons_self .., .inr (.inl rfl)⟩
        · cases h
    | .changed k' t' more, h, ho =>
      have hm : more = [] := ho
      subst hm
      rw [latest] at h
      rcases Option.or_eq_some_iff.1 h with h | ⟨-, h⟩
      · exact up h
      · split at h
        · rename_i e; cases h; subst e
          exact ⟨_, List.mem_cons_self .., .inr (.inr ⟨_, rfl⟩)⟩
        · cases h

/-- C57: and each notification is handled, when the files that imports can reach from open files are finitely many; cycles among them do no harm. -/
theorem server_total (L : Lang K N T U E) (diags : U → List D) (sort : List K → List K) (hsort : ∀ l x, x ∈ sort l ↔ x ∈ l) (fuel : Nat) (es : List (Disk K T E × Note K T))
    (hone : ∀ e ∈ es, OneText e.2) (all : List K) (hopen : ∀ e ∈ es, ∀ k t, e.2 = .opened k t → k ∈ all)
    (hall : ∀ k ∈ all, ∀ t, HasText es k t → ∀ n ∈ L.imports t, ∀ j, L.join k n = some j → j ∈ all) (hf : all.length < fuel) :
    ∃ s : Server K T U E D, run L diags sort fuel es start = some s := by
  revert hone hopen hall
  refine snoc_ind (P := fun es => (∀ e ∈ es, OneText e.2) → (∀ e ∈ es, ∀ k t, e.2 = .opened k t → k ∈ all) →
    (∀ k ∈ all, ∀ t, HasText es k t → ∀ n ∈ L.imports t, ∀ j, L.join k n = some j → j ∈ all) → ∃ s : Server K T U E D, run L diags sort fuel es start = some s)
    (fun _ _ _ => ⟨_, rfl⟩) (fun es e ih hone hopen hall => ?_) es
  obtain ⟨s, hs⟩ := ih (fun e he => hone e (List.mem_append_left _ he)) (fun e he => hopen e (List.mem_append_left _ he))
    (fun k hk t ⟨e, he, h⟩ => hall k hk t ⟨e, List.mem_append_left _ he, h⟩)
  have h := inv_run hsort es (fun e he => hone e (List.mem_append_left _ he)) s hs
  rw [run_snoc, hs]
  show ∃ s', step L diags sort fuel e.1 s e.2 = some s'
  have hkeys : ∀ k, k ∈ s.comps.map Prod.fst → k ∈ all := by
    intro k hk
    have hop := (h.opens k).1 hk
    have : ∀ (es : List (Disk K T E × Note K T)) b, isOpen k es b = true → b = true ∨ ∃ e ∈ es, ∃ t, e.2 = .opened k t := by
      intro es
      induction es with
      | nil => exact fun b h => .inl h
      | cons e es ih =>
        intro b hb
        have up : (∃ e ∈ es, ∃ t, e.2 = .opened k t) → ∃ e' ∈ e :: es, ∃ t, e'.2 = .opened k t := fun ⟨e', he, h⟩ => ⟨e', List.mem_cons_of_mem _ he, h⟩
        obtain ⟨d, n⟩ := e
        match n, hb, up with
        | .opened k' t, hb, up =>
          rw [isOpen] at hb
          rcases ih _ hb with h | h
          · rw [Bool.or_eq_true, decide_eq_true_eq] at h
            rcases h with h | h
            · exact .inl h
            · subst h; exact .inr ⟨_, List.mem_cons_self .., t, rfl⟩
          · exact .inr (up h)
        | .changed k' t m, hb, up => exact (ih _ hb).imp id up
        | .closed k', hb, up =>
          rw [isOpen] at hb
          rcases ih _ hb with h | h
          · rw [Bool.and_eq_true] at h; exact .inl h.1
          · exact .inr (up h)
    rcases this es false hop with h | ⟨e, he, t, h⟩
    · cases h
    · exact hopen e (List.mem_append_left _ he) k t h
  -- setting a text and updating
  have upd : ∀ (key : K) (text : T) (comps : List (K × Compilation K T U)), (comps.map Prod.fst).Nodup →
      (∀ x ∈ comps, x ∈ s.comps ∨ (x.1 = key ∧ x.2 = ⟨0, L.empty, none, []⟩ ∧ key ∈ all)) → HasText (es ++ [e]) key text →
      ∃ s', onFileUpdate L diags sort fuel e.1 { s with files := s.files.set key text, comps := comps } = some s' := by
    intro key text comps hn hc ht
    have := update_total (disk := e.1) hsort (s := { s with files := s.files.set key text, comps := comps }) (L := L) (diags := diags) (fuel := fuel) hn (fun x hx => by
      rcases hc x hx with hx | ⟨e1, e2, -⟩
      · obtain ⟨u, h1, h2, -⟩ := h.done x hx
        by_cases hk : key = x.1
        · exact ⟨text, _, by simp only [find_set]; rw [if_pos hk], .inr ⟨u, s.files, h1, h2, set_later _ _ _⟩⟩
        · exact ⟨x.2.text, x.2.sourceVersion, by simp only [find_set]; rw [if_neg hk]; exact h2.1, .inr ⟨u, s.files, h1, h2, set_later _ _ _⟩⟩
      · refine ⟨text, _, by simp only [find_set]; rw [if_pos e1.symm], .inl ?_⟩
        rw [e2]
        exact Nat.succ_pos _) (fun x hx u hu => by
      rcases hc x hx with hx | ⟨e1, e2, -⟩
      · obtain ⟨u', h1, -, h3⟩ := h.done x hx
        rw [hu] at h1; cases h1
        exact h3
      · rw [e2] at hu; cases hu) hf (fun k hk => by
      obtain ⟨x, hx, rfl⟩ := List.mem_map.1 hk
      rcases hc x hx with hx | ⟨e1, -, e3⟩
      · exact hkeys _ (List.mem_map.2 ⟨x, hx, rfl⟩)
      · rw [e1]; exact e3) (fun k hk t hv => by
      refine hall k hk t ?_
      unfold view at hv
      rw [find_set] at hv
      by_cases hkk : key = k
      · rw [if_pos hkk] at hv
        cases hv
        subst hkk
        exact ht
      · rw [if_neg hkk] at hv
        match hfk : find k s.files with
        | none =>
          rw [hfk] at hv
          exact ⟨e, List.mem_append_right _ (List.mem_cons_self ..), .inl hv⟩
        | some c =>
          rw [hfk] at hv
          simp only at hv
          match hl : latest k es with
          | some t' =>
            obtain ⟨v, hv'⟩ := h.told k t' hl
            rw [hfk] at hv'
            cases hv'
            cases hv
            obtain ⟨e', he, h'⟩ := latest_hasText (fun e he => hone e (List.mem_append_left _ he)) hl
            exact ⟨e', List.mem_append_left _ he, h'⟩
          | none =>
            obtain ⟨e', he, h'⟩ := h.read k c hfk hl
            exact ⟨e', List.mem_append_left _ he, .inl (by rw [← h', hv])⟩)
    match h1 : onFileUpdate L diags sort fuel e.1 { s with files := s.files.set key text, comps := comps } with
    | none => exact absurd h1 this
    | some s' => exact ⟨s', rfl⟩
  obtain ⟨disk, n⟩ := e
  match n, upd, hopen with
  | .opened key text, upd, hopen =>
    refine upd key text _ (nodup_insert h.nodup) (fun x hx => ?_) ⟨_, List.mem_append_right _ (List.mem_cons_self ..), .inr (.inl rfl)⟩
    rcases mem_insert h.nodup hx with rfl | ⟨hx, -⟩
    · exact .inr ⟨rfl, rfl, hopen _ (List.mem_append_right _ (List.mem_cons_self ..)) key text rfl⟩
    · exact .inl hx
  | .changed key text more, upd, _ =>
    exact upd key text _ h.nodup (fun x hx => .inl hx) ⟨_, List.mem_append_right _ (List.mem_cons_self ..), .inr (.inr ⟨_, rfl⟩)⟩
  | .closed key, _, _ => exact ⟨_, rfl⟩

end

end Tic.Server
