/-
Proofs about the language server's state.
-/
import Verif.Server

namespace Tic.Server

section
variable {K N T U E D : Type} [DecidableEq K]

/-! ### Tables -/

theorem find_insert {V : Type} (k k' : K) (v : V) : ∀ l, find k (insert k' v l) = if k' = k then some v else find k l
  | [] => by simp [insert, find]
  | (j, w) :: l => by
    rw [insert]
    by_cases h : j = k'
    · subst h
      rw [if_pos rfl, find, find]
      split <;> rfl
    · rw [if_neg h, find, find, find_insert k k' v l]
      by_cases h1 : j = k
      · subst h1; rw [if_pos rfl, if_pos rfl, if_neg (Ne.symm h)]
      · rw [if_neg h1, if_neg h1]

theorem find_mem {V : Type} {k : K} {v : V} : ∀ {l}, find k l = some v → (k, v) ∈ l
  | (j, w) :: l, h => by
    rw [find] at h
    split at h
    · rename_i e; cases h; rw [e]; exact List.mem_cons_self ..
    · exact List.mem_cons_of_mem _ (find_mem h)

theorem mem_find {V : Type} {k : K} {v : V} : ∀ {l : List (K × V)}, (l.map Prod.fst).Nodup → (k, v) ∈ l → find k l = some v
  | (j, w) :: l, hn, h => by
    rw [List.map_cons, List.nodup_cons] at hn
    rw [find]
    rcases List.mem_cons.1 h with h | h
    · cases h; rw [if_pos rfl]
    · rw [if_neg, mem_find hn.2 h]
      intro e
      exact hn.1 (List.mem_map.2 ⟨(k, v), h, e.symm⟩)

theorem find_none {V : Type} {k : K} : ∀ {l : List (K × V)}, find k l = none ↔ k ∉ l.map Prod.fst
  | [] => by simp [find]
  | (j, w) :: l => by
    rw [find, List.map_cons, List.mem_cons]
    split
    · rename_i e; simp [e]
    · rename_i e
      rw [find_none (l := l)]
      exact ⟨fun h h' => h'.elim (fun h => e h.symm) h, fun h h' => h (.inr h')⟩

theorem keys_insert {V : Type} (k : K) (v : V) : ∀ l : List (K × V), (insert k v l).map Prod.fst = if k ∈ l.map Prod.fst then l.map Prod.fst else l.map Prod.fst ++ [k]
  | [] => by simp [insert]
  | (j, w) :: l => by
    rw [insert]
    by_cases h : j = k
    · subst h; simp
    · rw [if_neg h, List.map_cons, keys_insert k v l]
      have : k ∈ (j, w).1 :: l.map Prod.fst ↔ k ∈ l.map Prod.fst := by simp [Ne.symm h]
      simp only [List.map_cons, this]
      split <;> rfl

theorem nodup_insert {V : Type} {k : K} {v : V} {l : List (K × V)} (h : (l.map Prod.fst).Nodup) : ((insert k v l).map Prod.fst).Nodup := by
  rw [keys_insert]
  split
  · exact h
  · rename_i hk
    exact List.nodup_append.2 ⟨h, by simp, by intro a ha b hb e; rw [List.mem_singleton] at hb; subst hb; exact hk (e ▸ ha)⟩

/-! ### Files -/

/-- What the server knows of the contents of files, and the disk for the others. -/
def view (disk : Disk K T E) (files : Files K T E) : Disk K T E := fun k => match find k files with
  | some c => c.content
  | none => disk k

/-- Files were only read. -/
def Grew (disk : Disk K T E) (f f' : Files K T E) : Prop :=
  ∀ k, find k f' = find k f ∨ (find k f = none ∧ find k f' = some ⟨disk k, 1⟩)

theorem Grew.refl {disk : Disk K T E} (f) : Grew disk f f := fun _ => .inl rfl
theorem Grew.trans {disk : Disk K T E} {f g h : Files K T E} (a : Grew disk f g) (b : Grew disk g h) : Grew disk f h := fun k => by
  rcases a k with a | ⟨a1, a2⟩ <;> rcases b k with b | ⟨b1, b2⟩
  · exact .inl (b.trans a)
  · exact .inr ⟨by rw [← a, b1], b2⟩
  · exact .inr ⟨a1, b.trans a2⟩
  · rw [a2] at b1; cases b1
theorem Grew.keep {disk : Disk K T E} {f g : Files K T E} (a : Grew disk f g) {k c} (h : find k f = some c) : find k g = some c := by
  rcases a k with a | ⟨a1, a2⟩
  · rw [a, h]
  · rw [h] at a1; cases a1
theorem Grew.view {disk : Disk K T E} {f g : Files K T E} (a : Grew disk f g) : Server.view disk g = Server.view disk f := by
  funext k
  unfold Server.view
  rcases a k with a | ⟨a1, a2⟩
  · rw [a]
  · rw [a1, a2]

theorem get_spec (disk : Disk K T E) (f : Files K T E) (k : K) : Grew disk f (f.get disk k).2 ∧ find k (f.get disk k).2 = some (f.get disk k).1 ∧
    (f.get disk k).1.content = view disk f k := by
  unfold Files.get view
  cases h : find k f with
  | some c => exact ⟨.refl f, h, rfl⟩
  | none =>
    refine ⟨fun j => ?_, by simp [find_insert], rfl⟩
    simp only [find_insert]
    split
    · rename_i e; subst e; exact .inr ⟨h, rfl⟩
    · exact .inl rfl

/-! ### Compiling is compiling from the contents -/

/-- The table of the specification. -/
def table (deps : List (K × Dependency U)) : List (K × Option U) := deps.map fun d => (d.1, d.2.unit)

theorem find_table (k : K) : ∀ deps : List (K × Dependency U), find k (table deps) = (find k deps).map (·.unit)
  | [] => rfl
  | (j, d) :: l => by
    have := find_table k l
    rw [table] at this ⊢
    rw [List.map_cons, find, find, this]
    split <;> rfl

theorem table_insert (k : K) (d : Dependency U) : ∀ deps : List (K × Dependency U), table (insert k d deps) = insert k d.unit (table deps)
  | [] => rfl
  | (j, e) :: l => by
    have := table_insert k d l
    rw [table] at this ⊢
    rw [insert]
    show _ = insert k d.unit ((j, e.unit) :: table l)
    rw [insert]
    split
    · rfl
    · rw [List.map_cons, this]

/-- The versions of the dependencies are those of the files. -/
def Versions (deps : List (K × Dependency U)) (files : Files K T E) : Prop := ∀ k d, find k deps = some d → ∃ c, find k files = some c ∧ c.version = d.version

/-- Dependencies stay. -/
def Keeps (deps deps' : List (K × Dependency U)) : Prop := ∀ k, find k deps ≠ none → find k deps' ≠ none

/-- One computation of the server and one of the specification. -/
def Sim {R : Type} (disk : Disk K T E) (st : St K T U E) (a : Option (R × St K T U E)) (b : Option (R × List (K × Option U))) : Prop :=
  (a = none ∧ b = none) ∨ ∃ r st', a = some (r, st') ∧ b = some (r, table st'.deps) ∧ Grew disk st.files st'.files ∧ Versions st'.deps st'.files ∧ Keeps st.deps st'.deps

theorem lookups_sim {R : Type} {disk : Disk K T E} {look : N → St K T U E → Option (R × St K T U E)} {look' : N → List (K × Option U) → Option (R × List (K × Option U))}
    {v : Disk K T E} (h : ∀ n (st : St K T U E), view disk st.files = v → Versions st.deps st.files → Sim disk st (look n st) (look' n (table st.deps))) :
    ∀ (ns : List N) (st : St K T U E), view disk st.files = v → Versions st.deps st.files → Sim disk st (lookups look ns st) (lookups look' ns (table st.deps))
  | [], st, _, hv => .inr ⟨[], st, rfl, rfl, .refl _, hv, fun _ h => h⟩
  | n :: ns, st, hw, hv => by
    rw [lookups, lookups]
    rcases h n st hw hv with ⟨e1, e2⟩ | ⟨r, st1, e1, e2, g1, g2, g3⟩
    · rw [e1, e2]; exact .inl ⟨rfl, rfl⟩
    rw [e1, e2]
    simp only
    rcases lookups_sim h ns st1 (g1.view.trans hw) g2 with ⟨e3, e4⟩ | ⟨rs, st2, e3, e4, k1, k2, k3⟩
    · rw [e3, e4]; exact .inl ⟨rfl, rfl⟩
    rw [e3, e4]
    exact .inr ⟨r :: rs, st2, rfl, rfl, g1.trans k1, k2, fun k hk => k3 k (g3 k hk)⟩

theorem versions_grew {disk : Disk K T E} {deps : List (K × Dependency U)} {f g : Files K T E} (h : Versions deps f) (hg : Grew disk f g) : Versions deps g := fun k d hd => by
  obtain ⟨c, h1, h2⟩ := h k d hd
  exact ⟨c, hg.keep h1, h2⟩

theorem versions_insert {deps : List (K × Dependency U)} {f : Files K T E} {k : K} {u : Option U} {c} (h : Versions deps f) (hc : find k f = some c) :
    Versions (insert k ⟨u, c.version⟩ deps) f := fun j d hd => by
  rw [find_insert] at hd
  split at hd
  · rename_i e; subst e; cases hd; exact ⟨c, hc, rfl⟩
  · exact h j d hd

theorem lookup_sim (L : Lang K N T U E) {disk v : Disk K T E} : ∀ (fuel : Nat) (cur : K) (n : N) (st : St K T U E), view disk st.files = v → Versions st.deps st.files →
    Sim disk st (lookup L disk fuel cur n st) (specLookup L v fuel cur n (table st.deps))
  | 0, _, _, _, _, _ => .inl ⟨rfl, rfl⟩
  | fuel + 1, cur, n, st, hw, hv => by
    rw [lookup, specLookup]
    cases hj : L.join cur n with
    | none => exact .inr ⟨_, st, rfl, rfl, .refl _, hv, fun _ h => h⟩
    | some key =>
      obtain ⟨g1, g2, g3⟩ := get_spec disk st.files key
      generalize hget : Files.get disk st.files key = src at g1 g2 g3
      obtain ⟨source, files⟩ := src
      simp only at g1 g2 g3 ⊢
      rw [hget]
      simp only
      rw [find_table]
      match hf : find key st.deps with
      | some ⟨none, v⟩ => exact .inr ⟨_, ⟨st.deps, files⟩, rfl, rfl, g1, versions_grew hv g1, fun _ h => h⟩
      | some ⟨some u, v⟩ => exact .inr ⟨_, ⟨st.deps, files⟩, rfl, rfl, g1, versions_grew hv g1, fun _ h => h⟩
      | none =>
        have hv1 : Versions (insert key ⟨none, source.version⟩ st.deps) files := versions_insert (versions_grew hv g1) g2
        have hk1 : Keeps st.deps (insert key ⟨(none : Option U), source.version⟩ st.deps) := fun j hj => by
          rw [find_insert]; split
          · exact nofun
          · exact hj
        have ht : table (insert key ⟨(none : Option U), source.version⟩ st.deps) = insert key none (table st.deps) := table_insert ..
        simp only [Option.map_none]
        rw [← hw, ← g3]
        match hc : source.content with
        | .error .notFound => exact .inr ⟨_, ⟨_, files⟩, rfl, by rw [ht], g1, hv1, hk1⟩
        | .error (.other e) => exact .inr ⟨_, ⟨_, files⟩, rfl, by rw [ht], g1, hv1, hk1⟩
        | .ok text =>
          have ih := lookups_sim (fun n st => lookup_sim L (disk := disk) (v := v) fuel key n st) (L.imports text) ⟨insert key ⟨none, source.version⟩ st.deps, files⟩
            (g1.view.trans hw) hv1
          simp only [ht] at ih
          simp only
          rw [← hw] at ih
          rcases ih with ⟨e1, e2⟩ | ⟨rs, st', e1, e2, k1, k2, k3⟩
          · rw [e1, e2]; exact .inl ⟨rfl, rfl⟩
          rw [e1, e2]
          simp only
          match hd : find key st'.deps with
          | none => exact absurd hd (k3 key (by simp [find_insert]))
          | some d =>
            obtain ⟨c, hc1, hc2⟩ := k2 key d hd
            refine .inr ⟨_, ⟨_, st'.files⟩, rfl, ?_, g1.trans k1, ?_, ?_⟩
            · rw [table_insert]
            · show Versions (insert key ⟨_, d.version⟩ st'.deps) st'.files
              rw [← hc2]; exact versions_insert k2 hc1
            · intro j hj
              simp only [find_insert]
              split
              · exact nofun
              · exact k3 j (hk1 j hj)

/-! ### Compiling depends on what was looked up only -/

theorem lookups_reads {R S : Type} {look look' : N → S → Option (R × S)} {Le : S → S → Prop} (htr : ∀ a b c, Le a b → Le b c → Le a c) (hrf : ∀ a, Le a a) {fin : S}
    (h : ∀ n s r s', look n s = some (r, s') → Le s s' ∧ (Le s' fin → look' n s = some (r, s'))) :
    ∀ (ns : List N) (s : S) (rs s'), lookups look ns s = some (rs, s') → Le s s' ∧ (Le s' fin → lookups look' ns s = some (rs, s'))
  | [], s, rs, s', e => by cases e; exact ⟨hrf _, fun _ => rfl⟩
  | n :: ns, s, rs, s', e => by
    rw [lookups] at e
    match h1 : look n s with
    | none => rw [h1] at e; cases e
    | some (r, s1) =>
      rw [h1] at e
      simp only at e
      match h2 : lookups look ns s1 with
      | none => rw [h2] at e; cases e
      | some (rs2, s2) =>
        rw [h2] at e
        cases e
        obtain ⟨a1, a2⟩ := h n s r s1 h1
        obtain ⟨b1, b2⟩ := lookups_reads htr hrf h ns s1 rs2 _ h2
        refine ⟨htr _ _ _ a1 b1, fun hle => ?_⟩
        rw [lookups, a2 (htr _ _ _ b1 hle)]
        simp only
        rw [b2 hle]

/-- The keys of a table are keys of another. -/
def Sub (a b : List (K × Option U)) : Prop := ∀ k, find k a ≠ none → find k b ≠ none

theorem sub_insert (k : K) (u : Option U) (a : List (K × Option U)) : Sub a (insert k u a) := fun j hj => by
  rw [find_insert]; split
  · exact nofun
  · exact hj

theorem spec_reads (L : Lang K N T U E) {v v' : Disk K T E} {fin : List (K × Option U)} (hfin : ∀ k, find k fin ≠ none → v' k = v k) :
    ∀ (fuel : Nat) (cur : K) (n : N) (t : List (K × Option U)) r t', specLookup L v fuel cur n t = some (r, t') → Sub t t' ∧ (Sub t' fin → specLookup L v' fuel cur n t = some (r, t'))
  | 0, _, _, _, _, _, h => by cases h
  | fuel + 1, cur, n, t, r, t', h => by
    rw [specLookup] at h ⊢
    cases hj : L.join cur n with
    | none => rw [hj] at h; cases h; exact ⟨fun _ h => h, fun _ => rfl⟩
    | some key =>
      rw [hj] at h
      simp only at h ⊢
      match hf : find key t with
      | some none => rw [hf] at h; cases h; exact ⟨fun _ h => h, fun _ => rfl⟩
      | some (some u) => rw [hf] at h; cases h; exact ⟨fun _ h => h, fun _ => rfl⟩
      | none =>
        rw [hf] at h
        simp only at h ⊢
        have key_in : ∀ {t''}, Sub (insert key none t) t'' → Sub t'' fin → v' key = v key := fun h1 h2 => hfin key (h2 key (h1 key (by simp [find_insert])))
        match hc : v key with
        | .error .notFound =>
          rw [hc] at h; cases h
          exact ⟨sub_insert _ _ _, fun hs => by rw [key_in (fun _ h => h) hs, hc]⟩
        | .error (.other e) =>
          rw [hc] at h; cases h
          exact ⟨sub_insert _ _ _, fun hs => by rw [key_in (fun _ h => h) hs, hc]⟩
        | .ok text =>
          rw [hc] at h
          simp only at h
          match h1 : lookups (specLookup L v fuel key) (L.imports text) (insert key none t) with
          | none => rw [h1] at h; cases h
          | some (rs, t1) =>
            rw [h1] at h
            cases h
            obtain ⟨a1, a2⟩ := lookups_reads (Le := Sub) (fun _ _ _ h1 h2 k hk => h2 k (h1 k hk)) (fun _ _ h => h) (spec_reads L hfin fuel key) _ _ _ _ h1
            refine ⟨fun k hk => sub_insert _ _ _ k (a1 k (sub_insert _ _ _ k hk)), fun hs => ?_⟩
            have hs1 : Sub t1 fin := fun k hk => hs k (sub_insert _ _ _ k hk)
            rw [key_in a1 hs1, hc]
            simp only
            rw [a2 hs1]

end

end Tic.Server
