import Verif.Imports

/-!
# C26: import cycles

Specification: the import graph (`Imports`), reachability in it (`Reach`), and files that lie on an
import cycle (`OnCycle`).  The theorems are at the end of the file.
-/

namespace Tic.Imports

variable {P : Type} [DecidableEq P]

/-! ## Specification -/

/-- `a` can be read and has an import that names `b`. -/
def Imports (fs : Files P) (a b : P) : Prop := ∃ ts, fs.imports a = some ts ∧ b ∈ ts

/-- `b` can be reached from `a` by following imports (possibly none). -/
inductive Reach (fs : Files P) : P → P → Prop
  | refl (a : P) : Reach fs a a
  | tail {a b c : P} : Reach fs a b → Imports fs b c → Reach fs a c

/-- Following the import of `t` in `a` leads back to `a`. -/
def LeadsBack (fs : Files P) (a t : P) : Prop := Imports fs a t ∧ Reach fs t a

theorem Reach.trans {fs : Files P} {a b c : P} (h : Reach fs a b) (h' : Reach fs b c) :
    Reach fs a c := by
  induction h' with
  | refl => exact h
  | tail _ hi ih => exact ih.tail hi

theorem Reach.head {fs : Files P} {a b c : P} (h : Imports fs a b) (h' : Reach fs b c) :
    Reach fs a c := Reach.trans ((Reach.refl a).tail h) h'

/-- `a` is not followed, directly or later, by itself. -/
def Acyclic (fs : Files P) (root : P) : Prop :=
  ∀ a t, Reach fs root a → ¬ LeadsBack fs a t

/-! ## Facts about one lookup -/

/-- The cache, newest first, lists every file after the readable files it imports. -/
def Topo (fs : Files P) : List P → Prop
  | [] => True
  | p :: r => (∀ t, Imports fs p t → (fs.imports t).isSome → t ∈ r) ∧ Topo fs r

def NoCyc (log : List (Event P)) : Prop := ∀ e ∈ log, e.res ≠ .cycle

def SoundLog (fs : Files P) (log : List (Event P)) : Prop :=
  ∀ e ∈ log, e.res = .cycle → LeadsBack fs e.importer e.target

structure Grow (fs : Files P) (chain : List P) (st st' : St P) : Prop where
  cache : ∀ q ∈ st.cache, q ∈ st'.cache
  log : ∀ e ∈ st.log, e ∈ st'.log
  avoid : ∀ q ∈ chain, q ∈ st'.cache → q ∈ st.cache
  nodup : st.cache.Nodup → st'.cache.Nodup
  topo : Topo fs st.cache → NoCyc st'.log → Topo fs st'.cache
  errs : st.errors.isSome → st'.errors.isSome

omit [DecidableEq P] in
theorem Grow.refl (fs : Files P) (chain : List P) (st : St P) : Grow fs chain st st :=
  ⟨fun _ h => h, fun _ h => h, fun _ _ h => h, fun h => h, fun h _ => h, fun h => h⟩

omit [DecidableEq P] in
theorem Grow.trans {fs : Files P} {chain : List P} {a b c : St P}
    (h : Grow fs chain a b) (h' : Grow fs chain b c) : Grow fs chain a c :=
  ⟨fun q hq => h'.cache q (h.cache q hq), fun e he => h'.log e (h.log e he),
   fun q hq hc => h.avoid q hq (h'.avoid q hq hc), fun hn => h'.nodup (h.nodup hn),
   fun ht hn => h'.topo (h.topo ht fun e he => hn e (h'.log e he)) hn,
   fun he => h'.errs (h.errs he)⟩

/-- What one lookup guarantees. -/
structure Looked (fs : Files P) (chain : List P) (p : P) (st : St P) (r : Res) (st' : St P) :
    Prop where
  grow : Grow fs chain st st'
  ok : r = .ok → p ∈ st'.cache
  missing : r = .missing → fs.imports p = none
  cyc : r = .cycle → p ∈ chain
  onchain : p ∈ chain → r = .cycle
  sound : (∀ q ∈ chain, Reach fs q p) → SoundLog fs st.log → SoundLog fs st'.log
  fails : ∀ e ∈ st'.log, e.res ≠ .ok → e ∈ st.log ∨ st'.errors.isSome
  stable : ∀ q ∈ chain, ∀ e ∈ st'.log, e.importer = q → e ∈ st.log

/-- What compiling the imports of one file guarantees. -/
structure Compiled (fs : Files P) (chain : List P) (me : P) (ts : List P) (st : St P) (b : Bool)
    (st' : St P) : Prop where
  grow : Grow fs chain st st'
  seen : NoCyc st'.log → ∀ t ∈ ts, (fs.imports t).isSome → t ∈ st'.cache
  sound : (∀ t ∈ ts, Imports fs me t) → (∀ q ∈ chain, ∀ t ∈ ts, Reach fs q t) →
    (∀ q ∈ chain, Reach fs q me) → SoundLog fs st.log → SoundLog fs st'.log
  fails : ∀ e ∈ st'.log, e.res ≠ .ok → e ∈ st.log ∨ st'.errors.isSome ∨ b = true
  stable : ∀ q ∈ chain, q ≠ me → ∀ e ∈ st'.log, e.importer = q → e ∈ st.log
  logged : ∀ t ∈ ts, ∃ r, (⟨me, t, r⟩ : Event P) ∈ st'.log ∧ (t ∈ chain → r = .cycle)
  only : me ∈ chain → ∀ e ∈ st'.log, e.importer = me → e ∈ st.log ∨ e.target ∈ ts

omit [DecidableEq P] in
theorem compileImports_spec {fs : Files P} {chain : List P} {look : P → St P → Option (Res × St P)}
    {self : P}
    (hl : ∀ p st r st', look p st = some (r, st') → Looked fs chain p st r st') :
    ∀ (ts : List P) (st : St P) (b : Bool) (st' : St P),
      compileImports look self ts st = some (b, st') → Compiled fs chain self ts st b st' := by
  intro ts
  induction ts with
  | nil =>
    intro st b st' h
    simp only [compileImports, Option.some.injEq, Prod.mk.injEq] at h
    obtain ⟨rfl, rfl⟩ := h
    exact ⟨.refl .., fun _ t ht => (nomatch ht), fun _ _ _ h => h, fun e he _ => .inl he,
      fun _ _ _ e he _ => he, fun t ht => (nomatch ht), fun _ e he _ => .inl he⟩
  | cons t ts ih =>
    intro st b st' h
    rw [compileImports] at h
    cases h1 : look t st with
    | none => rw [h1] at h; cases h
    | some v =>
      obtain ⟨r, st1⟩ := v
      rw [h1] at h
      dsimp only at h
      cases h2 : compileImports look self ts { st1 with log := ⟨self, t, r⟩ :: st1.log } with
      | none => rw [h2] at h; cases h
      | some v =>
        obtain ⟨e2, st2⟩ := v
        rw [h2] at h
        simp only [Option.some.injEq, Prod.mk.injEq] at h
        obtain ⟨rfl, rfl⟩ := h
        have A := hl _ _ _ _ h1
        have B := ih _ _ _ h2
        have hmid : Grow fs chain st1 { st1 with log := ⟨self, t, r⟩ :: st1.log } :=
          ⟨fun _ h => h, fun e he => List.mem_cons_of_mem _ he, fun _ _ h => h, fun h => h,
           fun h _ => h, fun h => h⟩
        have hg := (A.grow.trans hmid).trans B.grow
        refine ⟨hg, ?_, ?_, ?_, ?_, ?_, ?_⟩
        · intro hn u hu hread
          rcases List.mem_cons.1 hu with rfl | hu
          · have hev := B.grow.log ⟨self, u, r⟩ List.mem_cons_self
            cases r with
            | ok => exact B.grow.cache _ (A.ok rfl)
            | cycle => exact absurd rfl (hn _ hev)
            | missing => rw [A.missing rfl] at hread; cases hread
          · exact B.seen hn u hu hread
        · intro hi hr hs hlog
          refine B.sound (fun u hu => hi u (List.mem_cons_of_mem _ hu))
            (fun q hq u hu => hr q hq u (List.mem_cons_of_mem _ hu)) hs ?_
          intro e he hc
          rcases List.mem_cons.1 he with rfl | he
          · exact ⟨hi t List.mem_cons_self, hs t (A.cyc hc)⟩
          · exact A.sound (fun q hq => hr q hq t List.mem_cons_self) hlog e he hc
        · intro e he hne
          rcases B.fails e he hne with he | he | he
          · rcases List.mem_cons.1 he with rfl | he
            · right; right
              simp only [Bool.or_eq_true, bne_iff_ne]
              exact .inr hne
            · rcases A.fails e he hne with he | he
              · exact .inl he
              · exact .inr (.inl (B.grow.errs he))
          · exact .inr (.inl he)
          · exact .inr (.inr (by simp [he]))
        · intro q hq hqs e he hi
          have := B.stable q hq hqs e he hi
          rcases List.mem_cons.1 this with rfl | he
          · exact absurd hi.symm hqs
          · exact A.stable q hq e he hi
        · intro u hu
          rcases List.mem_cons.1 hu with rfl | hu
          · exact ⟨r, B.grow.log _ List.mem_cons_self, A.onchain⟩
          · exact B.logged u hu
        · intro hself e he hi
          rcases B.only hself e he hi with he | he
          · rcases List.mem_cons.1 he with rfl | he
            · exact .inr List.mem_cons_self
            · exact .inl (A.stable self hself e he hi)
          · exact .inr (List.mem_cons_of_mem _ he)

theorem lookup_spec {fs : Files P} : ∀ (n : Nat) (chain : List P) (p : P) (st : St P) (r : Res)
    (st' : St P), lookup fs n chain p st = some (r, st') → Looked fs chain p st r st' := by
  intro n
  induction n with
  | zero => intro chain p st r st' h; cases h
  | succ n ih =>
    intro chain p st r st' h
    rw [lookup] at h
    split at h
    · rename_i hc
      simp only [Option.some.injEq, Prod.mk.injEq] at h
      obtain ⟨rfl, rfl⟩ := h
      exact ⟨.refl .., nofun, nofun, fun _ => hc, fun _ => rfl, fun _ h => h, fun e he _ => .inl he,
        fun _ _ e he _ => he⟩
    · rename_i hc
      split at h
      · rename_i hm
        simp only [Option.some.injEq, Prod.mk.injEq] at h
        obtain ⟨rfl, rfl⟩ := h
        exact ⟨.refl .., fun _ => hm, nofun, nofun, fun h => absurd h hc, fun _ h => h,
          fun e he _ => .inl he, fun _ _ e he _ => he⟩
      · rename_i hm
        split at h
        · rename_i hnone
          simp only [Option.some.injEq, Prod.mk.injEq] at h
          obtain ⟨rfl, rfl⟩ := h
          exact ⟨.refl .., nofun, fun _ => hnone, nofun, fun h => absurd h hc, fun _ h => h,
            fun e he _ => .inl he, fun _ _ e he _ => he⟩
        · rename_i ts hts
          split at h
          · cases h
          · rename_i e st1 h1
            simp only [Option.some.injEq, Prod.mk.injEq] at h
            obtain ⟨rfl, rfl⟩ := h
            have C := compileImports_spec (fs := fs) (chain := p :: chain)
              (fun q s r s' h => ih _ _ _ _ _ h) ts st e st1 h1
            have hp : p ∉ st1.cache := fun hin => hm (C.grow.avoid p List.mem_cons_self hin)
            have hesome : ∀ x, st1.errors.isSome ∨ x = true → x = e →
                (if (x || fs.broken p) = true then
                  (if st1.errors = none then some p else st1.errors) else st1.errors).isSome := by
              intro x hx _
              by_cases hn : st1.errors = none
              · rw [hn] at hx ⊢
                have : x = true := by simpa using hx
                simp [this]
              · rw [if_neg hn, ite_self]
                exact Option.isSome_iff_ne_none.2 hn
            refine ⟨⟨?_, C.grow.log, ?_, ?_, ?_, ?_⟩, ?_, nofun, nofun, fun h => absurd h hc,
              ?_, ?_, ?_⟩
            · exact fun q hq => List.mem_cons_of_mem _ (C.grow.cache q hq)
            · intro q hq hin
              rcases List.mem_cons.1 hin with rfl | hin
              · exact absurd hq hc
              · exact C.grow.avoid q (List.mem_cons_of_mem _ hq) hin
            · intro hn
              exact List.nodup_cons.2 ⟨hp, C.grow.nodup hn⟩
            · intro ht hn
              refine ⟨?_, C.grow.topo ht hn⟩
              rintro t ⟨ts', h', hmem⟩ hread
              rw [hts] at h'
              cases h'
              exact C.seen hn t hmem hread
            · intro he
              exact hesome e (.inl (C.grow.errs he)) rfl
            · exact fun _ => List.mem_cons_self
            · intro hr hlog
              have himp : ∀ t ∈ ts, Imports fs p t := fun t ht => ⟨ts, hts, ht⟩
              refine C.sound himp ?_ ?_ hlog
              · intro q hq t ht
                rcases List.mem_cons.1 hq with rfl | hq
                · exact (Reach.refl _).tail (himp t ht)
                · exact (hr q hq).tail (himp t ht)
              · intro q hq
                rcases List.mem_cons.1 hq with rfl | hq
                · exact .refl _
                · exact hr q hq
            · intro ev hev hne
              rcases C.fails ev hev hne with h | h | h
              · exact .inl h
              · exact .inr (hesome e (.inl h) rfl)
              · exact .inr (hesome e (.inr h) rfl)
            · intro q hq ev hev hi
              refine C.stable q (List.mem_cons_of_mem _ hq) ?_ ev hev hi
              rintro rfl
              exact hc hq

/-! ## Termination -/

omit [DecidableEq P] in
theorem compileImports_total {look : P → St P → Option (Res × St P)} {self : P}
    (hl : ∀ p st, (look p st).isSome) : ∀ (ts : List P) (st : St P),
    (compileImports look self ts st).isSome := by
  intro ts
  induction ts with
  | nil => intro st; rfl
  | cons t ts ih =>
    intro st
    rw [compileImports]
    obtain ⟨⟨r, st1⟩, h1⟩ := Option.isSome_iff_exists.1 (hl t st)
    rw [h1]
    dsimp only
    obtain ⟨⟨e, st2⟩, h2⟩ :=
      Option.isSome_iff_exists.1 (ih { st1 with log := ⟨self, t, r⟩ :: st1.log })
    rw [h2]
    rfl

theorem lookup_total {fs : Files P} {F : List P} (hF : ∀ p, (fs.imports p).isSome → p ∈ F) :
    ∀ (n : Nat) (chain : List P), (F.filter (fun q => decide (q ∉ chain))).length < n →
      ∀ p st, (lookup fs n chain p st).isSome := by
  intro n
  induction n with
  | zero => intro chain h; cases h
  | succ n ih =>
    intro chain h p st
    rw [lookup]
    split
    · rfl
    · rename_i hc
      split
      · rfl
      · split
        · rfl
        · rename_i ts hts
          have hlt : (F.filter (fun q => decide (q ∉ p :: chain))).length < n := by
            have hp : p ∈ F := hF p (by rw [hts]; rfl)
            have : (F.filter (fun q => decide (q ∉ p :: chain))).length <
                (F.filter (fun q => decide (q ∉ chain))).length := by
              have hsub : F.filter (fun q => decide (q ∉ p :: chain)) =
                  (F.filter (fun q => decide (q ∉ chain))).filter (fun q => decide (q ≠ p)) := by
                rw [List.filter_filter]
                apply List.filter_congr
                intro q _
                by_cases h1 : q = p <;> by_cases h2 : q ∈ chain <;> simp [h1, h2]
              rw [hsub]
              refine List.length_filter_lt_length_iff_exists.2 ⟨p, ?_, by simp⟩
              exact List.mem_filter.2 ⟨hp, by simp [hc]⟩
            omega
          obtain ⟨⟨e, st2⟩, h2⟩ := Option.isSome_iff_exists.1
            (compileImports_total (self := p) (fun q s => ih (p :: chain) hlt q s) ts st)
          rw [h2]
          rfl

omit [DecidableEq P] in
theorem compileImports_mono {look look' : P → St P → Option (Res × St P)} {self : P}
    (hl : ∀ p st v, look p st = some v → look' p st = some v) :
    ∀ (ts : List P) (st : St P) (v), compileImports look self ts st = some v →
      compileImports look' self ts st = some v := by
  intro ts
  induction ts with
  | nil => intro st v h; exact h
  | cons t ts ih =>
    intro st v h
    rw [compileImports] at h ⊢
    cases h1 : look t st with
    | none => rw [h1] at h; cases h
    | some w =>
      rw [h1] at h
      rw [hl _ _ _ h1]
      dsimp only at h ⊢
      cases h2 : compileImports look self ts { w.2 with log := ⟨self, t, w.1⟩ :: w.2.log } with
      | none => rw [h2] at h; cases h
      | some u => rw [h2] at h; rw [ih _ _ h2]; exact h

theorem lookup_mono {fs : Files P} : ∀ (n m : Nat), n ≤ m → ∀ chain p st v,
    lookup fs n chain p st = some v → lookup fs m chain p st = some v := by
  intro n
  induction n with
  | zero => intro m _ chain p st v h; cases h
  | succ n ih =>
    intro m hm chain p st v h
    obtain ⟨m, rfl⟩ : ∃ k, m = k + 1 := ⟨m - 1, by omega⟩
    rw [lookup] at h ⊢
    split at h
    · rename_i hc; rw [if_pos hc]; exact h
    · rename_i hc
      rw [if_neg hc]
      split at h
      · rename_i hm'; rw [if_pos hm']; exact h
      · rename_i hm'
        rw [if_neg hm']
        split at h
        · rename_i hn; exact h
        · rename_i ts hts
          cases h1 : compileImports (lookup fs n (p :: chain)) p ts st with
          | none => rw [h1] at h; cases h
          | some w =>
            rw [h1] at h
            have := compileImports_mono (self := p)
              (fun q s v hv => ih m (by omega) (p :: chain) q s v hv) ts st w h1
            rw [this]
            exact h

/-! ## Acyclicity of the cache order -/

omit [DecidableEq P] in
theorem topo_suffix {fs : Files P} {l : List P} (h : Topo fs l) {a b : P} {r : List P}
    (hs : (a :: r) <:+ l) (hi : Imports fs a b) (hb : (fs.imports b).isSome) :
    ∃ r', (b :: r') <:+ r := by
  induction l with
  | nil => simp at hs
  | cons p l ih =>
    rcases List.suffix_cons_iff.1 hs with heq | hs
    · cases heq
      obtain ⟨s, t, rfl⟩ := List.append_of_mem (h.1 b hi hb)
      exact ⟨t, s, rfl⟩
    · exact ih h.2 hs

omit [DecidableEq P] in
theorem topo_reach {fs : Files P} {l : List P} (h : Topo fs l) {a b : P}
    (hr : Reach fs a b) : ∀ {r : List P}, (a :: r) <:+ l → (fs.imports b).isSome →
      ∃ r', (b :: r') <:+ (a :: r) := by
  induction hr with
  | refl => intro r _ _; exact ⟨r, List.suffix_refl _⟩
  | tail hr hi ih =>
    intro r hs hb
    rename_i x y
    have hx : (fs.imports x).isSome := by
      obtain ⟨ts, hts, _⟩ := hi
      rw [hts]; rfl
    obtain ⟨r1, h1⟩ := ih hs hx
    obtain ⟨r2, h2⟩ := topo_suffix h (h1.trans hs) hi hb
    exact ⟨r2, h2.trans ((List.suffix_cons _ _).trans h1)⟩

omit [DecidableEq P] in
theorem topo_no_cycle {fs : Files P} {l : List P} (h : Topo fs l) {a t : P}
    (hc : LeadsBack fs a t) : a ∉ l := by
  have key : ∀ n (r : List P), r.length = n → ¬ (a :: r) <:+ l := by
    intro n
    induction n using Nat.strongRecOn with
    | _ n ih =>
      intro r hn hs
      obtain ⟨hi, hr⟩ := hc
      have ha : (fs.imports a).isSome := by
        obtain ⟨ts, hts, _⟩ := hi
        rw [hts]; rfl
      have ht : (fs.imports t).isSome := by
        cases hr with
        | refl => exact ha
        | tail _ _ =>
          rename_i b hr' hi'
          -- `t` reaches something by at least no steps; a first step reads `t`
          have : ∀ {x y z : P}, Reach fs x y → Imports fs y z → (fs.imports x).isSome := by
            intro x y z hxy
            induction hxy generalizing z with
            | refl => rintro ⟨ts, hts, _⟩; rw [hts]; rfl
            | tail _ hi2 ih2 => intro _; exact ih2 hi2
          exact this hr' hi'
      obtain ⟨r1, h1⟩ := topo_suffix h hs hi ht
      obtain ⟨r2, h2⟩ := topo_reach h hr (h1.trans ((List.suffix_cons _ _).trans hs)) ha
      have hlen := h2.length_le
      have hlen1 := h1.length_le
      simp only [List.length_cons] at hlen hlen1
      exact ih r2.length (by omega) r2 rfl (h2.trans (h1.trans ((List.suffix_cons _ _).trans hs)))
  intro hin
  obtain ⟨s, r, rfl⟩ := List.append_of_mem hin
  exact key _ r rfl ⟨s, rfl⟩

omit [DecidableEq P] in
theorem topo_closed {fs : Files P} {l : List P} (h : Topo fs l) {a b : P} (ha : a ∈ l)
    (hr : Reach fs a b) (hb : (fs.imports b).isSome) : b ∈ l := by
  obtain ⟨s, r, rfl⟩ := List.append_of_mem ha
  obtain ⟨r', hr'⟩ := topo_reach h hr ⟨s, rfl⟩ hb
  exact List.mem_append_right _ (hr'.subset List.mem_cons_self)

/-! ## The language server's resolver -/

theorem depGet_done (p q : P) : ∀ (l : List (P × Bool)), depGet q (depDone p l) =
    if q = p then (depGet p l).map (fun _ => true) else depGet q l := by
  intro l
  induction l with
  | nil => simp [depDone, depGet]
  | cons x l ih =>
    obtain ⟨y, b⟩ := x
    simp only [depDone]
    by_cases hy : y = p
    · subst hy
      rw [if_pos rfl]
      by_cases hq : q = y
      · subst hq; simp [depGet]
      · have : y ≠ q := fun h => hq h.symm
        simp [depGet, hq, this]
    · rw [if_neg hy]
      by_cases hq : y = q
      · subst hq; simp [depGet, hy]
      · simp only [depGet, if_neg hq, if_neg hy]
        exact ih

structure LGrow (fs : Files P) (st st' : LSt P) : Prop where
  keep : ∀ q b, depGet q st.deps = some b → depGet q st'.deps = some b
  fresh : ∀ q, depGet q st'.deps = some false → depGet q st.deps = some false ∨ fs.imports q = none
  log : ∀ e ∈ st.log, e ∈ st'.log

/-- The finished dependencies in some order in which every file comes after those it imports. -/
def LTopo (fs : Files P) (st : LSt P) : Prop :=
  ∃ l : List P, (∀ q, q ∈ l ↔ depGet q st.deps = some true) ∧ Topo fs l

/-- Every unfinished readable dependency leads to `p`. -/
def LPending (fs : Files P) (st : LSt P) (p : P) : Prop :=
  ∀ q, depGet q st.deps = some false → (fs.imports q).isSome → Reach fs q p

/-- Cycle reports on readable files are right. -/
def LSound (fs : Files P) (log : List (Event P)) : Prop :=
  ∀ e ∈ log, e.res = .cycle → (fs.imports e.target).isSome → LeadsBack fs e.importer e.target

structure LLooked (fs : Files P) (p : P) (st : LSt P) (r : Res) (st' : LSt P) : Prop where
  grow : LGrow fs st st'
  ok : r = .ok → depGet p st'.deps = some true
  missing : r = .missing → fs.imports p = none
  cyc : r = .cycle → depGet p st.deps = some false
  sound : LPending fs st p → LSound fs st.log → LSound fs st'.log
  topo : LTopo fs st → NoCyc st'.log → LTopo fs st'

structure LCompiled (fs : Files P) (me : P) (ts : List P) (st st' : LSt P) : Prop where
  grow : LGrow fs st st'
  seen : NoCyc st'.log → ∀ t ∈ ts, (fs.imports t).isSome → depGet t st'.deps = some true
  sound : (∀ t ∈ ts, Imports fs me t) → LPending fs st me → LSound fs st.log → LSound fs st'.log
  topo : LTopo fs st → NoCyc st'.log → LTopo fs st'

theorem LGrow.refl (fs : Files P) (st : LSt P) : LGrow fs st st :=
  ⟨fun _ _ h => h, fun _ h => .inl h, fun _ h => h⟩

theorem LGrow.trans {fs : Files P} {a b c : LSt P} (h : LGrow fs a b) (h' : LGrow fs b c) :
    LGrow fs a c :=
  ⟨fun q b hq => h'.keep q b (h.keep q b hq),
   fun q hq => (h'.fresh q hq).elim (h.fresh q) .inr, fun e he => h'.log e (h.log e he)⟩

theorem LPending.grow {fs : Files P} {a b : LSt P} {p : P} (h : LPending fs a p)
    (g : LGrow fs a b) : LPending fs b p := by
  intro q hq hr
  rcases g.fresh q hq with hq | hn
  · exact h q hq hr
  · rw [hn] at hr; cases hr

theorem lspCompile_spec {fs : Files P} {look : P → LSt P → Option (Res × LSt P)} {me : P}
    (hl : ∀ p st r st', look p st = some (r, st') → LLooked fs p st r st') :
    ∀ (ts : List P) (st st' : LSt P), lspCompile look me ts st = some st' →
      LCompiled fs me ts st st' := by
  intro ts
  induction ts with
  | nil =>
    intro st st' h
    simp only [lspCompile, Option.some.injEq] at h
    subst h
    exact ⟨.refl .., fun _ t ht => (nomatch ht), fun _ _ h => h, fun h _ => h⟩
  | cons t ts ih =>
    intro st st' h
    rw [lspCompile] at h
    cases h1 : look t st with
    | none => rw [h1] at h; cases h
    | some v =>
      obtain ⟨r, st1⟩ := v
      rw [h1] at h
      dsimp only at h
      have A := hl _ _ _ _ h1
      have B := ih _ _ h
      have hmid : LGrow fs st1 { st1 with log := ⟨me, t, r⟩ :: st1.log } :=
        ⟨fun _ _ h => h, fun _ h => .inl h, fun e he => List.mem_cons_of_mem _ he⟩
      refine ⟨(A.grow.trans hmid).trans B.grow, ?_, ?_, ?_⟩
      · intro hn u hu hread
        rcases List.mem_cons.1 hu with rfl | hu
        · have hev := B.grow.log ⟨me, u, r⟩ List.mem_cons_self
          cases r with
          | ok => exact B.grow.keep _ _ (A.ok rfl)
          | cycle => exact absurd rfl (hn _ hev)
          | missing => rw [A.missing rfl] at hread; cases hread
        · exact B.seen hn u hu hread
      · intro hi hp hlog
        refine B.sound (fun u hu => hi u (List.mem_cons_of_mem _ hu)) (hp.grow (A.grow.trans hmid)) ?_
        intro e he hc hread
        rcases List.mem_cons.1 he with rfl | he
        · exact ⟨hi _ List.mem_cons_self, hp _ (A.cyc hc) hread⟩
        · refine A.sound ?_ hlog e he hc hread
          intro q hq hr
          exact (hp q hq hr).tail (hi t List.mem_cons_self)
      · intro ht hn
        refine B.topo ?_ hn
        exact A.topo ht fun e he => hn e (B.grow.log e (List.mem_cons_of_mem _ he))

theorem lspLookup_spec {fs : Files P} : ∀ (n : Nat) (p : P) (st : LSt P) (r : Res) (st' : LSt P),
    lspLookup fs n p st = some (r, st') → LLooked fs p st r st' := by
  intro n
  induction n with
  | zero => intro p st r st' h; cases h
  | succ n ih =>
    intro p st r st' h
    rw [lspLookup] at h
    split at h
    · rename_i hd
      simp only [Option.some.injEq, Prod.mk.injEq] at h
      obtain ⟨rfl, rfl⟩ := h
      exact ⟨.refl .., nofun, nofun, fun _ => hd, fun _ h => h, fun h _ => h⟩
    · rename_i hd
      simp only [Option.some.injEq, Prod.mk.injEq] at h
      obtain ⟨rfl, rfl⟩ := h
      exact ⟨.refl .., fun _ => hd, nofun, nofun, fun _ h => h, fun h _ => h⟩
    · rename_i hd
      dsimp only at h
      have hget : ∀ q, depGet q ((p, false) :: st.deps) =
          if p = q then some false else depGet q st.deps := fun q => rfl
      split at h
      · rename_i hnone
        simp only [Option.some.injEq, Prod.mk.injEq] at h
        obtain ⟨rfl, rfl⟩ := h
        refine ⟨⟨?_, ?_, fun _ h => h⟩, nofun, fun _ => hnone, nofun, fun _ h => h, ?_⟩
        · intro q b hq
          dsimp only
          rw [hget, if_neg]
          · exact hq
          · rintro rfl; rw [hd] at hq; cases hq
        · intro q hq
          dsimp only at hq
          rw [hget] at hq
          split at hq
          · rename_i he; subst he; exact .inr hnone
          · exact .inl hq
        · rintro ⟨l, hl, ht⟩ _
          refine ⟨l, fun q => ?_, ht⟩
          dsimp only
          rw [hget, hl]
          by_cases he : p = q
          · subst he; simp [hd]
          · rw [if_neg he]
      · rename_i ts hts
        cases h1 : lspCompile (lspLookup fs n) p ts { st with deps := (p, false) :: st.deps } with
        | none => rw [h1] at h; cases h
        | some st1 =>
          rw [h1] at h
          simp only [Option.some.injEq, Prod.mk.injEq] at h
          obtain ⟨rfl, rfl⟩ := h
          have C := lspCompile_spec (fs := fs) (fun q s r s' h => ih _ _ _ _ h) ts _ _ h1
          have hpend : depGet p st1.deps = some false := C.grow.keep p false (by
            dsimp only; rw [hget, if_pos rfl])
          have himp : ∀ t ∈ ts, Imports fs p t := fun t ht => ⟨ts, hts, ht⟩
          refine ⟨⟨?_, ?_, C.grow.log⟩, ?_, nofun, nofun, ?_, ?_⟩
          · intro q b hq
            dsimp only
            rw [depGet_done]
            have hne : q ≠ p := by rintro rfl; rw [hd] at hq; cases hq
            rw [if_neg hne]
            refine C.grow.keep q b ?_
            dsimp only
            rw [hget, if_neg fun h => hne h.symm]
            exact hq
          · intro q hq
            dsimp only at hq
            rw [depGet_done] at hq
            split at hq
            · rw [hpend] at hq; cases hq
            · rename_i hne
              rcases C.grow.fresh q hq with hq | hq
              · dsimp only at hq
                rw [hget, if_neg fun h => hne h.symm] at hq
                exact .inl hq
              · exact .inr hq
          · intro _
            dsimp only
            rw [depGet_done, if_pos rfl, hpend]
            rfl
          · intro hp hlog
            refine C.sound himp ?_ hlog
            intro q hq hr
            dsimp only at hq
            rw [hget] at hq
            split at hq
            · rename_i he; subst he; exact .refl _
            · exact hp q hq hr
          · rintro ⟨l, hl, ht⟩ hn
            have ht0 : LTopo fs { st with deps := (p, false) :: st.deps } := by
              refine ⟨l, fun q => ?_, ht⟩
              dsimp only
              rw [hget, hl]
              by_cases he : p = q
              · subst he; simp [hd]
              · rw [if_neg he]
            obtain ⟨l1, hl1, ht1⟩ := C.topo ht0 hn
            refine ⟨p :: l1, fun q => ?_, ?_, ht1⟩
            · dsimp only
              rw [depGet_done]
              by_cases he : q = p
              · subst he; simp [hpend]
              · rw [if_neg he, ← hl1]; simp [he]
            · rintro t ⟨ts', h', hmem⟩ hread
              rw [hts] at h'
              cases h'
              rw [hl1]
              exact C.seen hn t hmem hread

theorem lspCompile_total {look : P → LSt P → Option (Res × LSt P)} {me : P} {N : LSt P → Prop}
    (hl : ∀ p st, N st → ∃ r st', look p st = some (r, st') ∧ N st')
    (hN : ∀ st st', st.deps = st'.deps → N st → N st') : ∀ (ts : List P) (st : LSt P), N st →
    ∃ st', lspCompile look me ts st = some st' ∧ N st' := by
  intro ts
  induction ts with
  | nil => intro st h; exact ⟨st, rfl, h⟩
  | cons t ts ih =>
    intro st h
    obtain ⟨r, st1, h1, hn1⟩ := hl t st h
    obtain ⟨st2, h2, hn2⟩ := ih { st1 with log := ⟨me, t, r⟩ :: st1.log } (hN st1 _ rfl hn1)
    refine ⟨st2, ?_, hn2⟩
    rw [lspCompile, h1]
    exact h2

/-- How many of the files of `F` are not in the table yet. -/
def absent (F : List P) (st : LSt P) : Nat :=
  (F.filter (fun q => decide (depGet q st.deps = none))).length

theorem filter_length_le {α : Type} {p q : α → Bool} (l : List α)
    (h : ∀ x ∈ l, p x = true → q x = true) : (l.filter p).length ≤ (l.filter q).length := by
  induction l with
  | nil => exact Nat.le_refl _
  | cons a l ih =>
    have := ih fun x hx => h x (List.mem_cons_of_mem _ hx)
    have ha := h a List.mem_cons_self
    simp only [List.filter_cons]
    by_cases hp : p a = true
    · simp [hp, ha hp, this]
    · rw [if_neg hp]
      split
      · simp only [List.length_cons]; omega
      · exact this

theorem absent_le {fs : Files P} (F : List P) {st st' : LSt P} (g : LGrow fs st st') :
    absent F st' ≤ absent F st := by
  refine filter_length_le _ fun q _ h => ?_
  simp only [decide_eq_true_eq] at h ⊢
  cases hq : depGet q st.deps with
  | none => rfl
  | some b => rw [g.keep q b hq] at h; cases h

theorem lspLookup_total {fs : Files P} {F : List P} (hF : ∀ p, (fs.imports p).isSome → p ∈ F) :
    ∀ (n : Nat) (p : P) (st : LSt P), absent F st < n →
      ∃ r st', lspLookup fs n p st = some (r, st') ∧ absent F st' ≤ absent F st := by
  intro n
  induction n with
  | zero => intro p st h; cases h
  | succ n ih =>
    intro p st h
    have fin : ∀ v, lspLookup fs (n + 1) p st = some v →
        ∃ r st', lspLookup fs (n + 1) p st = some (r, st') ∧ absent F st' ≤ absent F st := by
      intro v hv
      obtain ⟨r, st'⟩ := v
      exact ⟨r, st', hv, absent_le F (lspLookup_spec _ _ _ _ _ hv).grow⟩
    cases hd : depGet p st.deps with
    | some b => cases b <;> exact fin _ (by rw [lspLookup, hd])
    | none =>
      cases hts : fs.imports p with
      | none => exact fin _ (by rw [lspLookup, hd]; dsimp only; rw [hts])
      | some ts =>
        have hp : p ∈ F := hF p (by rw [hts]; rfl)
        have hlt : absent F { st with deps := (p, false) :: st.deps } < n := by
          have : absent F { st with deps := (p, false) :: st.deps } < absent F st := by
            unfold absent
            have hsub : F.filter (fun q => decide
                (depGet q ({ st with deps := (p, false) :: st.deps } : LSt P).deps = none)) =
                (F.filter (fun q => decide (depGet q st.deps = none))).filter
                  (fun q => decide (q ≠ p)) := by
              rw [List.filter_filter]
              apply List.filter_congr
              intro q _
              by_cases h1 : q = p
              · subst h1; simp [depGet]
              · have : p ≠ q := fun h => h1 h.symm
                simp [depGet, h1, this]
            rw [hsub]
            refine List.length_filter_lt_length_iff_exists.2 ⟨p, ?_, by simp⟩
            exact List.mem_filter.2 ⟨hp, by simp [hd]⟩
          omega
        obtain ⟨st1, h1, _⟩ := lspCompile_total (me := p) (look := lspLookup fs n)
          (N := fun s => absent F s < n)
          (fun q s hs => by
            obtain ⟨r, s', h1, h2⟩ := ih q s hs
            exact ⟨r, s', h1, by omega⟩)
          (fun s s' he hs => by
            have : absent F s' = absent F s := by unfold absent; rw [he]
            omega) ts _ hlt
        exact fin _ (by rw [lspLookup, hd]; dsimp only; rw [hts]; dsimp only; rw [h1])

theorem lspOpenAux_spec {fs : Files P} {fuel : Nat} {root : P} : ∀ (ts : List P) (st : LSt P)
    (rs : List Res) (st' : LSt P), lspOpenAux fs fuel root ts st = some (rs, st') →
    lspCompile (lspLookup fs fuel) root ts st = some st' ∧
    ((∀ q, depGet q st.deps = some false → fs.imports q = none) →
      rs.length = ts.length ∧
      ∀ (i : Nat) t, ts[i]? = some t → rs[i]? = some Res.cycle → fs.imports t = none) := by
  intro ts
  induction ts with
  | nil =>
    intro st rs st' h
    simp only [lspOpenAux, Option.some.injEq, Prod.mk.injEq] at h
    obtain ⟨rfl, rfl⟩ := h
    exact ⟨rfl, fun _ => ⟨rfl, fun i t h => by simp at h⟩⟩
  | cons t ts ih =>
    intro st rs st' h
    rw [lspOpenAux] at h
    cases h1 : lspLookup fs fuel t st with
    | none => rw [h1] at h; cases h
    | some v =>
      obtain ⟨r, st1⟩ := v
      rw [h1] at h
      dsimp only at h
      cases h2 : lspOpenAux fs fuel root ts { st1 with log := ⟨root, t, r⟩ :: st1.log } with
      | none => rw [h2] at h; cases h
      | some v =>
        obtain ⟨rs2, st2⟩ := v
        rw [h2] at h
        simp only [Option.some.injEq, Prod.mk.injEq] at h
        obtain ⟨rfl, rfl⟩ := h
        obtain ⟨e1, e2⟩ := ih _ _ _ h2
        have A := lspLookup_spec _ _ _ _ _ h1
        refine ⟨by rw [lspCompile, h1]; exact e1, fun hp => ?_⟩
        obtain ⟨e3, e4⟩ := e2 (by
          intro q hq
          exact (A.grow.fresh q hq).elim (hp q) id)
        refine ⟨by simp [e3], ?_⟩
        intro i u hu hr
        cases i with
        | zero =>
          simp only [List.getElem?_cons_zero, Option.some.injEq] at hu hr
          subst hu hr
          exact hp _ (A.cyc rfl)
        | succ i =>
          simp only [List.getElem?_cons_succ] at hu hr
          exact e4 i u hu hr

/-! ## C26, command line tool -/

theorem compileRoot_spec {fs : Files P} {fuel : Nat} {root : P} {ts : List P} {b : Bool} {st : St P}
    (h : compileRoot fs fuel root ts = some (b, st)) :
    ∃ e, b = (e || fs.broken root) ∧ Compiled fs [root] root ts {} e st := by
  rw [compileRoot] at h
  split at h
  · cases h
  · rename_i e st1 h1
    simp only [Option.some.injEq, Prod.mk.injEq] at h
    obtain ⟨rfl, rfl⟩ := h
    exact ⟨e, rfl, compileImports_spec (fun q s r s' h => lookup_spec _ _ _ _ _ _ h) _ _ _ _ h1⟩

/-- **Import resolution terminates.**  If only finitely many paths can be read (all of them in `F`),
compiling a root file looks up all imports with a recursion depth bounded by the number of files. -/
theorem cli_imports_terminate (fs : Files P) (F : List P)
    (hF : ∀ p, (fs.imports p).isSome → p ∈ F) (root : P) (ts : List P) :
    (compileRoot fs (F.length + 1) root ts).isSome := by
  rw [compileRoot]
  obtain ⟨⟨e, st⟩, h⟩ := Option.isSome_iff_exists.1 (compileImports_total (self := root)
    (fun q s => lookup_total hF (F.length + 1) [root]
      (Nat.lt_succ_of_le (List.length_filter_le _ _)) q s) ts {})
  rw [h]
  rfl

/-- A larger depth bound never changes the outcome. -/
theorem cli_depth_irrelevant (fs : Files P) {n m : Nat} (root : P) (ts : List P)
    {r r' : Bool × St P} (h : compileRoot fs n root ts = some r)
    (h' : compileRoot fs m root ts = some r') : r = r' := by
  have mono : ∀ n m, n ≤ m → ∀ r, compileRoot fs n root ts = some r →
      compileRoot fs m root ts = some r := by
    intro n m hnm r h
    rw [compileRoot] at h ⊢
    cases h1 : compileImports (lookup fs n [root]) root ts {} with
    | none => rw [h1] at h; cases h
    | some v =>
      rw [compileImports_mono (self := root)
        (fun q s v hv => lookup_mono n m hnm [root] q s v hv) ts {} v h1]
      rw [h1] at h
      exact h
  rcases Nat.le_total n m with hnm | hnm
  · have := mono n m hnm r h; rw [this] at h'; exact Option.some.inj h'
  · have := mono m n hnm r' h'; rw [this] at h; exact (Option.some.inj h).symm

/-- **A reported cycle is one.**  Every import that is answered `import cycle` really leads back to
the file it stands in. -/
theorem cli_cycle_is_real {fs : Files P} {fuel : Nat} {root : P} {ts : List P} {b : Bool} {st : St P}
    (hroot : fs.imports root = some ts) (h : compileRoot fs fuel root ts = some (b, st))
    {e : Event P} (he : e ∈ st.log) (hc : e.res = .cycle) : LeadsBack fs e.importer e.target := by
  obtain ⟨_, -, C⟩ := compileRoot_spec h
  refine C.sound (fun t ht => ⟨ts, hroot, ht⟩) ?_ ?_ (by intro e he; cases he) e he hc
  · intro q hq t ht
    rw [List.mem_singleton.1 hq]
    exact (Reach.refl _).tail ⟨ts, hroot, ht⟩
  · intro q hq
    rw [List.mem_singleton.1 hq]
    exact .refl _

/-- **Acyclic graphs get no cycle error.** -/
theorem cli_acyclic_no_cycle_error {fs : Files P} {fuel : Nat} {root : P} {ts : List P} {b : Bool}
    {st : St P} (hroot : fs.imports root = some ts)
    (h : compileRoot fs fuel root ts = some (b, st))
    (hac : ∀ a t, ¬ LeadsBack fs a t) : ∀ e ∈ st.log, e.res ≠ .cycle :=
  fun _ he hc => hac _ _ (cli_cycle_is_real hroot h he hc)

/-- **Every cycle is detected.**  If some file reachable from the root has an import that leads back
to it, then some import was answered `import cycle`, and the tool stops with an error instead of
running the program. -/
theorem cli_cycle_detected {fs : Files P} {fuel : Nat} {root : P} {ts : List P} {b : Bool}
    {st : St P} (hroot : fs.imports root = some ts)
    (h : compileRoot fs fuel root ts = some (b, st)) {a t : P} (ha : Reach fs root a)
    (hc : LeadsBack fs a t) :
    (∃ e ∈ st.log, e.res = .cycle) ∧ exitsWithError (b, st) = true := by
  obtain ⟨e0, rfl, C⟩ := compileRoot_spec h
  have hex : ∃ e ∈ st.log, e.res = .cycle := by
    apply Classical.byContradiction
    intro hno
    have hn : NoCyc st.log := fun e he hc => hno ⟨e, he, hc⟩
    have hr : root ∉ st.cache := fun hin => by
      have := C.grow.avoid root List.mem_cons_self hin
      cases this
    have ht : Topo fs (root :: st.cache) := by
      refine ⟨?_, C.grow.topo trivial hn⟩
      rintro u ⟨ts', h', hu⟩ hread
      rw [hroot] at h'
      cases h'
      exact C.seen hn u hu hread
    have hread : (fs.imports a).isSome := by
      obtain ⟨⟨ts, hts, _⟩, _⟩ := hc
      rw [hts]; rfl
    exact topo_no_cycle ht hc (topo_closed ht List.mem_cons_self ha hread)
  refine ⟨hex, ?_⟩
  obtain ⟨e, he, hc⟩ := hex
  rcases C.fails e he (by rw [hc]; exact nofun) with h | h | h
  · cases h
  · simp [exitsWithError, h]
  · simp [exitsWithError, h]

/-- **No file is compiled twice**, and the root is never compiled as somebody's dependency. -/
theorem cli_each_file_once {fs : Files P} {fuel : Nat} {root : P} {ts : List P} {b : Bool}
    {st : St P} (h : compileRoot fs fuel root ts = some (b, st)) :
    st.cache.Nodup ∧ root ∉ st.cache := by
  obtain ⟨_, -, C⟩ := compileRoot_spec h
  refine ⟨C.grow.nodup List.nodup_nil, fun hin => ?_⟩
  have := C.grow.avoid root List.mem_cons_self hin
  cases this

/-- **A self import is answered at the import itself.** -/
theorem cli_self_import {fs : Files P} {fuel : Nat} {root : P} {ts : List P} {b : Bool}
    {st : St P} (h : compileRoot fs fuel root ts = some (b, st)) (hs : root ∈ ts) :
    (⟨root, root, .cycle⟩ : Event P) ∈ st.log := by
  obtain ⟨_, -, C⟩ := compileRoot_spec h
  obtain ⟨r, hr, hc⟩ := C.logged root hs
  rw [hc List.mem_cons_self] at hr
  exact hr

/-! ## C26, language server -/

/-- **Opening a file in the language server terminates** for every finite file graph. -/
theorem lsp_imports_terminate (fs : Files P) (F : List P)
    (hF : ∀ p, (fs.imports p).isSome → p ∈ F) (root : P) (ts : List P) :
    (lspOpen fs (F.length + 1) root ts).isSome := by
  have key : ∀ (us : List P) (st : LSt P), absent F st < F.length + 1 →
      (lspOpenAux fs (F.length + 1) root us st).isSome := by
    intro us
    induction us with
    | nil => intro st _; rfl
    | cons u us ih =>
      intro st hst
      obtain ⟨r, st1, h1, h2⟩ := lspLookup_total hF _ u st hst
      rw [lspOpenAux, h1]
      dsimp only
      have h3 : absent F { st1 with log := ⟨root, u, r⟩ :: st1.log } < F.length + 1 := by
        have : absent F { st1 with log := ⟨root, u, r⟩ :: st1.log } = absent F st1 := rfl
        omega
      obtain ⟨v, hv⟩ := Option.isSome_iff_exists.1 (ih _ h3)
      rw [hv]
      rfl
  exact key ts {} (Nat.lt_succ_of_le (List.length_filter_le _ _))

/-- **Every cycle is answered somewhere**: if a file reachable from the opened one has an import that
leads back to it, then some import in some compiled copy of a file is answered `import cycle`. -/
theorem lsp_cycle_detected {fs : Files P} {fuel : Nat} {root : P} {ts : List P} {rs : List Res}
    {st : LSt P} (hroot : fs.imports root = some ts)
    (h : lspOpen fs fuel root ts = some (rs, st)) {a t : P} (ha : Reach fs root a)
    (hc : LeadsBack fs a t) : ∃ e ∈ st.log, e.res = .cycle := by
  have C := lspCompile_spec (fs := fs) (fun q s r s' h => lspLookup_spec _ _ _ _ _ h) _ _ _
    (lspOpenAux_spec _ _ _ _ h).1
  apply Classical.byContradiction
  intro hno
  have hn : NoCyc st.log := fun e he hc => hno ⟨e, he, hc⟩
  obtain ⟨l, hl, ht⟩ := C.topo ⟨[], by simp [depGet], trivial⟩ hn
  have first : ∀ {x y z : P}, Reach fs x y → Imports fs y z → (fs.imports x).isSome := by
    intro x y z hxy
    induction hxy generalizing z with
    | refl => rintro ⟨ts, hts, _⟩; rw [hts]; rfl
    | tail _ hi2 ih2 => intro _; exact ih2 hi2
  -- everything readable reachable from an import of the root is finished
  have key : ∀ {b : P}, Reach fs root b → (fs.imports b).isSome → b = root ∨ b ∈ l := by
    intro b hb
    induction hb with
    | refl => intro _; exact .inl rfl
    | tail hb hi ih =>
      intro hread
      rename_i x y
      right
      have hx : (fs.imports x).isSome := by
        obtain ⟨ts, hts, _⟩ := hi
        rw [hts]; rfl
      rcases ih hx with rfl | hin
      · obtain ⟨ts', h', hu⟩ := hi
        rw [hroot] at h'
        cases h'
        exact (hl y).2 (C.seen hn y hu hread)
      · exact topo_closed ht hin ((Reach.refl _).tail hi) hread
  have hread : (fs.imports a).isSome := by
    obtain ⟨⟨ts, hts, _⟩, _⟩ := hc
    rw [hts]; rfl
  have hin : a ∈ l := by
    rcases key ha hread with rfl | hin
    · have hread' : (fs.imports t).isSome := by
        cases hc.2 with
        | refl => exact hread
        | tail hr hi => exact first hr hi
      have htl : t ∈ l := by
        obtain ⟨ts', h', hu⟩ := hc.1
        rw [hroot] at h'
        cases h'
        exact (hl t).2 (C.seen hn t hu hread')
      exact topo_closed ht htl hc.2 hread
    · exact hin
  exact topo_no_cycle ht hc hin

/-- A cycle answer about a readable file is right. -/
theorem lsp_cycle_is_real_partial {fs : Files P} {fuel : Nat} {root : P} {ts : List P}
    {rs : List Res} {st : LSt P} (hroot : fs.imports root = some ts)
    (h : lspOpen fs fuel root ts = some (rs, st)) {e : Event P} (he : e ∈ st.log)
    (hc : e.res = .cycle) (hread : (fs.imports e.target).isSome) :
    LeadsBack fs e.importer e.target := by
  have C := lspCompile_spec (fs := fs) (fun q s r s' h => lspLookup_spec _ _ _ _ _ h) _ _ _
    (lspOpenAux_spec _ _ _ _ h).1
  exact C.sound (fun t ht => ⟨ts, hroot, ht⟩) (by intro q hq; cases hq) (by intro e he; cases he)
    e he hc hread

/-- **The opened file never shows a genuine import cycle** (a defect of the language server): among
the imports of the opened file itself, the answer `import cycle` is only ever given for a file that
cannot be read.  The cause is that the opened file is not entered in the table
(`ticc-lsp/src/main.rs:370-380`), so the cycle is only seen in a second compilation of it, whose
diagnostics nobody gets. -/
theorem lsp_opened_file_never_shows_cycle {fs : Files P} {fuel : Nat} {root : P} {ts : List P}
    {rs : List Res} {st : LSt P} (h : lspOpen fs fuel root ts = some (rs, st)) :
    rs.length = ts.length ∧
    ∀ (i : Nat) t, ts[i]? = some t → rs[i]? = some Res.cycle → fs.imports t = none :=
  (lspOpenAux_spec _ _ _ _ h).2 (by intro q hq; cases hq)

/-! ## Examples -/

/-- `0 → 1 → 2 → 1`, `0 → 2`, and `3` is missing. -/
def exFiles : Files Nat where
  imports
    | 0 => some [1, 2, 3]
    | 1 => some [2]
    | 2 => some [1, 4]
    | 4 => some []
    | _ => none
  broken := fun _ => false

example : (compileRoot exFiles 6 0 [1, 2, 3]).map (fun r => (r.1, r.2.cache, r.2.errors)) =
    some (true, [1, 2, 4], some 2) := by decide +kernel

/-- `cli_cycle_detected` applies to it: `2` imports `1`, which leads back to `2`. -/
example : Reach exFiles 0 2 ∧ LeadsBack exFiles 2 1 :=
  ⟨(Reach.refl _).tail ⟨[1, 2, 3], rfl, by decide⟩,
   ⟨[1, 4], rfl, by decide⟩, (Reach.refl _).tail ⟨[2], rfl, by decide⟩⟩

example : ∀ p, (exFiles.imports p).isSome → p ∈ [0, 1, 2, 4] := by
  intro p h
  unfold exFiles at h
  dsimp only at h
  split at h <;> first | decide | cases h

/-- The language server on `0 → 1 → 0`: no diagnostic in the opened file. -/
def exPair : Files Nat where
  imports
    | 0 => some [1]
    | 1 => some [0]
    | _ => none
  broken := fun _ => false

theorem lsp_hides_mutual_import :
    (lspOpen exPair 3 0 [1]).map (·.1) = some [Res.ok] ∧
    (compileRoot exPair 3 0 [1]).map exitsWithError = some true := by decide +kernel

/-- A file that imports the same missing module twice, in a graph without any cycle. -/
def exTwice : Files Nat where
  imports
    | 0 => some [7, 7]
    | _ => none
  broken := fun _ => false

/-- The second import of a missing module is called an import cycle by the language server (and not
by the command line tool). -/
theorem lsp_missing_twice_called_cycle :
    (∀ a t, ¬ LeadsBack exTwice a t) ∧
    (lspOpen exTwice 2 0 [7, 7]).map (·.1) = some [Res.missing, Res.cycle] ∧
    (compileRoot exTwice 2 0 [7, 7]).map (fun r => r.2.log.map (·.res)) =
      some [Res.missing, Res.missing] := by
  refine ⟨?_, by decide +kernel, by decide +kernel⟩
  have himp : ∀ a t, Imports exTwice a t → a = 0 ∧ t = 7 := by
    rintro a t ⟨ts, hts, hm⟩
    match a, hts with
    | 0, hts =>
      cases hts
      simp at hm
      exact ⟨rfl, hm⟩
  rintro a t ⟨hi, hr⟩
  obtain ⟨rfl, rfl⟩ := himp _ _ hi
  have : ∀ {x y}, Reach exTwice x y → x = 7 → y = 7 := by
    intro x y h
    induction h with
    | refl => exact id
    | tail _ hi ih =>
      intro hx
      have h1 := ih hx
      have h2 := (himp _ _ hi).1
      rw [h1] at h2; cases h2
  exact absurd (this hr rfl) (by decide)

/-! ## Paths are not normalised

`ChildResolver::relative_lookup` keeps `..` components, while the operating system resolves them.  A
file `d/a` that imports `../d/a` is therefore visited under the infinitely many names `d/a`,
`d/../d/a`, ..., and resolution does not terminate. -/

/-- What the operating system makes of `..` (directories only, no links). -/
def normalize (p : Path) : Path :=
  p.foldl (fun acc s => if s = ".." then acc.dropLast else acc ++ [s]) []

/-- A disk with the single file `d/a`, whose text is `import "../d/a"`. -/
def exDots : Files Path where
  imports p := if normalize p = ["d", "a"] then some [relativeLookup p ["..", "d", "a"]] else none
  broken := fun _ => false

/-- The k-th name of the file. -/
def dots : Nat → Path
  | 0 => ["d", "a"]
  | k + 1 => ["d", ".."] ++ dots k

theorem dots_ends (k : Nat) : ∃ init, dots k = init ++ ["d", "a"] ∧ normalize init = [] ∧
    init.length = 2 * k := by
  induction k with
  | zero => exact ⟨[], rfl, rfl, rfl⟩
  | succ k ih =>
    obtain ⟨init, h1, h2, h3⟩ := ih
    refine ⟨["d", ".."] ++ init, by rw [dots, h1, List.append_assoc], ?_, by simp [h3]; omega⟩
    rw [normalize, List.foldl_append]
    exact h2

theorem dots_read (k : Nat) : exDots.imports (dots k) = some [dots (k + 1)] := by
  obtain ⟨init, h1, h2, -⟩ := dots_ends k
  have hn : normalize (dots k) = ["d", "a"] := by
    rw [h1, normalize, List.foldl_append]
    have : List.foldl (fun acc s => if s = ".." then acc.dropLast else acc ++ [s]) [] init = [] := h2
    rw [this]
    rfl
  have hc : ∀ k, ["d", ".."] ++ dots k = (dots k).dropLast ++ ["..", "d", "a"] := by
    intro k
    induction k with
    | zero => rfl
    | succ k ih =>
      have hne : dots k ≠ [] := by
        obtain ⟨i, hi, -⟩ := dots_ends k
        rw [hi]; simp
      rw [dots, List.dropLast_append_of_ne_nil hne, List.append_assoc, ← ih]
  have hpop : Path.pop (dots k) = (dots k).dropLast := by
    rw [Path.pop, if_neg]
    rw [h1]
    intro h
    have := congrArg List.length h
    simp at this
  unfold exDots
  simp only [hn, if_pos]
  rw [relativeLookup, hpop, dots, hc]
  simp [Path.push]

theorem dots_len (k : Nat) : (dots k).length = 2 * k + 2 := by
  obtain ⟨i, h, -, h2⟩ := dots_ends k
  rw [h, List.length_append, h2]; rfl

/-- The command line tool does not terminate on it: no recursion depth is enough, although the disk
holds one file. -/
theorem cli_dotdot_diverges (n : Nat) :
    compileRoot exDots n ["d", "a"] [dots 1] = none := by
  have key : ∀ n k (chain : List Path) st, (∀ q ∈ chain, q.length < 2 * k + 2) →
      (∀ q ∈ st.cache, False) → lookup exDots n chain (dots k) st = none := by
    intro n
    induction n with
    | zero => intro k chain st _ _; rfl
    | succ n ih =>
      intro k chain st hch hst
      rw [lookup, if_neg, if_neg (fun h => hst _ h), dots_read]
      · dsimp only
        rw [compileImports, ih (k + 1) _ st ?_ hst]
        intro q hq
        rcases List.mem_cons.1 hq with rfl | hq
        · rw [dots_len]; omega
        · have := hch q hq; omega
      · intro hin
        have := hch _ hin
        rw [dots_len] at this
        omega
  rw [compileRoot, compileImports, key n 1 [["d", "a"]] {} (by
    intro q hq
    rw [List.mem_singleton.1 hq]
    decide) (by intro q hq; cases hq)]

end Tic.Imports
