import Verif.MergeOK
/-
C15: merging a match on a match keeps the results of every program.
-/
namespace Tic.Core

/-- The recursive equation of the walk in `merge_match::optimize` (`opt.rs:118-172` with
`merge_match.rs:11-20`): the bound used in the model is never reached. -/
theorem walkPre_mergeMatch_eq (e : Expr) :
    walkPreO (wsize e) mergeStep e = (mergeStep e).bind (mapSubO fun c => walkPreO (wsize c) mergeStep c) :=
  walkPreO_eqn mem_children_wsize wsize_pos wsize_mergeStep e

theorem mapDefsO_eq {g : Expr → Option Expr} {h : Expr → Expr} (hg : ∀ e e', g e = some e' → e' = h e) {p p' : Program}
    (he : mapDefsO g p = some p') : p' = mapDefs h p := by
  obtain ⟨ds, hds, rfl⟩ := Option.map_eq_some_iff.1 he
  rw [allO_eq (h := fun d : ValueDef => { d with value := h d.value }) (fun d d' hd => ?_) hds]
  · rfl
  · obtain ⟨v, hv, rfl⟩ := Option.map_eq_some_iff.1 hd
    rw [hg _ _ hv]

/-- C15.  If merging matches does not panic, the new program is well named and whatever is
asked of the program gives the same values, and the same trap messages. -/
theorem merge_match_preserves {p p' : Program} (hp : WellNamed p) (h : mergeMatch p = some p') :
    WellNamed p' ∧ ∀ es, Asks p es → KeepsValues p p' es ∧ ∀ m, Traps p es m → Traps p' es m := by
  have he : p' = mapDefs (fun e => walkPreN (wsize e) (fun e => (mergeStep e).getD e) e) p := mapDefsO_eq (fun e e' hee => walkPreO_eq hee) h
  have h1 := mapDefs_ok (s := ⟨true, false⟩) (g := fun e => walkPreN (wsize e) (fun e => (mergeStep e).getD e) e)
    (fun X e hg => (stepOK_merge rfl).walkPreN _ X e hg) hp
  rw [← he] at h1
  exact ⟨h1.1, fun es hes => ⟨keepsValues_of (h1.2 es hes).yields.1, (h1.2 es hes).yields.2.1 rfl⟩⟩

/-- The constructor application at the end of a branch (through definitions and type
abstractions and applications). -/
inductive EndsIn (c : Name) (fields : List Expr) : Expr → Prop
  | con (ts : List Ty) : EndsIn c fields (.con c ts fields)
  | let_ (n : Name) (v : Expr) {e : Expr} : EndsIn c fields e → EndsIn c fields (.let_ n v e)
  | letrec (n : Name) (t : Ty) (v : Expr) {e : Expr} : EndsIn c fields e → EndsIn c fields (.letrec n t v e)
  | pi (v : TyVar) {e : Expr} : EndsIn c fields e → EndsIn c fields (.pi v e)
  | piApp (t : Ty) {e : Expr} : EndsIn c fields e → EndsIn c fields (.piApp e t)

theorem extractCtor_ends {c : Name} {e : Expr} (h : extractCtor e = some c) : ∃ fs, EndsIn c fs e := by
  induction e using Expr.childInd with
  | _ e ih =>
    cases e <;> simp only [extractCtor, reduceCtorEq] at h
    case con c' ts fs => cases h; exact ⟨fs, .con ts⟩
    case let_ n v e => obtain ⟨fs, hf⟩ := ih ([n], e) (by simp [children]) h; exact ⟨fs, .let_ _ _ hf⟩
    case letrec n t v e => obtain ⟨fs, hf⟩ := ih ([n], e) (by simp [children]) h; exact ⟨fs, .letrec _ _ _ hf⟩
    case pi n e => obtain ⟨fs, hf⟩ := ih ([], e) (by simp [children]) h; exact ⟨fs, .pi _ hf⟩
    case piApp e n => obtain ⟨fs, hf⟩ := ih ([], e) (by simp [children]) h; exact ⟨fs, .piApp _ hf⟩

theorem mergeBranch_some {o : Branch} {fs : List Expr} {e : Expr} (h : EndsIn o.ctor fs e) (hl : o.binds.length = fs.length) :
    (mergeBranch o e).isSome = true := by
  induction h with
  | con ts => simp [mergeBranch, hl]
  | let_ n v _ ih => simpa [mergeBranch] using ih
  | letrec n t v _ ih => simpa [mergeBranch] using ih
  | pi n _ ih => simpa [mergeBranch] using ih
  | piApp n _ ih => simpa [mergeBranch] using ih

theorem distinct_le (l : List Name) : (distinct l).length ≤ l.length := by
  induction l with
  | nil => simp [distinct]
  | cons a l ih => simp only [distinct]; split <;> simp <;> omega

theorem distinct_full {l : List Name} (h : (distinct l).length = l.length) : l.Nodup := by
  induction l with
  | nil => simp
  | cons a l ih =>
    simp only [distinct] at h
    split at h
    · have := distinct_le l; simp at h; omega
    · rename_i hm; simp at h; exact List.nodup_cons.2 ⟨hm, ih h⟩

theorem filterMap_full {α β : Type} {f : α → Option β} : ∀ {l : List α}, (l.filterMap f).length = l.length → ∀ a ∈ l, (f a).isSome = true
  | [], _, _, hm => by cases hm
  | b :: l, h, a, hm => by
    rw [List.filterMap_cons] at h
    cases hb : f b with
    | none =>
      rw [hb] at h
      have := List.length_filterMap_le f l
      simp at h; omega
    | some c =>
      rw [hb] at h
      simp only [List.length_cons, Nat.add_right_cancel_iff] at h
      rcases List.mem_cons.1 hm with rfl | hm
      · simp [hb]
      · exact filterMap_full h a hm

theorem mergeLoop_some : ∀ {bs rem : List Branch}, (rem.map Branch.ctor).Nodup → (bs.filterMap fun b => extractCtor b.body).Nodup →
    (∀ b ∈ bs, ∃ c fs o, extractCtor b.body = some c ∧ EndsIn c fs b.body ∧ o ∈ rem ∧ o.ctor = c ∧ o.binds.length = fs.length) →
    (mergeLoop bs rem).isSome = true
  | [], _, _, _, _ => rfl
  | b :: bs, rem, hn, hnd, h => by
    obtain ⟨c, fs, o, h1, h2, h3, h4, h5⟩ := h b (by simp)
    subst h4
    simp only [List.filterMap_cons, h1, List.nodup_cons] at hnd
    have htk : takeBranch o.ctor rem = some (o, rem.filter fun b => b.ctor ≠ o.ctor) := by
      have : (rem.reverse.find? fun b => b.ctor = o.ctor).isSome = true := by
        rw [List.find?_isSome]; exact ⟨o, by simp [h3], by simp⟩
      obtain ⟨o', ho'⟩ := Option.isSome_iff_exists.1 this
      have e1 : o'.ctor = o.ctor := by simpa using List.find?_some ho'
      have e2 : o' ∈ rem := by simpa using List.mem_of_find?_eq_some ho'
      have := findBranch_of_mem hn e2
      rw [e1, findBranch_of_mem hn h3] at this
      cases this
      simp [takeBranch, ho']
    obtain ⟨e, he⟩ := Option.isSome_iff_exists.1 (mergeBranch_some h2 h5)
    have hrest := mergeLoop_some (bs := bs) (rem := rem.filter fun b => b.ctor ≠ o.ctor) (hn.sublist (List.filter_sublist.map _)) hnd.2 (by
      intro b' hb'
      obtain ⟨c', fs', o', g1, g2, g3, g4, g5⟩ := h b' (by simp [hb'])
      refine ⟨c', fs', o', g1, g2, List.mem_filter.2 ⟨g3, ?_⟩, g4, g5⟩
      have : o'.ctor ≠ o.ctor := fun heq => hnd.1 (List.mem_filterMap.2 ⟨b', hb', by rw [g1, ← g4, heq]⟩)
      simpa using this)
    obtain ⟨r, hr⟩ := Option.isSome_iff_exists.1 hrest
    simp only [mergeLoop, h1, htk, he, hr, Option.bind_some, Option.map_some, Option.isSome_some]

/-- C15.  A match on a match is never a panic when the outer match has exactly one branch, with the
right number of bindings, for every constructor application in which an inner branch ends. -/
theorem merge_match_no_panic {d : Expr} {inner outer : List Branch} (hn : (outer.map Branch.ctor).Nodup)
    (h : ∀ b ∈ inner, ∀ c fs, EndsIn c fs b.body → ∃ o ∈ outer, o.ctor = c ∧ o.binds.length = fs.length) :
    ∃ r, mergeStep (.mtch (.mtch d inner) outer) = some r := by
  unfold mergeStep
  by_cases hc : canMerge inner = true
  case neg => exact ⟨_, if_neg hc⟩
  simp only [if_pos hc]
  simp only [canMerge, decide_eq_true_eq] at hc
  have hle := List.length_filterMap_le (fun b : Branch => extractCtor b.body) inner
  have hle' := distinct_le (inner.filterMap fun b => extractCtor b.body)
  have hall := filterMap_full (f := fun b : Branch => extractCtor b.body) (l := inner) (by omega)
  have hnd := distinct_full (l := inner.filterMap fun b => extractCtor b.body) (by omega)
  have hperm := sortBy_perm (fun b : Branch => (extractCtor b.body).getD 0) inner
  have hs := mergeLoop_some (bs := sortBy (fun b : Branch => (extractCtor b.body).getD 0) inner) (rem := outer) hn
    ((hperm.filterMap _).nodup_iff.2 hnd) (fun b hb => by
      have hb := hperm.mem_iff.1 hb
      obtain ⟨c, hc⟩ := Option.isSome_iff_exists.1 (hall b hb)
      obtain ⟨fs, hfs⟩ := extractCtor_ends hc
      obtain ⟨o, ho, h1, h2⟩ := h b hb c fs hfs
      exact ⟨c, fs, o, hc, hfs, ho, h1, h2⟩)
  obtain ⟨r, hr⟩ := Option.isSome_iff_exists.1 hs
  refine ⟨.mtch d r, ?_⟩
  unfold mergeBranches
  rw [if_pos (List.all_eq_true.2 hall), hr]
  rfl

/-! ### A concrete program -/

/-- `f = \x. match (match x { A(y) -> let z = y + 1; B(z), B(w) -> A(w) }) { B(u) -> u * 2, A(v) -> v }`. -/
def exMerge : Program where
  types := []
  defs := [⟨0, some "f", .fn [.int] .int, .lam [(1, .int)]
    (.mtch (.mtch (.name 1)
      [.mk 100 [2] (.let_ 3 (.op (.name 2) .add (.int 1)) (.con 101 [] [.name 3])), .mk 101 [4] (.con 100 [] [.name 4])])
      [.mk 101 [5] (.op (.name 5) .multiply (.int 2)), .mk 100 [6] (.name 6)])⟩]

/-- ... and after merging. -/
def exMerged : Program where
  types := []
  defs := [⟨0, some "f", .fn [.int] .int, .lam [(1, .int)]
    (.mtch (.name 1)
      [.mk 101 [4] (.let_ 6 (.name 4) (.name 6)),
       .mk 100 [2] (.let_ 3 (.op (.name 2) .add (.int 1)) (.let_ 5 (.name 3) (.op (.name 5) .multiply (.int 2))))])⟩]

example : WellNamed exMerge := wnB_ok (by decide)
example : mergeMatch exMerge = some exMerged := by rfl
example : Asks exMerge [.call (.name 0) [.con 100 [] [.int 3]]] := by
  intro e he x hx
  simp only [List.mem_cons, List.not_mem_nil, or_false] at he
  subst he; simp [Free, FreeL] at hx; subst hx; simp [exMerge]
example : Yields exMerge [.call (.name 0) [.con 100 [] [.int 3]]] [.int 8] ∧ Yields exMerged [.call (.name 0) [.con 100 [] [.int 3]]] [.int 8] :=
  ⟨⟨20, [.int 8], by rfl, rfl⟩, ⟨20, [.int 8], by rfl, rfl⟩⟩
/-- Without a branch for a constructor in the outer match the pass panics (`merge_match.rs:61`). -/
example : mergeStep (.mtch (.mtch (.name 1) [.mk 100 [] (.con 101 [] [])]) []) = none := by rfl

end Tic.Core
