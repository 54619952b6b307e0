/-
`reorder_forward_parents` moves starts of nodes to the front and changes nothing else.
-/
import Verif.ParserGrammar

namespace Tic.Parser

/-- Links go forward to nodes, and no two share their target. -/
structure LinksE (es : List Event) : Prop where
  fp : ∀ (i : Nat) k j, es[i]? = some (Event.startNode k (some j)) → i < j ∧ ∃ k' f, es[j]? = some (Event.startNode k' f)
  inj : ∀ (i i' : Nat) k k' j, es[i]? = some (Event.startNode k (some j)) → es[i']? = some (Event.startNode k' (some j)) → i = i'

def notPh : Event → Bool
  | .placeholder => false
  | _ => true

/-- The events that are not open. -/
def np (es : List Event) : Nat := es.countP notPh

theorem get_set {es : List Event} {i j : Nat} {e} (h : i < es.length) : (es.set i e)[j]? = if j = i then some e else es[j]? := by
  by_cases hj : j = i
  · subst hj; simp [h]
  · rw [List.getElem?_set_ne (Ne.symm hj), if_neg hj]

theorem LinksE.clear {es} {i : Nat} {k f} (h : LinksE es) (hi : es[i]? = some (Event.startNode k f)) : LinksE (es.set i (.startNode k none)) := by
  have hlt := lt_of_get hi
  refine ⟨fun a k' j ha => ?_, fun a a' k1 k2 j ha ha' => ?_⟩
  · rw [get_set hlt] at ha
    split at ha
    · simp at ha
    · obtain ⟨h1, k2, f2, h2⟩ := h.fp a k' j ha
      refine ⟨h1, ?_⟩
      rw [get_set hlt]
      split
      · exact ⟨_, _, rfl⟩
      · exact ⟨_, _, h2⟩
  · rw [get_set hlt] at ha ha'
    split at ha
    · simp at ha
    · split at ha'
      · simp at ha'
      · exact h.inj a a' k1 k2 j ha ha'

structure ChainSpec (es : List Event) (i : Nat) (r : List Nat × List Event) : Prop where
  mem : i ∈ r.1
  ge : ∀ j ∈ r.1, i ≤ j
  nodup : r.1.Nodup
  starts : ∀ j ∈ r.1, ∃ k f, es[j]? = some (Event.startNode k f)
  len : r.2.length = es.length
  out : ∀ j, j ∉ r.1 → r.2[j]? = es[j]?
  inn : ∀ j ∈ r.1, ∃ k, r.2[j]? = some (Event.startNode k none)
  pred : ∀ j ∈ r.1, j ≠ i → ∃ p ∈ r.1, ∃ k, es[p]? = some (Event.startNode k (some j))
  st : st r.2 = st es
  fi : fi r.2 = fi es
  np : np r.2 = np es
  toks : toksOf r.2 = toksOf es

theorem chain_spec : ∀ n (es : List Event) (i : Nat) k f, LinksE es → es[i]? = some (Event.startNode k f) → es.length < n + i →
    ChainSpec es i (chain n es i)
  | 0, es, i, k, f, _, hi, hn => by have := lt_of_get hi; omega
  | n + 1, es, i, k, none, hl, hi, hn => by
    simp only [chain, hi]
    exact ⟨by simp, by simp, by simp, by simpa using ⟨k, none, hi⟩, rfl, fun _ _ => rfl, by simpa using ⟨k, hi⟩, by simp, rfl, rfl, rfl, rfl⟩
  | n + 1, es, i, k, some j, hl, hi, hn => by
    simp only [chain, hi]
    obtain ⟨h1, k', f', h2⟩ := hl.fp i k j hi
    have hlt := lt_of_get hi
    have h3 : (es.set i (.startNode k none))[j]? = some (Event.startNode k' f') := by
      rw [get_set hlt, if_neg (by omega)]; exact h2
    have ih := chain_spec n (es.set i (.startNode k none)) j k' f' (hl.clear hi) h3 (by simp; omega)
    generalize chain n (es.set i (.startNode k none)) j = r at ih ⊢
    have hni : i ∉ r.1 := fun h => by have := ih.ge i h; omega
    refine ⟨by simp, ?_, ?_, ?_, by rw [ih.len]; simp, ?_, ?_, ?_, ?_, ?_, ?_, ?_⟩
    · intro x hx
      rcases List.mem_cons.mp hx with rfl | hx
      · exact Nat.le_refl _
      · have := ih.ge x hx; omega
    · exact List.nodup_cons.mpr ⟨hni, ih.nodup⟩
    · intro x hx
      rcases List.mem_cons.mp hx with rfl | hx
      · exact ⟨_, _, hi⟩
      · obtain ⟨a, b, h⟩ := ih.starts x hx
        have := ih.ge x hx
        rw [get_set hlt, if_neg (by omega)] at h
        exact ⟨a, b, h⟩
    · intro x hx
      simp only [List.mem_cons, not_or] at hx
      rw [ih.out x hx.2, get_set hlt, if_neg hx.1]
    · intro x hx
      rcases List.mem_cons.mp hx with rfl | hx
      · exact ⟨k, by rw [ih.out x hni, get_set hlt, if_pos rfl]⟩
      · exact ih.inn x hx
    · intro x hx hne
      rcases List.mem_cons.mp hx with rfl | hx
      · exact absurd rfl hne
      · by_cases hxj : x = j
        · subst hxj; exact ⟨i, by simp, k, hi⟩
        · obtain ⟨p, hp, k1, h⟩ := ih.pred x hx hxj
          have := ih.ge p hp
          rw [get_set hlt, if_neg (by omega)] at h
          exact ⟨p, by simp [hp], k1, h⟩
    · rw [ih.st]; exact countP_set_same hi rfl
    · rw [ih.fi]; exact countP_set_same hi rfl
    · rw [ih.np]; exact countP_set_same hi rfl
    · rw [ih.toks]; exact toksOf_set hi

theorem countP_set_drop {p : Event → Bool} : ∀ {D : List Event} {i : Nat} {e e'}, D[i]? = some e → p e = true → p e' = false → (D.set i e').countP p + 1 = D.countP p
  | [], _, _, _, h, _, _ => by simp at h
  | a :: D, 0, e, e', h, he, he' => by simp at h; subst h; simp [List.countP_cons, he, he']
  | a :: D, i + 1, e, e', h, he, he' => by
    simp only [List.getElem?_cons_succ] at h
    have := countP_set_drop (p := p) h he he'
    simp only [List.set_cons_succ, List.countP_cons]
    omega

theorem toksOf_set_ph {D} {m : Nat} {k f} (hm : D[m]? = some (Event.startNode k f)) : toksOf (D.set m .placeholder) = toksOf D := by
  induction D generalizing m with
  | nil => simp at hm
  | cons e D ih =>
    cases m with
    | zero => simp at hm; subst hm; rfl
    | succ m =>
      simp only [List.getElem?_cons_succ] at hm
      simp only [List.set_cons_succ]
      cases e <;> simp [toksOf, ih hm]

structure TakeSpec (es : List Event) (is : List Nat) (r : List Event × List Event) : Prop where
  starts : ∀ e ∈ r.1, ∃ k f, e = .startNode k f
  len1 : r.1.length = is.length
  len : r.2.length = es.length
  inn : ∀ j ∈ is, r.2[j]? = some .placeholder
  out : ∀ j, j ∉ is → r.2[j]? = es[j]?
  st : st r.2 + is.length = st es
  np : np r.2 + is.length = np es
  fi : fi r.2 = fi es
  toks : toksOf r.2 = toksOf es

theorem take_spec : ∀ (is : List Nat) (es : List Event), is.Nodup → (∀ j ∈ is, ∃ k f, es[j]? = some (Event.startNode k f)) → TakeSpec es is (takeOut es is)
  | [], es, _, _ => ⟨by simp [takeOut], rfl, rfl, by simp, fun _ _ => rfl, rfl, rfl, rfl, rfl⟩
  | i :: is, es, hnd, hs => by
    obtain ⟨k, f, hi⟩ := hs i (by simp)
    have hlt := lt_of_get hi
    obtain ⟨hni, hnd⟩ := List.nodup_cons.mp hnd
    have ih := take_spec is (es.set i .placeholder) hnd (by
      intro j hj
      obtain ⟨k, f, h⟩ := hs j (by simp [hj])
      refine ⟨k, f, ?_⟩
      rw [get_set hlt, if_neg (fun e : j = i => hni (e ▸ hj))]; exact h)
    simp only [takeOut]
    generalize takeOut (es.set i .placeholder) is = r at ih ⊢
    refine ⟨?_, by simp [ih.len1], by rw [ih.len]; simp, ?_, ?_, ?_, ?_, ?_, ?_⟩
    · intro e he
      rcases List.mem_cons.mp he with rfl | he
      · exact ⟨k, f, by simp [hi]⟩
      · exact ih.starts e he
    · intro j hj
      rcases List.mem_cons.mp hj with rfl | hj
      · rw [ih.out j hni, get_set hlt, if_pos rfl]
      · exact ih.inn j hj
    · intro j hj
      simp only [List.mem_cons, not_or] at hj
      rw [ih.out j hj.2, get_set hlt, if_neg hj.1]
    · have := ih.st
      have h2 : Parser.st (es.set i .placeholder) + 1 = Parser.st es := countP_set_drop hi rfl rfl
      simp only [List.length_cons]; omega
    · have := ih.np
      have h2 : Parser.np (es.set i .placeholder) + 1 = Parser.np es := countP_set_drop hi rfl rfl
      simp only [List.length_cons]; omega
    · rw [ih.fi]; exact countP_set_same hi rfl
    · rw [ih.toks]; exact toksOf_set_ph hi

/-- Every prefix closes at most what it opens. -/
def Pre (out : List Event) : Prop := ∀ n, fi (out.take n) ≤ st (out.take n)

theorem Pre.append_starts {out l} (h : Pre out) (hl : ∀ e ∈ l, ∃ k f, e = Event.startNode k f) : Pre (out ++ l) := by
  intro n
  rw [List.take_append, st_append, fi_append]
  have h1 := h n
  have h2 : fi (l.take (n - out.length)) = 0 := by
    unfold fi
    rw [List.countP_eq_zero]
    intro e he
    obtain ⟨k, f, rfl⟩ := hl e (List.mem_of_mem_take he)
    simp [isFinish]
  omega

theorem Pre.append_one {out e} (h : Pre out) (hle : fi (out ++ [e]) ≤ st (out ++ [e])) : Pre (out ++ [e]) := by
  intro n
  by_cases hn : n ≤ out.length
  · rw [List.take_append_of_le_length hn]; exact h n
  · rw [List.take_of_length_le (by simp; omega)]; exact hle

/-- The invariant of the loop, for the original events `D`, before round `i`. -/
structure RInv (D : List Event) (i : Nat) (es out : List Event) : Prop where
  len : es.length = D.length
  links : LinksE es
  done : ∀ j < i, j < D.length → es[j]? = some .placeholder
  rest : ∀ j, i ≤ j → es[j]? = D[j]? ∨ (es[j]? = some .placeholder ∧ ∃ k f, D[j]? = some (Event.startNode k f))
  np : np es + out.length = D.length
  st : st es + st out = st D
  fi : fi es + fi out = fi D
  toks : toksOf out ++ toksOf es = toksOf D
  pre : Pre out
  noPh : ∀ e ∈ out, e ≠ .placeholder
  err : ∀ a b, Event.error a b ∈ out → Event.error a b ∈ D

theorem drop_at {es : List Event} {i : Nat} {e} (h : es[i]? = some e) : es.drop i = e :: es.drop (i + 1) := by
  obtain ⟨hlt, h⟩ := List.getElem?_eq_some_iff.mp h
  rw [List.drop_eq_getElem_cons hlt, h]

theorem count_split {p : Event → Bool} {es : List Event} {i : Nat} (hp : p .placeholder = false) (h : ∀ j < i, j < es.length → es[j]? = some .placeholder) :
    es.countP p = (es.drop i).countP p := by
  have h1 : es.countP p = (es.take i).countP p + (es.drop i).countP p := by rw [← List.countP_append, List.take_append_drop]
  have h2 : (es.take i).countP p = 0 := by
    rw [List.countP_eq_zero]
    intro e he
    obtain ⟨j, hj, rfl⟩ := List.mem_iff_getElem.mp he
    simp only [List.length_take] at hj
    rw [List.getElem_take]
    have := h j (by omega) (by omega)
    rw [List.getElem?_eq_getElem (by omega)] at this
    simp at this
    simp [this, hp]
  omega

theorem toks_split {es : List Event} {i : Nat} (h : ∀ j < i, j < es.length → es[j]? = some .placeholder) : toksOf es = toksOf (es.drop i) := by
  induction i generalizing es with
  | zero => simp
  | succ i ih =>
    cases es with
    | nil => simp
    | cons e es =>
      have := h 0 (by omega) (by simp)
      simp at this
      subst this
      simp only [toksOf, List.drop_succ_cons]
      exact ih fun j hj hl => by have := h (j + 1) (by omega) (by simpa using hl); simpa using this

/-- What remains has at most as many starts and as many ends as the original. -/
theorem rest_counts {D : List Event} : ∀ {es : List Event}, es.length = D.length →
    (∀ j : Nat, es[j]? = D[j]? ∨ (es[j]? = some .placeholder ∧ ∃ k f, D[j]? = some (Event.startNode k f))) →
    st es ≤ st D ∧ fi es = fi D := by
  induction D with
  | nil => intro es h _; cases es with
    | nil => exact ⟨Nat.le_refl _, rfl⟩
    | cons => simp at h
  | cons d D ih =>
    intro es h hr
    cases es with
    | nil => simp at h
    | cons e es =>
      have h0 := hr 0
      have h1 := ih (es := es) (by simpa using h) fun j => by simpa using hr (j + 1)
      simp only [List.getElem?_cons_zero, Option.some.injEq] at h0
      simp only [st, fi, List.countP_cons] at h1 ⊢
      rcases h0 with rfl | ⟨rfl, k, f, rfl⟩
      · omega
      · simp [isStart, isFinish]; omega

theorem step_inv {D i es out} (hD : Bal D) (hN : ∀ e ∈ D, e ≠ Event.placeholder) (hi : i < D.length) (h : RInv D i es out) :
    RInv D (i + 1) (reorderStep es out i).1 (reorderStep es out i).2 := by
  have hile : i < es.length := by rw [h.len]; exact hi
  obtain ⟨e, he⟩ : ∃ e, es[i]? = some e := ⟨_, List.getElem?_eq_getElem hile⟩
  have hrest := h.rest i (Nat.le_refl _)
  -- taking a single event out
  have single : ∀ e, es[i]? = some e → D[i]? = some e → e ≠ .placeholder → (∀ k j, e ≠ .startNode k (some j)) →
      RInv D (i + 1) (es.set i .placeholder) (out ++ [e]) := by
    intro e he hDe hne hnl
    have hnl' : ∀ x : Nat, x ≠ i → ∀ k j, es[x]? = some (Event.startNode k (some j)) → j ≠ i := by
      intro x hx k j hxj hji
      subst hji
      obtain ⟨h1, -⟩ := h.links.fp x k j hxj
      have := h.done x h1 (by omega)
      rw [this] at hxj; simp at hxj
    have hnp : np (es.set i .placeholder) + 1 = np es := countP_set_drop he (by cases e <;> simp_all [notPh]) rfl
    have hst : st (es.set i .placeholder) + st [e] = st es := by
      by_cases hs : isStart e = true
      · have : st (es.set i .placeholder) + 1 = st es := countP_set_drop he hs rfl
        simp [st, hs] at this ⊢; omega
      · have : st (es.set i .placeholder) = st es := countP_set_same he (by simp at hs; rw [hs]; rfl)
        simp [st, hs] at this ⊢; omega
    have hfi : fi (es.set i .placeholder) + fi [e] = fi es := by
      by_cases hs : isFinish e = true
      · have : fi (es.set i .placeholder) + 1 = fi es := countP_set_drop he hs rfl
        simp [fi, hs] at this ⊢; omega
      · have : fi (es.set i .placeholder) = fi es := countP_set_same he (by simp at hs; rw [hs]; rfl)
        simp [fi, hs] at this ⊢; omega
    have hdone : ∀ j < i + 1, j < D.length → (es.set i Event.placeholder)[j]? = some .placeholder := by
      intro j hj hl
      rw [get_set hile]
      split
      · rfl
      · exact h.done j (by omega) hl
    have htoks : toksOf [e] ++ toksOf (es.set i .placeholder) = toksOf es := by
      rw [toks_split (i := i + 1) (fun j hj hl => hdone j hj (by simpa [h.len] using hl)), toks_split (es := es) (i := i) (fun j hj hl => h.done j hj (by rw [← h.len]; exact hl)), drop_at he]
      rw [List.drop_set_of_lt (by omega), ← toksOf_append]; rfl
    refine ⟨by simp [h.len], ⟨fun a k j ha => ?_, fun a a' k k' j ha ha' => ?_⟩, hdone, fun j hj => ?_, ?_, ?_, ?_, ?_, ?_, ?_, ?_⟩
    · rw [get_set hile] at ha
      split at ha
      · simp at ha
      · rename_i hai
        obtain ⟨h1, h2⟩ := h.links.fp a k j ha
        refine ⟨h1, ?_⟩
        rw [get_set hile, if_neg (hnl' a hai k j ha)]
        exact h2
    · rw [get_set hile] at ha ha'
      split at ha
      · simp at ha
      · split at ha'
        · simp at ha'
        · exact h.links.inj a a' k k' j ha ha'
    · rw [get_set hile, if_neg (by omega)]
      exact h.rest j (by omega)
    · have := h.np; simp; omega
    · rw [st_append]; have := h.st; omega
    · rw [fi_append]; have := h.fi; omega
    · rw [toksOf_append, List.append_assoc, htoks]; exact h.toks
    · refine h.pre.append_one ?_
      rw [st_append, fi_append]
      have hb := hD.pre (i + 1)
      have ht : ∀ p : Event → Bool, D.countP p = (D.take (i + 1)).countP p + (D.drop (i + 1)).countP p := fun p => by
        rw [← List.countP_append, List.take_append_drop]
      have hst' : st (es.set i .placeholder) ≤ st (D.drop (i + 1)) ∧ fi (es.set i .placeholder) = fi (D.drop (i + 1)) := by
        have h1 : st (es.set i .placeholder) = st ((es.set i .placeholder).drop (i + 1)) := count_split rfl fun j hj hl => hdone j hj (by simpa [h.len] using hl)
        have h2 : fi (es.set i .placeholder) = fi ((es.set i .placeholder).drop (i + 1)) := count_split rfl fun j hj hl => hdone j hj (by simpa [h.len] using hl)
        rw [h1, h2]
        refine rest_counts (by simp [h.len]) fun j => ?_
        simp only [List.getElem?_drop]
        rw [get_set hile, if_neg (by omega)]
        exact h.rest _ (by omega)
      have t1 : st D = _ := ht isStart
      have t2 : fi D = _ := ht isFinish
      have e1 := h.st
      have e2 := h.fi
      unfold st fi at *
      omega
    · intro x hx
      rcases List.mem_append.mp hx with hx | hx
      · exact h.noPh x hx
      · simp at hx; subst hx; exact hne
    · intro a b hx
      rcases List.mem_append.mp hx with hx | hx
      · exact h.err a b hx
      · simp at hx; rw [hx]; exact List.mem_of_getElem? hDe
  unfold reorderStep
  rcases hrest with hrest | ⟨hph, k, f, hDi⟩
  · have hDe : D[i]? = some e := by rw [← hrest, he]
    have hne : e ≠ .placeholder := hN e (List.mem_of_getElem? hDe)
    cases e with
    | placeholder => exact absurd rfl hne
    | error a b => simp only [he]; exact single _ he hDe hne (by simp)
    | addToken t => simp only [he]; exact single _ he hDe hne (by simp)
    | finishNode => simp only [he]; exact single _ he hDe hne (by simp)
    | startNode k f =>
      cases f with
      | none => simp only [he]; exact single _ he hDe hne (by simp)
      | some j =>
        simp only [he]
        have hc := chain_spec (es.length + 1) es i k (some j) h.links he (by omega)
        generalize chain (es.length + 1) es i = c at hc ⊢
        have ht := take_spec c.1.reverse c.2 (List.pairwise_reverse.mpr (hc.nodup.imp fun h => h.symm)) (fun x hx => by
          obtain ⟨k, hk⟩ := hc.inn x (by simpa using hx)
          exact ⟨k, _, hk⟩)
        generalize takeOut c.2 c.1.reverse = r at ht ⊢
        have hget : ∀ x, x ∉ c.1 → r.2[x]? = es[x]? := fun x hx => by rw [ht.out x (by simpa using hx), hc.out x hx]
        have hph : ∀ x ∈ c.1, r.2[x]? = some .placeholder := fun x hx => ht.inn x (by simpa using hx)
        have hr1 : ∀ p : Event → Bool, (∀ k f, p (.startNode k f) = true) → r.1.countP p = r.1.length := by
          intro p hp
          rw [List.countP_eq_length]
          intro e he
          obtain ⟨k, f, rfl⟩ := ht.starts e he
          exact hp k f
        have hfi0 : fi r.1 = 0 := by
          unfold fi
          rw [List.countP_eq_zero]
          intro e he
          obtain ⟨k, f, rfl⟩ := ht.starts e he
          simp [isFinish]
        have htoks0 : ∀ l : List Event, (∀ e ∈ l, ∃ k f, e = Event.startNode k f) → toksOf l = [] := by
          intro l hl
          induction l with
          | nil => rfl
          | cons a l ih =>
            obtain ⟨k, f, rfl⟩ := hl a (by simp)
            simp only [toksOf]
            exact ih fun e he => hl e (by simp [he])
        refine ⟨by rw [ht.len, hc.len, h.len], ⟨fun a k' j' ha => ?_, fun a a' k1 k2 j' ha ha' => ?_⟩, fun x hx hl => ?_, fun x hx => ?_, ?_, ?_, ?_, ?_,
          h.pre.append_starts ht.starts, ?_, ?_⟩
        · have hac : a ∉ c.1 := fun hm => by rw [hph a hm] at ha; simp at ha
          rw [hget a hac] at ha
          obtain ⟨h1, k2, f2, h2⟩ := h.links.fp a k' j' ha
          refine ⟨h1, k2, f2, ?_⟩
          have hjc : j' ∉ c.1 := by
            intro hm
            by_cases hji : j' = i
            · subst hji
              have := h.done a h1 (by omega)
              rw [this] at ha; simp at ha
            · obtain ⟨p, hp, k3, h3⟩ := hc.pred j' hm hji
              have := h.links.inj a p k' k3 j' ha h3
              exact hac (this ▸ hp)
          rw [hget j' hjc]; exact h2
        · have hac : a ∉ c.1 := fun hm => by rw [hph a hm] at ha; simp at ha
          have hac' : a' ∉ c.1 := fun hm => by rw [hph a' hm] at ha'; simp at ha'
          rw [hget _ hac] at ha
          rw [hget _ hac'] at ha'
          exact h.links.inj a a' k1 k2 j' ha ha'
        · by_cases hxc : x ∈ c.1
          · exact hph x hxc
          · rw [hget x hxc]
            have : x ≠ i := fun e => hxc (e ▸ hc.mem)
            exact h.done x (by omega) hl
        · by_cases hxc : x ∈ c.1
          · refine .inr ⟨hph x hxc, ?_⟩
            obtain ⟨k1, f1, h1⟩ := hc.starts x hxc
            rcases h.rest x (by omega) with hx1 | ⟨hx1, -⟩
            · rw [← hx1]; exact ⟨k1, f1, h1⟩
            · rw [hx1] at h1; simp at h1
          · rw [hget x hxc]; exact h.rest x (by omega)
        · have := h.np; have := ht.np; have := hc.np; have := ht.len1
          simp at *; omega
        · have := h.st; have := ht.st; have := hc.st; have := ht.len1
          have h1 : st r.1 = r.1.length := hr1 isStart fun _ _ => rfl
          rw [st_append]; simp at *; omega
        · have := h.fi; have := ht.fi; have := hc.fi
          rw [fi_append]; omega
        · rw [toksOf_append, htoks0 r.1 ht.starts, List.append_nil, ht.toks, hc.toks]; exact h.toks
        · intro e he
          rcases List.mem_append.mp he with he | he
          · exact h.noPh e he
          · obtain ⟨k, f, rfl⟩ := ht.starts e he; simp
        · intro a b he
          rcases List.mem_append.mp he with he | he
          · exact h.err a b he
          · obtain ⟨k, f, h⟩ := ht.starts _ he; simp at h
  · simp only [hph]
    refine ⟨h.len, h.links, fun j hj hl => ?_, fun j hj => h.rest j (by omega), h.np, h.st, h.fi, h.toks, h.pre, h.noPh, h.err⟩
    by_cases hji : j = i
    · subst hji; exact hph
    · exact h.done j (by omega) hl

/-- Reordering succeeds and gives a well nested list of events with the same tokens. -/
theorem reorder_ok {D : List Event} (hl : Links 0 D) (hb : Bal D) :
    ∃ out, reorder D = some out ∧ Pre out ∧ st out = fi out ∧ toksOf out = toksOf D ∧ (∀ e ∈ out, e ≠ .placeholder) ∧
      (∀ a b, Event.error a b ∈ out → Event.error a b ∈ D) := by
  have h0 : RInv D 0 D [] := by
    refine ⟨rfl, ⟨fun i k j hi => ?_, hl.inj⟩, by simp, fun j _ => .inl rfl, ?_, by simp [st], by simp [fi], by simp [toksOf], by simp [Pre, fi, st], by simp, by simp⟩
    · have := hl.fp i k j hi
      simpa using this
    · simp only [np, List.length_nil, Nat.add_zero]
      rw [List.countP_eq_length]
      intro e he
      have := hl.noPh e he
      cases e <;> simp_all [notPh]
  have hstep : ∀ m, m ≤ D.length → RInv D m ((List.range m).foldl (fun p i => reorderStep p.1 p.2 i) (D, [])).1
      ((List.range m).foldl (fun p i => reorderStep p.1 p.2 i) (D, [])).2 := by
    intro m
    induction m with
    | zero => intro _; exact h0
    | succ m ih =>
      intro hm
      rw [List.range_succ, List.foldl_append]
      exact step_inv hb hl.noPh (by omega) (ih (by omega))
  have hfin := hstep D.length (Nat.le_refl _)
  have hph : ∀ {p : Event → Bool}, p .placeholder = false → ((List.range D.length).foldl (fun p i => reorderStep p.1 p.2 i) (D, [])).1.countP p = 0 := by
    intro p hp
    rw [count_split hp (i := D.length) fun j hj hl => hfin.done j hj hj, List.drop_of_length_le (by rw [hfin.len]; exact Nat.le_refl _)]
    rfl
  have hnp := hfin.np
  have hnp0 : np _ = 0 := hph (p := notPh) rfl
  have hst0 : st _ = 0 := hph (p := isStart) rfl
  have hfi0 : fi _ = 0 := hph (p := isFinish) rfl
  have htk := hfin.toks
  have htk0 : toksOf ((List.range D.length).foldl (fun p i => reorderStep p.1 p.2 i) (D, [])).1 = [] := by
    rw [toks_split (i := D.length) fun j hj hl => hfin.done j hj hj, List.drop_of_length_le (by rw [hfin.len]; exact Nat.le_refl _)]
    rfl
  refine ⟨_, ?_, hfin.pre, ?_, ?_, hfin.noPh, hfin.err⟩
  · unfold reorder reorderLoop
    rw [if_pos (by omega)]
  · have h1 := hfin.st
    have h2 := hfin.fi
    have h3 := hb.tot
    omega
  · rw [htk0, List.append_nil] at htk; exact htk

end Tic.Parser
