import Verif.PropLsp
/-
C25: the semantic token stream decodes to the tokens' positions.
-/
namespace Tic.Lsp

/-! ### Specification -/

/-- A token as the editor should see it. -/
structure AbsTok where
  pos : Position
  length : Nat
  kind : Nat
deriving DecidableEq, Repr

/-- How a client decodes the relative encoding (LSP specification,
`textDocument/semanticTokens`): lines are relative to the previous token, the
start character too if it is on the same line. -/
def decode : Position → List SemToken → List AbsTok
  | _, [] => []
  | prev, s :: ss =>
    let pos : Position :=
      { line := prev.line + s.deltaLine,
        character := if s.deltaLine = 0 then prev.character + s.deltaStart else s.deltaStart }
    { pos, length := s.length, kind := s.kind } :: decode pos ss

/-- A token of a text, given by the text before it and its own text. -/
structure TextTok where
  before : List Char
  text : List Char
  kind : Nat

/-- Its byte span. -/
def TextTok.tok (d : TextTok) : Tok :=
  { start := blen d.before, stop := blen d.before + blen d.text, kind := d.kind }

/-- What the editor should see: line, UTF-16 column, UTF-16 length. -/
def TextTok.abs (d : TextTok) : AbsTok :=
  { pos := lspOf d.before, length := u16count d.text, kind := d.kind }

/-! ### Helpers -/

theorem lastLine_snoc (p : List Char) (c : Char) :
    lastLine (p ++ [c]) = if c = '\n' then [] else lastLine p ++ [c] := by
  unfold lastLine
  simp only [List.reverse_append, List.reverse_cons, List.reverse_nil, List.nil_append,
    List.cons_append, List.takeWhile_cons]
  by_cases h : c = '\n' <;> simp [h]

theorem advance_append (a b : List Char) (x : Nat × Nat) :
    advance (a ++ b) x = advance b (advance a x) := by
  induction a generalizing x with
  | nil => rfl
  | cons c cs ih => simp only [List.cons_append, advance, ih]

theorem advance_eq (p : List Char) : advance p (0, 0) = ((lspOf p).line, (lspOf p).character) := by
  obtain ⟨r, rfl⟩ : ∃ r, p = List.reverse r := ⟨p.reverse, by simp⟩
  induction r with
  | nil => rfl
  | cons c cs ih =>
    rw [List.reverse_cons, advance_append, ih]
    simp only [advance, lspOf, lastLine_snoc, List.count_append]
    by_cases h : c = '\n'
    · simp [h]
    · simp [h]

theorem lspOf_mono (p q : List Char) :
    (lspOf p).line ≤ (lspOf (p ++ q)).line ∧
    ((lspOf p).line = (lspOf (p ++ q)).line → (lspOf p).character ≤ (lspOf (p ++ q)).character) := by
  obtain ⟨r, rfl⟩ : ∃ r, q = List.reverse r := ⟨q.reverse, by simp⟩
  induction r with
  | nil => simp
  | cons c cs ih =>
    rw [List.reverse_cons, ← List.append_assoc]
    generalize p ++ cs.reverse = w at *
    simp only [lspOf, lastLine_snoc, List.count_append] at *
    by_cases h : c = '\n'
    · simp [h]; omega
    · simp [h] at *
      refine ⟨ih.1, fun h' => ?_⟩
      have := ih.2 h'; omega

theorem go_correct (src : List Char) (ds : List TextTok) (p : List Char) (s0 : List Char)
    (hp : src = p ++ s0)
    (hin : ∀ d ∈ ds, ∃ s, src = d.before ++ (d.text ++ s))
    (hfirst : ∀ d ∈ ds, blen p ≤ blen d.before)
    (hsorted : ds.Pairwise fun a b => blen a.before ≤ blen b.before) :
    ∃ out, semTokens.go src ⟨((lspOf p).line, (lspOf p).character),
        ((lspOf p).line, (lspOf p).character), blen p⟩ (ds.map TextTok.tok) = some out ∧
      decode (lspOf p) out = ds.map TextTok.abs := by
  induction ds generalizing p s0 with
  | nil => exact ⟨[], rfl, rfl⟩
  | cons d ds ih =>
    obtain ⟨s, hs⟩ := hin d (by simp)
    obtain ⟨g, hg, hg2⟩ := prefix_of_blen (hp.symm.trans hs) (hfirst d (by simp))
    have hgap : slice src (blen p) (blen d.before) = some g := by
      rw [hs, hg]
      have := slice_mid p g (d.text ++ s)
      simpa using this
    have htext : slice src (blen d.before) (blen d.before + blen d.text) = some d.text := by
      conv => lhs; rw [hs]
      exact slice_mid _ _ _
    have hadv : advance g ((lspOf p).line, (lspOf p).character)
        = ((lspOf d.before).line, (lspOf d.before).character) := by
      rw [← advance_eq, ← advance_append, ← hg, advance_eq]
    have hmono := lspOf_mono p g
    rw [← hg] at hmono
    simp only [List.pairwise_cons] at hsorted
    obtain ⟨out, ho1, ho2⟩ := ih d.before (d.text ++ s) hs (fun e he => hin e (by simp [he]))
      (fun e he => hsorted.1 e he) hsorted.2
    have hsub1 : subU (lspOf d.before).line (lspOf p).line
        = some ((lspOf d.before).line - (lspOf p).line) := by
      unfold subU; rw [if_pos hmono.1]
    have hsub2 : ∀ dl, dl = (lspOf d.before).line - (lspOf p).line →
        subU (lspOf d.before).character (if dl = 0 then (lspOf p).character else 0)
        = some ((lspOf d.before).character - (if dl = 0 then (lspOf p).character else 0)) := by
      intro dl hdl
      unfold subU
      split
      · rw [if_pos (hmono.2 (by omega))]
      · rw [if_pos (by omega)]
    refine ⟨{ deltaLine := (lspOf d.before).line - (lspOf p).line,
              deltaStart := (lspOf d.before).character -
                (if (lspOf d.before).line - (lspOf p).line = 0 then (lspOf p).character else 0),
              length := u16count d.text, kind := d.kind } :: out, ?_, ?_⟩
    · simp only [List.map_cons, semTokens.go, tokStep]
      simp only [TextTok.tok, hgap, htext, hadv, hsub1, hsub2 _ rfl, Option.bind_eq_bind,
        Option.bind_some, Option.pure_def]
      rw [ho1]
      rfl
    · simp only [decode, List.map_cons]
      have hpos : (⟨(lspOf p).line + ((lspOf d.before).line - (lspOf p).line),
          if (lspOf d.before).line - (lspOf p).line = 0 then
            (lspOf p).character + ((lspOf d.before).character -
              (if (lspOf d.before).line - (lspOf p).line = 0 then (lspOf p).character else 0))
          else ((lspOf d.before).character -
              (if (lspOf d.before).line - (lspOf p).line = 0 then (lspOf p).character else 0))⟩ : Position)
          = lspOf d.before := by
        have h1 := hmono.1
        have h2 := hmono.2
        cases hl : lspOf d.before with
        | mk L C =>
          rw [hl] at h1 h2
          simp only at h1 h2 ⊢
          congr 1
          · omega
          · split
            · have := h2 (by omega); omega
            · omega
      rw [hpos, ho2]
      rfl

/-! ### Theorem -/

/-- For every text and every list of its tokens in source order, encoding
succeeds and the client decodes exactly the tokens' lines, UTF-16 columns,
UTF-16 lengths and kinds. -/
theorem semantic_tokens_decode (src : List Char) (ds : List TextTok)
    (hin : ∀ d ∈ ds, ∃ rest, src = d.before ++ (d.text ++ rest))
    (hsorted : ds.Pairwise fun a b => blen a.before ≤ blen b.before) :
    ∃ out, semTokens src (ds.map TextTok.tok) = some out ∧
      decode ⟨0, 0⟩ out = ds.map TextTok.abs := by
  have := go_correct src ds [] src rfl hin (by simp) hsorted
  simpa [semTokens, lspOf, lastLine] using this

-- Non-vacuity: two tokens on different lines, the first one outside the BMP.
example :
    let ds : List TextTok := [⟨[], ['😀'], 2⟩, ⟨['😀', ' '], ['x'], 1⟩, ⟨['😀', ' ', 'x', '\n', ' '], ['y'], 2⟩]
    (∀ d ∈ ds, ∃ rest, "😀 x\n y".toList = d.before ++ (d.text ++ rest)) ∧
    (ds.Pairwise fun a b => blen a.before ≤ blen b.before) ∧
    ds.map TextTok.abs = [⟨⟨0, 0⟩, 2, 2⟩, ⟨⟨0, 3⟩, 1, 1⟩, ⟨⟨1, 1⟩, 1, 2⟩] := by
  refine ⟨?_, by decide, by decide⟩
  intro d hd
  simp at hd
  rcases hd with rfl | rfl | rfl
  · exact ⟨" x\n y".toList, by decide⟩
  · exact ⟨"\n y".toList, by decide⟩
  · exact ⟨[], by decide⟩

end Tic.Lsp
