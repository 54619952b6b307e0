/-
Every tree of the grammar, with texts where they matter, is how some program is written.
-/
import Verif.LowerItems

namespace Tic.Lower

open Tic.Parser
open Tic.Grammar (Syn nm)

theorem shape_tok {t : TSyn} {k} (h : t.shape = .tok k) (g : Tagged t) : ∃ x, t = .tok k x ∧ x.isSome = carries k := by
  cases t with
  | tok k' x => simp only [TSyn.shape, Syn.tok.injEq] at h; subst h; cases g with | tok g => exact ⟨x, rfl, g⟩
  | node => simp [TSyn.shape] at h

theorem shape_kw {t : TSyn} {k} (h : t.shape = .tok k) (g : Tagged t) (hk : carries k = false) : t = kw k := by
  obtain ⟨x, rfl, hx⟩ := shape_tok h g
  rw [hk] at hx
  cases x with
  | none => rfl
  | some => simp at hx

theorem shape_text {t : TSyn} {k} (h : t.shape = .tok k) (g : Tagged t) (hk : carries k = true) : ∃ x, t = .tok k (some x) := by
  obtain ⟨x, rfl, hx⟩ := shape_tok h g
  rw [hk] at hx
  cases x with
  | none => simp at hx
  | some x => exact ⟨x, rfl⟩

theorem shape_node {t : TSyn} {k ts} (h : t.shape = .node k ts) (g : Tagged t) : ∃ cs, t = .node k cs ∧ TSyn.shape.go cs = ts ∧ ∀ c ∈ cs, Tagged c := by
  cases t with
  | tok => simp [TSyn.shape] at h
  | node k' cs =>
    simp only [TSyn.shape, Syn.node.injEq] at h
    obtain ⟨rfl, h⟩ := h
    cases g with | node g => exact ⟨cs, rfl, h, g⟩

theorem go_nil {cs : List TSyn} (h : TSyn.shape.go cs = []) : cs = [] := by
  cases cs with
  | nil => rfl
  | cons => simp [TSyn.shape.go] at h

theorem go_cons {cs : List TSyn} {t ts} (h : TSyn.shape.go cs = t :: ts) (g : ∀ c ∈ cs, Tagged c) :
    ∃ c cs', cs = c :: cs' ∧ c.shape = t ∧ Tagged c ∧ TSyn.shape.go cs' = ts ∧ ∀ c ∈ cs', Tagged c := by
  cases cs with
  | nil => simp [TSyn.shape.go] at h
  | cons c cs' =>
    simp only [TSyn.shape.go, List.cons.injEq] at h
    exact ⟨c, cs', rfl, h.1, g c (by simp), h.2, fun c hc => g c (by simp [hc])⟩

theorem go_append : ∀ {ts ts' : List Syn} {cs : List TSyn}, TSyn.shape.go cs = ts ++ ts' → (∀ c ∈ cs, Tagged c) →
    ∃ a b, cs = a ++ b ∧ TSyn.shape.go a = ts ∧ (∀ c ∈ a, Tagged c) ∧ TSyn.shape.go b = ts' ∧ ∀ c ∈ b, Tagged c
  | [], _, cs, h, g => ⟨[], cs, rfl, rfl, by simp, h, g⟩
  | t :: ts, _, cs, h, g => by
    obtain ⟨c, cs', rfl, h1, h2, h3, h4⟩ := go_cons h g
    obtain ⟨a, b, rfl, e1, e2, e3, e4⟩ := go_append h3 h4
    refine ⟨c :: a, b, rfl, by simp [TSyn.shape.go, h1, e1], ?_, e3, e4⟩
    intro x hx
    rcases List.mem_cons.mp hx with rfl | hx
    · exact h2
    · exact e2 x hx

theorem back_nm {t : TSyn} (h : t.shape = nm) (g : Tagged t) : ∃ x, t = nmT x := by
  obtain ⟨cs, rfl, h1, g1⟩ := shape_node h g
  obtain ⟨c, cs', rfl, h2, g2, h3, -⟩ := go_cons h1 g1
  cases go_nil h3
  obtain ⟨x, rfl⟩ := shape_text h2 g2 rfl
  exact ⟨x, rfl⟩

theorem back_nms : ∀ {n : Nat} {cs : List TSyn}, TSyn.shape.go cs = List.replicate n nm → (∀ c ∈ cs, Tagged c) → ∃ ns : List Text, cs = ns.map nmT ∧ ns.length = n
  | 0, cs, h, _ => ⟨[], by rw [go_nil h]; rfl, rfl⟩
  | n + 1, cs, h, g => by
    obtain ⟨c, cs', rfl, h1, g1, h2, g2⟩ := go_cons h g
    obtain ⟨x, rfl⟩ := back_nm h1 g1
    obtain ⟨ns, rfl, e⟩ := back_nms h2 g2
    exact ⟨x :: ns, rfl, by simp [e]⟩

theorem back_path {p cs} (hp : Grammar.Path p) (h : TSyn.shape.go cs = p) (g : ∀ c ∈ cs, Tagged c) : ∃ ns n, cs = pathT ns n := by
  cases hp with
  | plain =>
    obtain ⟨c, cs', rfl, h1, g1, h2, g2⟩ := go_cons h g
    cases go_nil h2
    obtain ⟨x, rfl⟩ := back_nm h1 g1
    exact ⟨none, x, rfl⟩
  | inModule =>
    obtain ⟨c, cs', rfl, h1, g1, h2, g2⟩ := go_cons h g
    obtain ⟨c, cs', rfl, h3, g3, h4, g4⟩ := go_cons h2 g2
    obtain ⟨c, cs', rfl, h5, g5, h6, g6⟩ := go_cons h4 g4
    cases go_nil h6
    obtain ⟨x, rfl⟩ := back_nm h1 g1
    obtain ⟨y, rfl⟩ := back_nm h5 g5
    cases shape_kw h3 g3 rfl
    exact ⟨some x, y, rfl⟩

/-- Lists of children, each of which is written. -/
theorem back_list {α : Type} {f : α → TSyn} {G : Syn → Prop} (hG : ∀ t, G t → ∀ t', t'.shape = t → Tagged t' → ∃ x, t' = f x) :
    ∀ {ts : List Syn} {cs}, (∀ t ∈ ts, G t) → TSyn.shape.go cs = ts → (∀ c ∈ cs, Tagged c) → ∃ xs : List α, cs = xs.map f
  | [], cs, _, h, _ => ⟨[], by rw [go_nil h]; rfl⟩
  | t :: ts, cs, hg, h, g => by
    obtain ⟨c, cs', rfl, h1, g1, h2, g2⟩ := go_cons h g
    obtain ⟨x, rfl⟩ := hG t (hg t (by simp)) c h1 g1
    obtain ⟨xs, rfl⟩ := back_list hG (fun t ht => hg t (by simp [ht])) h2 g2
    exact ⟨x :: xs, rfl⟩

theorem trees_map (ts : List STy) : STy.tree.trees ts = ts.map STy.tree := by
  induction ts with
  | nil => rw [STy.tree.trees]; rfl
  | cons t ts ih => rw [STy.tree.trees, ih]; rfl

theorem caseTrees_map (ts : List SCase) : caseTrees ts = ts.map SCase.tree := by
  induction ts with
  | nil => rw [caseTrees]; rfl
  | cons t ts ih => rw [caseTrees, ih]; rfl

/-- Being written. -/
def TyBack (t : Syn) : Prop := ∀ t' : TSyn, t'.shape = t → Tagged t' → ∃ x : STy, t' = x.tree

theorem back_list_map {ts : List Syn} {cs} (hG : ∀ t ∈ ts, TyBack t) (h : TSyn.shape.go cs = ts) (g : ∀ c ∈ cs, Tagged c) : ∃ xs : List STy, cs = STy.tree.trees xs := by
  obtain ⟨xs, rfl⟩ := back_list (f := STy.tree) (G := TyBack) (fun _ h => h) hG h g
  exact ⟨xs, (trees_map xs).symm⟩

/-- The only child of a node with brackets or without. -/
theorem three {cs : List TSyn} {a b c} (h : TSyn.shape.go cs = [a, b, c]) (g : ∀ c ∈ cs, Tagged c) :
    ∃ x y z, cs = [x, y, z] ∧ (x.shape = a ∧ Tagged x) ∧ (y.shape = b ∧ Tagged y) ∧ (z.shape = c ∧ Tagged z) := by
  obtain ⟨x, _, rfl, h1, g1, h, g⟩ := go_cons h g
  obtain ⟨y, _, rfl, h2, g2, h, g⟩ := go_cons h g
  obtain ⟨z, _, rfl, h3, g3, h, g⟩ := go_cons h g
  cases go_nil h
  exact ⟨x, y, z, rfl, ⟨h1, g1⟩, ⟨h2, g2⟩, ⟨h3, g3⟩⟩

theorem one {cs : List TSyn} {a} (h : TSyn.shape.go cs = [a]) (g : ∀ c ∈ cs, Tagged c) : ∃ x, cs = [x] ∧ x.shape = a ∧ Tagged x := by
  obtain ⟨x, _, rfl, h1, g1, h, g⟩ := go_cons h g
  cases go_nil h
  exact ⟨x, rfl, h1, g1⟩

mutual
theorem back_atomTy : ∀ {t}, Grammar.AtomTy t → TyBack t
  | _, .int, t', h, g => by
    obtain ⟨cs, rfl, h1, g1⟩ := shape_node h g
    obtain ⟨x, rfl, h2, g2⟩ := one h1 g1
    exact ⟨.int, by rw [shape_kw h2 g2 rfl, STy.tree]⟩
  | _, .bool, t', h, g => by
    obtain ⟨cs, rfl, h1, g1⟩ := shape_node h g
    obtain ⟨x, rfl, h2, g2⟩ := one h1 g1
    exact ⟨.bool, by rw [shape_kw h2 g2 rfl, STy.tree]⟩
  | _, .string, t', h, g => by
    obtain ⟨cs, rfl, h1, g1⟩ := shape_node h g
    obtain ⟨x, rfl, h2, g2⟩ := one h1 g1
    exact ⟨.string, by rw [shape_kw h2 g2 rfl, STy.tree]⟩
  | _, .named hp, t', h, g => by
    obtain ⟨cs, rfl, h1, g1⟩ := shape_node h g
    obtain ⟨ns, n, rfl⟩ := back_path hp h1 g1
    exact ⟨.named ns n [], by rw [STy.tree, STy.tree.trees, List.append_nil]⟩
  | _, .paren ht, t', h, g => by
    obtain ⟨cs, rfl, h1, g1⟩ := shape_node h g
    obtain ⟨x, y, z, rfl, ⟨h2, g2⟩, ⟨h3, g3⟩, ⟨h4, g4⟩⟩ := three h1 g1
    obtain ⟨u, rfl⟩ := back_ty ht _ h3 g3
    exact ⟨.paren u, by rw [shape_kw h2 g2 rfl, shape_kw h4 g4 rfl, STy.tree]⟩
theorem back_appTy : ∀ {t}, Grammar.AppTy t → TyBack t
  | _, .atom h, t', h', g => back_atomTy h t' h' g
  | _, .app hp ha, t', h, g => by
    obtain ⟨cs, rfl, h1, g1⟩ := shape_node h g
    obtain ⟨a, b, rfl, e1, e2, e3, e4⟩ := go_append h1 g1
    obtain ⟨ns, n, rfl⟩ := back_path hp e1 e2
    obtain ⟨xs, rfl⟩ := back_list_map (fun t ht => back_atomTy (ha t ht)) e3 e4
    exact ⟨.named ns n xs, by rw [STy.tree]⟩
theorem back_ty : ∀ {t}, Grammar.Ty t → TyBack t
  | _, .app h, t', h', g => back_appTy h t' h' g
  | _, .fn ha hb, t', h, g => by
    obtain ⟨cs, rfl, h1, g1⟩ := shape_node h g
    obtain ⟨x, y, z, rfl, ⟨h2, g2⟩, ⟨h3, g3⟩, ⟨h4, g4⟩⟩ := three h1 g1
    obtain ⟨u, rfl⟩ := back_appTy ha _ h2 g2
    obtain ⟨v, rfl⟩ := back_ty hb _ h4 g4
    exact ⟨.fn u v, by rw [shape_kw h3 g3 rfl, STy.tree]⟩
end

theorem back_ann {l cs} (ha : Grammar.Ann l) (h : TSyn.shape.go cs = l) (g : ∀ c ∈ cs, Tagged c) : ∃ t, cs = annT t := by
  cases ha with
  | none => exact ⟨none, go_nil h⟩
  | some ht =>
    obtain ⟨c, cs', rfl, h1, g1, h2, g2⟩ := go_cons h g
    obtain ⟨c, rfl, h3, g3⟩ := one h2 g2
    obtain ⟨u, rfl⟩ := back_ty ht _ h3 g3
    exact ⟨some u, by rw [shape_kw h1 g1 rfl]; rfl⟩

theorem back_opt {k l cs} (ho : Grammar.Opt k l) (hk : carries k = false) (h : TSyn.shape.go cs = l) (g : ∀ c ∈ cs, Tagged c) : ∃ b, cs = optT b k := by
  cases ho with
  | none => exact ⟨false, go_nil h⟩
  | some =>
    obtain ⟨c, rfl, h3, g3⟩ := one h g
    exact ⟨true, by rw [shape_kw h3 g3 hk]; rfl⟩

theorem level_carries {o l} (h : Grammar.level o = some l) : carries o = false := by cases o <;> simp [Grammar.level] at h <;> rfl

/-- Being written. -/
def ExBack (t : Syn) : Prop := ∀ t' : TSyn, t'.shape = t → Tagged t' → ∃ x : SEx, t' = x.tree
def CaseBack (t : Syn) : Prop := ∀ t' : TSyn, t'.shape = t → Tagged t' → ∃ x : SCase, t' = x.tree

mutual
theorem back_atom : ∀ {t}, Grammar.Atom t → ExBack t
  | _, .paren he, t', h, g => by
    obtain ⟨cs, rfl, h1, g1⟩ := shape_node h g
    obtain ⟨x, y, z, rfl, ⟨h2, g2⟩, ⟨h3, g3⟩, ⟨h4, g4⟩⟩ := three h1 g1
    obtain ⟨u, rfl⟩ := back_ex he _ h3 g3
    exact ⟨.paren u, by rw [shape_kw h2 g2 rfl, shape_kw h4 g4 rfl, SEx.tree]⟩
  | _, .true_, t', h, g => by
    obtain ⟨cs, rfl, h1, g1⟩ := shape_node h g
    obtain ⟨x, rfl, h2, g2⟩ := one h1 g1
    exact ⟨.true_, by rw [shape_kw h2 g2 rfl, SEx.tree]⟩
  | _, .false_, t', h, g => by
    obtain ⟨cs, rfl, h1, g1⟩ := shape_node h g
    obtain ⟨x, rfl, h2, g2⟩ := one h1 g1
    exact ⟨.false_, by rw [shape_kw h2 g2 rfl, SEx.tree]⟩
  | _, .number, t', h, g => by
    obtain ⟨cs, rfl, h1, g1⟩ := shape_node h g
    obtain ⟨x, rfl, h2, g2⟩ := one h1 g1
    obtain ⟨t, rfl⟩ := shape_text h2 g2 rfl
    exact ⟨.number t, by rw [SEx.tree]⟩
  | _, .string, t', h, g => by
    obtain ⟨cs, rfl, h1, g1⟩ := shape_node h g
    obtain ⟨x, rfl, h2, g2⟩ := one h1 g1
    obtain ⟨t, rfl⟩ := shape_text h2 g2 rfl
    exact ⟨.string t, by rw [SEx.tree]⟩
  | _, .name, t', h, g => by
    obtain ⟨cs, rfl, h1, g1⟩ := shape_node h g
    obtain ⟨x, rfl, h2, g2⟩ := one h1 g1
    obtain ⟨t, rfl⟩ := back_nm h2 g2
    exact ⟨.name t, by rw [SEx.tree]⟩
  | _, .inModule, t', h, g => by
    obtain ⟨cs, rfl, h1, g1⟩ := shape_node h g
    obtain ⟨x, y, z, rfl, ⟨h2, g2⟩, ⟨h3, g3⟩, ⟨h4, g4⟩⟩ := three h1 g1
    obtain ⟨m, rfl⟩ := back_nm h2 g2
    obtain ⟨n, rfl⟩ := back_nm h4 g4
    exact ⟨.inModule m n, by rw [shape_kw h3 g3 rfl, SEx.tree]⟩
  | _, .hole, t', h, g => by
    obtain ⟨cs, rfl, h1, g1⟩ := shape_node h g
    obtain ⟨x, rfl, h2, g2⟩ := one h1 g1
    obtain ⟨t, rfl⟩ := shape_text h2 g2 rfl
    exact ⟨.hole t, by rw [SEx.tree]⟩
theorem back_app : ∀ {t}, Grammar.App t → ExBack t
  | _, .atom h, t', h', g => back_atom h t' h' g
  | _, .app hf ha, t', h, g => by
    obtain ⟨cs, rfl, h1, g1⟩ := shape_node h g
    obtain ⟨c, cs', rfl, h2, g2, h3, g3⟩ := go_cons h1 g1
    obtain ⟨x, rfl, h4, g4⟩ := one h3 g3
    obtain ⟨u, rfl⟩ := back_app hf _ h2 g2
    obtain ⟨v, rfl⟩ := back_atom ha _ h4 g4
    exact ⟨.apply u v, by rw [SEx.tree]⟩
theorem back_op : ∀ {p t}, Grammar.Op p t → ExBack t
  | _, _, .app h, t', h', g => back_app h t' h' g
  | _, _, .bin (o := o) hl _ ha hb, t', h, g => by
    obtain ⟨cs, rfl, h1, g1⟩ := shape_node h g
    obtain ⟨x, y, z, rfl, ⟨h2, g2⟩, ⟨h3, g3⟩, ⟨h4, g4⟩⟩ := three h1 g1
    obtain ⟨ds, rfl, h5, g5⟩ := shape_node h3 g3
    obtain ⟨w, rfl, h6, g6⟩ := one h5 g5
    obtain ⟨u, rfl⟩ := back_op ha _ h2 g2
    obtain ⟨v, rfl⟩ := back_op hb _ h4 g4
    exact ⟨.binary o u v, by rw [shape_kw h6 g6 (level_carries hl), SEx.tree]⟩
theorem back_case : ∀ {t}, Grammar.Case t → CaseBack t
  | _, .mk hp he, t', h, g => by
    obtain ⟨cs, rfl, h1, g1⟩ := shape_node h g
    obtain ⟨c, cs', rfl, h2, g2, h3, g3⟩ := go_cons h1 g1
    obtain ⟨a, b, rfl, e1, e2, e3, e4⟩ := go_append h3 g3
    obtain ⟨x, y, z, rfl, ⟨h5, g5⟩, ⟨h6, g6⟩, ⟨h7, g7⟩⟩ := three e3 e4
    obtain ⟨ns, n, rfl⟩ := back_path hp e1 e2
    obtain ⟨ds, rfl, h8, g8⟩ := shape_node h5 g5
    obtain ⟨vs, rfl, -⟩ := back_nms h8 g8
    obtain ⟨u, rfl⟩ := back_ex he _ h7 g7
    exact ⟨.mk ns n vs u, by rw [shape_kw h2 g2 rfl, shape_kw h6 g6 rfl, SCase.tree]; rfl⟩
theorem back_ex : ∀ {t}, Grammar.Ex t → ExBack t
  | _, .op h, t', h', g => back_op h t' h' g
  | _, .let_ ha hv hr, t', h, g => by
    obtain ⟨cs, rfl, h1, g1⟩ := shape_node h g
    simp only [List.append_assoc, List.cons_append, List.nil_append] at h1
    obtain ⟨c, cs', rfl, h2, g2, h3, g3⟩ := go_cons h1 g1
    obtain ⟨c, cs', rfl, h4, g4, h5, g5⟩ := go_cons h3 g3
    obtain ⟨a, b, rfl, e1, e2, e3, e4⟩ := go_append h5 g5
    obtain ⟨c, cs', rfl, h6, g6, h7, g7⟩ := go_cons e3 e4
    obtain ⟨x, y, z, rfl, ⟨h8, g8⟩, ⟨h9, g9⟩, ⟨h10, g10⟩⟩ := three h7 g7
    obtain ⟨n, rfl⟩ := back_nm h4 g4
    obtain ⟨t, rfl⟩ := back_ann ha e1 e2
    obtain ⟨u, rfl⟩ := back_ex hv _ h8 g8
    obtain ⟨v, rfl⟩ := back_ex hr _ h10 g10
    exact ⟨.let_ n t u v, by rw [shape_kw h2 g2 rfl, shape_kw h6 g6 rfl, shape_kw h9 g9 rfl, SEx.tree]; simp⟩
  | _, .match_ hd hc, t', h, g => by
    obtain ⟨cs, rfl, h1, g1⟩ := shape_node h g
    simp only [List.append_assoc, List.cons_append, List.nil_append] at h1
    obtain ⟨c, cs', rfl, h2, g2, h3, g3⟩ := go_cons h1 g1
    obtain ⟨c, cs', rfl, h4, g4, h5, g5⟩ := go_cons h3 g3
    obtain ⟨c, cs', rfl, h6, g6, h7, g7⟩ := go_cons h5 g5
    obtain ⟨a, b, rfl, e1, e2, e3, e4⟩ := go_append h7 g7
    obtain ⟨x, rfl, h8, g8⟩ := one e3 e4
    obtain ⟨u, rfl⟩ := back_ex hd _ h4 g4
    obtain ⟨xs, rfl⟩ := back_list (f := SCase.tree) (G := CaseBack) (fun _ h => h) (fun c h => back_case (hc c h)) e1 e2
    exact ⟨.match_ u xs, by rw [shape_kw h2 g2 rfl, shape_kw h6 g6 rfl, shape_kw h8 g8 rfl, SEx.tree, caseTrees_map]; simp⟩
  | _, .if_ ha hb hc, t', h, g => by
    obtain ⟨cs, rfl, h1, g1⟩ := shape_node h g
    obtain ⟨c, cs', rfl, h2, g2, h3, g3⟩ := go_cons h1 g1
    obtain ⟨c, cs', rfl, h4, g4, h5, g5⟩ := go_cons h3 g3
    obtain ⟨c, cs', rfl, h6, g6, h7, g7⟩ := go_cons h5 g5
    obtain ⟨x, y, z, rfl, ⟨h8, g8⟩, ⟨h9, g9⟩, ⟨h10, g10⟩⟩ := three h7 g7
    obtain ⟨u, rfl⟩ := back_ex ha _ h4 g4
    obtain ⟨v, rfl⟩ := back_ex hb _ h8 g8
    obtain ⟨w, rfl⟩ := back_ex hc _ h10 g10
    exact ⟨.if_ u v w, by rw [shape_kw h2 g2 rfl, shape_kw h6 g6 rfl, shape_kw h9 g9 rfl, SEx.tree]⟩
  | _, .lam he, t', h, g => by
    obtain ⟨cs, rfl, h1, g1⟩ := shape_node h g
    obtain ⟨c, cs', rfl, h2, g2, h3, g3⟩ := go_cons h1 g1
    obtain ⟨x, y, z, rfl, ⟨h8, g8⟩, ⟨h9, g9⟩, ⟨h10, g10⟩⟩ := three h3 g3
    obtain ⟨n, rfl⟩ := back_nm h8 g8
    obtain ⟨u, rfl⟩ := back_ex he _ h10 g10
    exact ⟨.lambda false n u, by rw [shape_kw h2 g2 rfl, shape_kw h9 g9 rfl, SEx.tree]; simp [optT]⟩
  | _, .lamFold he, t', h, g => by
    obtain ⟨cs, rfl, h1, g1⟩ := shape_node h g
    obtain ⟨c, cs', rfl, h2, g2, h3, g3⟩ := go_cons h1 g1
    obtain ⟨c, cs', rfl, h4, g4, h5, g5⟩ := go_cons h3 g3
    obtain ⟨x, y, z, rfl, ⟨h8, g8⟩, ⟨h9, g9⟩, ⟨h10, g10⟩⟩ := three h5 g5
    obtain ⟨n, rfl⟩ := back_nm h8 g8
    obtain ⟨u, rfl⟩ := back_ex he _ h10 g10
    exact ⟨.lambda true n u, by rw [shape_kw h2 g2 rfl, shape_kw h4 g4 rfl, shape_kw h9 g9 rfl, SEx.tree]; simp [optT]⟩
end

theorem back_field {t} (hf : Grammar.Field t) {t' : TSyn} (h : t'.shape = t) (g : Tagged t') : ∃ x : SField, t' = x.tree := by
  cases hf with
  | rec_ =>
    obtain ⟨cs, rfl, h1, g1⟩ := shape_node h g
    obtain ⟨x, rfl, h2, g2⟩ := one h1 g1
    exact ⟨.rec_, by rw [shape_kw h2 g2 rfl]; rfl⟩
  | ty ht =>
    obtain ⟨cs, rfl, h1, g1⟩ := shape_node h g
    obtain ⟨x, rfl, h2, g2⟩ := one h1 g1
    obtain ⟨u, rfl⟩ := back_atomTy ht _ h2 g2
    exact ⟨.type u, rfl⟩

theorem back_ctor {l cs} (hc : Grammar.Ctor l) (h : TSyn.shape.go cs = l) (g : ∀ c ∈ cs, Tagged c) : ∃ k : SCtor, cs = nmT k.name :: k.fields.map SField.tree := by
  cases hc with
  | mk hf =>
    obtain ⟨c, cs', rfl, h2, g2, h3, g3⟩ := go_cons h g
    obtain ⟨n, rfl⟩ := back_nm h2 g2
    obtain ⟨fs, rfl⟩ := back_list (f := SField.tree) (G := Grammar.Field) (fun _ h t' h' g' => back_field h h' g') hf h3 g3
    exact ⟨⟨n, fs⟩, rfl⟩

theorem back_names : ∀ {l cs}, Grammar.Names l → TSyn.shape.go cs = l → (∀ c ∈ cs, Tagged c) → ∃ ns b, cs = commaT ns b
  | _, cs, .none, h, _ => ⟨[], false, go_nil h⟩
  | _, cs, .last, h, g => by
    obtain ⟨x, rfl, h2, g2⟩ := one h g
    obtain ⟨n, rfl⟩ := back_nm h2 g2
    exact ⟨[n], false, rfl⟩
  | _, cs, .more hn, h, g => by
    obtain ⟨c, cs', rfl, h2, g2, h3, g3⟩ := go_cons h g
    obtain ⟨c, cs', rfl, h4, g4, h5, g5⟩ := go_cons h3 g3
    obtain ⟨n, rfl⟩ := back_nm h2 g2
    cases shape_kw h4 g4 rfl
    cases hn with
    | none => cases go_nil h5; exact ⟨[n], true, rfl⟩
    | last =>
      obtain ⟨ns, b, rfl⟩ := back_names .last h5 g5
      cases ns with
      | nil => cases b <;> simp [commaT, optT, TSyn.shape.go, kw, TSyn.shape, nm] at h5
      | cons m ns => exact ⟨n :: m :: ns, b, rfl⟩
    | more hn =>
      obtain ⟨ns, b, rfl⟩ := back_names (.more hn) h5 g5
      cases ns with
      | nil => cases b <;> simp [commaT, optT, TSyn.shape.go, kw, TSyn.shape, nm] at h5
      | cons m ns => exact ⟨n :: m :: ns, b, rfl⟩

/-- Every tree of an item is how some item is written. -/
theorem back_item {t} (hi : Grammar.Item t) {t' : TSyn} (h : t'.shape = t) (g : Tagged t') : ∃ i : SItem, t' = i.tree := by
  cases hi with
  | import_ hn hl =>
    obtain ⟨cs, rfl, h1, g1⟩ := shape_node h g
    simp only [List.append_assoc, List.cons_append, List.nil_append] at h1
    obtain ⟨c, cs', rfl, h2, g2, h3, g3⟩ := go_cons h1 g1
    obtain ⟨a, b, rfl, e1, e2, e3, e4⟩ := go_append h3 g3
    obtain ⟨b, d, rfl, f1, f2, f3, f4⟩ := go_append e3 e4
    obtain ⟨x, y, z, rfl, ⟨h8, g8⟩, ⟨h9, g9⟩, ⟨h10, g10⟩⟩ := three f3 f4
    obtain ⟨p, rfl⟩ := shape_text h9 g9 rfl
    rw [shape_kw h2 g2 rfl, shape_kw h8 g8 rfl, shape_kw h10 g10 rfl]
    have q1 : ∃ n : Option Text, a = n.toList.map nmT := by
      rcases hn with rfl | rfl
      · exact ⟨none, go_nil e1⟩
      · obtain ⟨x, rfl, h2, g2⟩ := one e1 e2
        obtain ⟨n, rfl⟩ := back_nm h2 g2
        exact ⟨some n, rfl⟩
    have q2 : ∃ (l : Option (List Text)) (c : Bool), b = l.toList.map fun ns => .node .exposedList (kw .leftParen :: commaT ns c ++ [kw .rightParen]) := by
      rcases hl with rfl | ⟨ns, hns, rfl⟩
      · exact ⟨none, false, go_nil f1⟩
      · obtain ⟨x, rfl, h2, g2⟩ := one f1 f2
        obtain ⟨ds, rfl, h3, g3⟩ := shape_node h2 g2
        obtain ⟨c, cs', rfl, h4, g4, h5, g5⟩ := go_cons h3 g3
        obtain ⟨a, b, rfl, e1, e2, e3, e4⟩ := go_append h5 g5
        obtain ⟨x, rfl, h6, g6⟩ := one e3 e4
        obtain ⟨ns, b, rfl⟩ := back_names hns e1 e2
        exact ⟨some ns, b, by rw [shape_kw h4 g4 rfl, shape_kw h6 g6 rfl]; rfl⟩
    obtain ⟨n, rfl⟩ := q1
    obtain ⟨l, c, rfl⟩ := q2
    exact ⟨.import_ n l c p, by simp [SItem.tree]⟩
  | value hx ha he =>
    obtain ⟨cs, rfl, h1, g1⟩ := shape_node h g
    simp only [List.append_assoc, List.cons_append, List.nil_append] at h1
    obtain ⟨a, b, rfl, e1, e2, e3, e4⟩ := go_append h1 g1
    obtain ⟨c, cs', rfl, h2, g2, h3, g3⟩ := go_cons e3 e4
    obtain ⟨c, cs', rfl, h4, g4, h5, g5⟩ := go_cons h3 g3
    obtain ⟨d, f, rfl, f1, f2, f3, f4⟩ := go_append h5 g5
    obtain ⟨x, y, z, rfl, ⟨h8, g8⟩, ⟨h9, g9⟩, ⟨h10, g10⟩⟩ := three f3 f4
    obtain ⟨ex, rfl⟩ := back_opt hx rfl e1 e2
    obtain ⟨n, rfl⟩ := back_nm h4 g4
    obtain ⟨t, rfl⟩ := back_ann ha f1 f2
    obtain ⟨u, rfl⟩ := back_ex he _ h9 g9
    exact ⟨.value ex n t u, by rw [shape_kw h2 g2 rfl, shape_kw h8 g8 rfl, shape_kw h10 g10 rfl, SItem.tree]; simp⟩
  | type hx hp hxc hb hc hcs =>
    obtain ⟨cs, rfl, h1, g1⟩ := shape_node h g
    simp only [List.append_assoc, List.cons_append, List.nil_append] at h1
    obtain ⟨a, b, rfl, e1, e2, e3, e4⟩ := go_append h1 g1
    obtain ⟨c, cs', rfl, h2, g2, h3, g3⟩ := go_cons e3 e4
    obtain ⟨c, cs', rfl, h4, g4, h5, g5⟩ := go_cons h3 g3
    obtain ⟨ps, f, rfl, f1, f2, f3, f4⟩ := go_append h5 g5
    obtain ⟨c, cs', rfl, h6, g6, h7, g7⟩ := go_cons f3 f4
    obtain ⟨xc, f, rfl, j1, j2, j3, j4⟩ := go_append h7 g7
    obtain ⟨c, cs', rfl, h8, g8, h9, g9⟩ := go_cons j3 j4
    obtain ⟨ks, f, rfl, k1, k2, k3, k4⟩ := go_append h9 g9
    obtain ⟨x, rfl, h10, g10⟩ := one k3 k4
    obtain ⟨ex, rfl⟩ := back_opt hx rfl e1 e2
    obtain ⟨exc, rfl⟩ := back_opt hxc rfl j1 j2
    obtain ⟨n, rfl⟩ := back_nm h4 g4
    obtain ⟨ds, rfl, h11, g11⟩ := shape_node h8 g8
    obtain ⟨p, q, rfl, m1, m2, m3, m4⟩ := go_append h11 g11
    obtain ⟨bar, rfl⟩ := back_opt hb rfl m1 m2
    obtain ⟨k, rfl⟩ := back_ctor hc m3 m4
    have q1 : ∃ ns : List Text, ps = if ns = [] then [] else [.node .typeParams (ns.map nmT)] := by
      cases hp with
      | none => exact ⟨[], by rw [go_nil f1]; rfl⟩
      | some =>
        obtain ⟨x, rfl, h2, g2⟩ := one f1 f2
        obtain ⟨ds, rfl, h3, g3⟩ := shape_node h2 g2
        obtain ⟨ns, rfl, e⟩ := back_nms h3 g3
        refine ⟨ns, ?_⟩
        rw [if_neg (by rintro rfl; simp at e)]
    have q2 : ∃ l : List SCtor, ks = l.map (·.tree true) := by
      refine back_list (f := fun k : SCtor => k.tree true) (G := fun d => ∃ f, Grammar.Ctor f ∧ d = .node .typeCase (.tok .pipe :: f)) ?_ hcs k1 k2
      rintro _ ⟨f, hf, rfl⟩ t' h g
      obtain ⟨ds, rfl, h3, g3⟩ := shape_node h g
      obtain ⟨c, cs', rfl, h4, g4, h5, g5⟩ := go_cons h3 g3
      obtain ⟨k, rfl⟩ := back_ctor hf h5 g5
      exact ⟨k, by rw [shape_kw h4 g4 rfl]; rfl⟩
    obtain ⟨ns, rfl⟩ := q1
    obtain ⟨l, rfl⟩ := q2
    exact ⟨.type ex n ns exc bar k l, by rw [shape_kw h2 g2 rfl, shape_kw h6 g6 rfl, shape_kw h10 g10 rfl, SItem.tree, SCtor.tree]; simp⟩

end Tic.Lower
