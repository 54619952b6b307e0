import Verif.VerItems
/-
Verifying generated programs: value items.
-/
namespace Tic.Front
open Tic.Unify (Symbol IrTy)
open Tic.Core

theorem Below.le {g g' : Gen} {st : VSt} (h : Below g st) (l : Le g g') : Below g' st :=
  ⟨fun n hn => Nat.lt_of_lt_of_le (h.names n hn) l.names, fun a ha => Nat.lt_of_lt_of_le (h.tys a ha) l.tys, h.kinds, h.ctors, h.top⟩

/-- What is generated for the next item is still free when the verifier gets to it. -/
theorem DInv.room {w : World} {L : Nat} {g g' : Gen} {st stT std : VSt} (hb : Below g st) (hB : Beyond g' st stT) (hD : DInv w g stT std) (hL : g'.names ≤ L) : Room L g g' std := by
  refine ⟨hL, fun n h1 h2 hn => ?_, fun a h1 h2 ha => ?_⟩
  · rcases hD.names n hn with hn | hn
    · rcases hB.names n hn with hn | hn
      · exact Nat.not_le_of_lt (hb.names n hn) h1
      · exact Nat.not_le_of_lt h2 hn
    · exact Nat.not_le_of_lt hn h1
  · rcases hD.tys a ha with ha | ha
    · rcases hB.tys a ha with ha | ha
      · exact Nat.not_le_of_lt (hb.tys a ha) h1
      · exact Nat.not_le_of_lt h2 ha
    · exact Nat.not_le_of_lt ha h1

theorem value_vstep {I : Symbol → Option Builtin} {ee : Bool} {L : Nat} {w : World} {g g' : Gen} {s : Symbol} {ex : Option String} {sch : Scheme} {body : Ex IrTy} (h : Inv w g)
    (hv : ValueOK I w s sch body) (hI : ∀ b, I s = some b → b ≠ .iterate → sch.vars = []) (hgen : genValueItem I ee g s ex sch body = some g')
    (h' : Inv (w.item I (.value s ex sch body)) g') : VStep L w (w.item I (.value s ex sch body)) g g' := by
  obtain ⟨hnd, hnu⟩ := hv.new
  have hnd' := List.nodup_cons.mp hnd
  obtain ⟨nd1, nd2, nd3⟩ := List.nodup_append.mp hnd'.2
  obtain ⟨ty, tvs, g4, c, h1, h2, h3, rfl⟩ := genValueItem_inv hgen
  obtain ⟨e34, l34⟩ := genItemValue_ext h3
  have e01 := ext_genName g s
  have l01 := le_genName g s
  have hn1 : (g.genName s).1.names = g.names + 1 := rfl
  have ht1 : (g.genName s).1.tys = g.tys := rfl
  have hs1 : (g.genName s).1.symNames s = some g.names := setAt_eq
  generalize (g.genName s).1 = g1 at *
  have e12 := ext_freshInst sch.vars g1
  have l12 := le_freshInst sch.vars g1
  have fv := freshInst_vars (g := g1) nd1
  generalize hg2 : g1.freshInst sch.vars = g2 at *
  have e23 := ext_freshInst sch.vars g2
  have l23 := le_freshInst sch.vars g2
  have e24 := e23.trans e34
  have l24 := l23.trans l34
  have e14 := e12.trans e24
  have l02 := l01.trans l12
  have l04 := l02.trans l24
  have none_of : ∀ x ∈ s :: (sch.vars ++ binderSyms body), w.ctx.find x = none ∧ declOf w.decls x = none := by
    intro x hx
    refine ⟨?_, (h.away hnu).none x hx⟩
    cases hf : w.ctx.find x with
    | none => rfl
    | some sc => exact absurd (h.ctx x sc hf).1 (hnu x hx)
  have ev : ∀ b ∈ [s] ++ sch.vars, w.ctx.find b = none ∧ declOf w.decls b = none ∧ b ∉ ([] : List Symbol) := by
    intro b hb
    obtain ⟨a1, a2⟩ := none_of b (by simp only [List.cons_append, List.nil_append, List.mem_cons, List.mem_append] at hb ⊢; grind)
    exact ⟨a1, a2, by simp⟩
  have ev2 : ∀ b ∈ sch.vars ++ binderSyms body, w.ctx.find b = none ∧ declOf w.decls b = none ∧ b ∉ ([] : List Symbol) := by
    intro b hb
    obtain ⟨a1, a2⟩ := none_of b (by simp [List.mem_append.mp hb])
    exact ⟨a1, a2, by simp⟩
  have hsv : s ∉ sch.vars := fun hm => hnd'.1 (by simp [hm])
  have hsb : s ∉ binderSyms body := fun hm => hnd'.1 (by simp [hm])
  have hs4 : g4.symNames s = some g.names := by
    rw [e24.sym s (by simp [hsv, hsb]), e12.sym s hsv]
    exact hs1
  have e04 := (e01.trans e12).trans e24
  have off04 : ∀ b ∈ ([s] ++ sch.vars) ++ (sch.vars ++ binderSyms body), declOf w.decls b = none ∧ b ∉ ([] : List Symbol) := by
    intro b hb
    rcases List.mem_append.mp hb with hb | hb
    · exact (ev b hb).2
    · exact (ev2 b hb).2
  refine ⟨⟨l04.names, l04.tys⟩, fun hL => ⟨[], [⟨g.names, if ee then ex else none, absTys tvs ty, c⟩], by simp [e04.types], by simp [e04.defs], fun st hT => ?_⟩⟩
  have hgen' : GenOK w.decls { g4 with defs := g4.defs ++ [⟨g.names, if ee then ex else none, absTys tvs ty, c⟩] } := h'.gen.ok
  have old : Older w.decls [] g { g4 with defs := g4.defs ++ [⟨g.names, if ee then ex else none, absTys tvs ty, c⟩] } := by
    obtain ⟨o1, o2⟩ := Older.ext hT.scope.gen (vs := []) (by simp) e04 off04
    exact ⟨o1, o2⟩
  refine ⟨st, rfl, ⟨hT.scope.shift old hgen' (fun _ _ _ c _ => by show g4.ctors _ = _; rw [e04.ctors]) (.refl st) hT.scope.pre, hT.below.le ⟨l04.names, l04.tys⟩⟩, .refl st, fun _ hx => hx, .same, fun stT hB std hD => ?_⟩
  have rm : Room L g g4 std := by
    obtain ⟨a1, a2, a3⟩ := hD.room hT.below hB hL
    exact ⟨a1, a2, a3⟩
  -- the type
  have etv : tvs = List.range' g1.tys sch.vars.length := by
    rw [fv.1] at h2
    exact (Option.some.inj h2).symm
  have fr : ∀ x ∈ List.range' g1.tys sch.vars.length, x ∉ std.definedTy := by
    intro x hx
    rw [List.mem_range'_1] at hx
    refine rm.tys x (by rw [← ht1]; exact hx.1) (Nat.lt_of_lt_of_le hx.2 ?_)
    rw [← fv.2]
    exact l24.tys
  have sc1 := hD.scope.move e01 (fun b hb => ev b (by simp at hb ⊢; exact .inl hb)) (.refl std) hD.scope.pre
  have sc2 := sc1.types nd1 (fun x hx => ev x (by simp [hx])) fr
  rw [hg2, List.append_nil] at sc2
  have wf' : WfTy w.decls sch.vars sch.ty := hv.wf
  obtain ⟨std1, d1, d2, d3, d4, d5, d6⟩ := def_ty (T := ty) List.nodup_range' fr hD.scope.pre (checkTy_gen sc2 wf' h1)
  rw [← etv] at d1 d6
  have u01 : Used g g2 std std1 := by
    refine ⟨fun n hn => .inl (d4 ▸ hn), fun a ha => ?_⟩
    rcases (d6 a).mp ha with ha | ha
    · rw [etv, List.mem_range'_1] at ha
      exact .inr ⟨by rw [← ht1]; exact ha.1, by rw [fv.2]; exact ha.2⟩
    · exact .inl ha
  -- the value
  have rm2 : Room L g2 g4 std1 := rm.right l02 u01
  have sc3 : VScope w.decls [] w.ctx g2 std1 := hD.scope.move (e01.trans e12) ev d2 d3
  obtain ⟨T, vs, hh, std2, c1, c2, c3, c4, c5, c6, c7⟩ := check_itemValue hv hI sc3 (fun x hx => none_of x (by simp [List.mem_append.mp hx])) h3 rm2
  have ch := (checkExpr_chk d3 c1).1
  have hname : g.names ∉ std2.defined := by
    intro hm
    rcases c7.names _ hm with hm | hm
    · exact rm.names _ (Nat.le_refl _) (Nat.lt_of_lt_of_le (by rw [hn1]; exact Nat.lt_succ_self _) (l12.trans l24).names) (d4 ▸ hm)
    · exact absurd (Nat.le_trans l12.names hm.1) (by rw [hn1]; exact Nat.not_succ_le_self _)
  have hfit := fits_scheme (c5.symm0) c2 h2 hv.plain wf' c3 h1
  have hlt : g.names < g4.names := Nat.lt_of_lt_of_le (by rw [hn1]; exact Nat.lt_succ_self _) (l12.trans l24).names
  have mv : SMove std std2 := d2.trans (fun x hx => d4 ▸ hx) ch.move
  have sub : ∀ x ∈ std.defined, x ∈ std2.defined := fun x hx => ch.sub (d4 ▸ hx)
  have used : Used g g4 std std2 := u01.trans l02 l24 c7
  refine ⟨std2.bind g.names (absTys vs T), ?_, ?_, ?_, ?_, ?_, ?_, ?_⟩
  · rw [checkDefs_one (T := absTys vs T) (st2 := std2) d1 c1 hfit (Nat.lt_of_lt_of_le hlt hL) hname]
    rfl
  · have sc4 : VScope w.decls [] w.ctx { g4 with defs := g4.defs ++ [⟨g.names, if ee then ex else none, absTys tvs ty, c⟩] } std2 :=
      hD.scope.shiftC old hgen' (fun _ _ _ c _ => by show g4.ctors _ = _; rw [e04.ctors]) (fun x sc hx => by
        show g4.symNames x = _
        refine e04.sym x fun hm => ?_
        rcases List.mem_append.mp hm with hm | hm
        · rw [(ev x hm).1] at hx; cases hx
        · rw [(ev2 x hm).1] at hx; cases hx) mv (ch.pre d3)
    have top2 : std2.inScopeTy = [] := by rw [ch.inScopeTy, d5]; exact hD.top
    refine sc4.bind hs4 hname ⟨w.decls, [], hh, vs, T, ⟨fun _ _ h => h, by simp, ?_, fun x hx => ⟨by simp, (ev x (by simp [hx])).2.1⟩, c2, c4, fun x hx => ⟨c6 x hx, by rw [top2]; simp⟩⟩, ?_, c3, rfl, .inr hv.plain⟩
    · obtain ⟨o1, o2⟩ := Older.ext sc3.gen (vs := []) (by simp) e24 fun b hb => (ev2 b hb).2
      exact c5.symm0.trans ⟨o1, o2⟩
    · rw [List.append_nil]; exact wf'
  · exact hD.move.trans hD.sub (mv.trans sub (bind_move hname))
  · exact fun x hx => List.mem_cons_of_mem _ (sub x (hD.sub x hx))
  · intro n hn
    simp only [VSt.bind, List.mem_cons] at hn
    rcases hn with rfl | hn
    · exact .inr hlt
    · rcases used.names n hn with hn | hn
      · exact (hD.names n hn).imp_right fun h => Nat.lt_of_lt_of_le h l04.names
      · exact .inr hn.2
  · intro a ha
    rcases used.tys a ha with ha | ha
    · exact (hD.tys a ha).imp_right fun h => Nat.lt_of_lt_of_le h l04.tys
    · exact .inr ha.2
  · show std2.inScopeTy = []
    rw [ch.inScopeTy, d5]; exact hD.top

end Tic.Front
