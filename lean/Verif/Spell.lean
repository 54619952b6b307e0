/-
What a name refers to is spelled like the name.
-/
import Verif.ApiProof

namespace Tic.Spell

open Tic.Resolve
open Tic.Api (Src)

/-! ### The names in syntax -/

mutual
/-- All names in a type. -/
def namesTy : Ty → List Name
  | .fn a b => namesTy a ++ namesTy b
  | .named ns name args => ns.toList ++ (name.toList ++ namesTys args)
  | .paren t => namesTy t
  | _ => []
def namesTys : Tys → List Name
  | .nil => []
  | .cons t ts => namesTy t ++ namesTys ts
end

def namesAnn : Option Ty → List Name
  | some t => namesTy t
  | none => []

mutual
/-- All names in an expression. -/
def namesExpr : Expr → List Name
  | .name n => n.toList
  | .nsName ns n => ns.toList ++ n.toList
  | .apply f a => namesExpr f ++ namesExpr a
  | .binary f a => namesExpr f ++ namesExpr a
  | .letE n ty v r => n.toList ++ (namesAnn ty ++ (namesExpr v ++ namesExpr r))
  | .matchE d cs => namesExpr d ++ namesCases cs
  | .ifE c t e => namesExpr c ++ (namesExpr t ++ namesExpr e)
  | .lambda n b => n.toList ++ namesExpr b
  | .paren e => namesExpr e
  | _ => []
def namesCases : Cases → List Name
  | .nil => []
  | .cons ns ctor vars body rest => ns.toList ++ (ctor.toList ++ (vars ++ (namesExpr body ++ namesCases rest)))
end

def namesField : FieldSyntax → List Name
  | .recur => []
  | .type t => namesTy t

/-- All names in an item. -/
def namesItem : Item → List Name
  | .importI _ _ name exposed => name.toList ++ exposed
  | .typeI _ _ _ name params cases => name.toList ++ (params ++ cases.flatMap fun c => c.name.toList ++ c.fields.flatMap namesField)
  | .valueI _ name ty v => name.toList ++ (namesAnn ty ++ namesExpr v)

/-! ### Spelling is kept -/

section
-- `P t x`: the target `t` is spelled `x`.
variable (P : Target → String → Prop)

/-- The name itself is spelled as it says. -/
def OK (n : Name) : Prop := P (.here n.node) n.text

/-- In scope under the names they are spelled with. -/
structure EnvOK (env : Env) : Prop where
  sym : ∀ ns x t, .sym ns x t ∈ env → P t x
  mod : ∀ x ex, .mod x ex ∈ env → ∀ e ∈ ex, P e.sym e.text

/-- A use and what it refers to are spelled the same; and so are a definition, its name and what it brings in. -/
structure OutOK (o : SOut) : Prop where
  refs : ∀ r ∈ o.refs, ∃ x, P r.1 x ∧ P (.here r.2) x
  defs : ∀ d ∈ o.defs, ((d.hasName = true → P d.sym d.text ∧ P (.here d.node) d.text) ∧ (d.hasName = false → d.sym = .here d.node)) ∧ ∀ e ∈ d.unit, P e.sym e.text

variable {P}

theorem OutOK.nil : OutOK P {} := ⟨(by intro r h; cases h), (by intro r h; cases h)⟩
theorem OutOK.append {a b : SOut} (ha : OutOK P a) (hb : OutOK P b) : OutOK P (a ++ b) := by
  refine ⟨fun r hr => ?_, fun d hd => ?_⟩
  · exact (List.mem_append.1 hr).elim (ha.refs r) (hb.refs r)
  · exact (List.mem_append.1 hd).elim (ha.defs d) (hb.defs d)
theorem OutOK.err (k n) : OutOK P (oErr k n) := ⟨(by intro r h; cases h), (by intro r h; cases h)⟩
theorem OutOK.ref {t m x} (h : P t x) (h' : P (.here m) x) : OutOK P (oRef t m) :=
  ⟨(by intro r hr; rw [List.mem_singleton.1 hr]; exact ⟨x, h, h'⟩), (by intro r h; cases h)⟩
theorem OutOK.def_ {n : Name} (h : OK P n) (k v) : OutOK P (oDef n k v) :=
  ⟨(by intro r h; cases h), (by intro d hd; rw [List.mem_singleton.1 hd]; exact ⟨⟨fun _ => ⟨h, h⟩, nofun⟩, (by intro e he; cases he)⟩)⟩

theorem EnvOK.cons_sym {env : Env} (h : EnvOK P env) {ns x t} (ht : P t x) : EnvOK P (.sym ns x t :: env) := by
  refine ⟨fun ns' x' t' hm => ?_, fun x' ex hm => ?_⟩
  · rcases List.mem_cons.1 hm with e | hm
    · cases e; exact ht
    · exact h.sym _ _ _ hm
  · rcases List.mem_cons.1 hm with e | hm
    · cases e
    · exact h.mod _ _ hm
theorem EnvOK.value {env : Env} (h : EnvOK P env) {n : Name} (hn : OK P n) : EnvOK P (env.value n) := h.cons_sym hn

theorem EnvOK.values {ns : List Name} : ∀ {env : Env}, EnvOK P env → (∀ n ∈ ns, OK P n) → EnvOK P (env.values ns) := by
  induction ns with
  | nil => intro env h _; exact h
  | cons n ns ih => intro env h hn; exact ih (h.value (hn n (by simp))) fun n hm => hn n (by simp [hm])
theorem EnvOK.params {ns : List Name} : ∀ {env : Env}, EnvOK P env → (∀ n ∈ ns, OK P n) → EnvOK P (env.params ns) := by
  induction ns with
  | nil => intro env h _; exact h
  | cons n ns ih => intro env h hn; exact ih (h.cons_sym (hn n (by simp))) fun n hm => hn n (by simp [hm])

theorem find_ok : ∀ {env : Env} {ns x t}, EnvOK P env → env.find ns x = some t → P t x
  | .sym ns' y t' :: r, ns, x, t, h, hf => by
    rw [Env.find] at hf
    split at hf
    · rename_i hc
      cases hf
      rw [← hc.2]
      exact h.sym ns' y t' (by simp)
    · exact find_ok ⟨fun a b c hm => h.sym a b c (List.mem_cons_of_mem _ hm), fun a b hm => h.mod a b (List.mem_cons_of_mem _ hm)⟩ hf
  | .mod _ _ :: r, ns, x, t, h, hf => by
    rw [Env.find] at hf
    exact find_ok ⟨fun a b c hm => h.sym a b c (List.mem_cons_of_mem _ hm), fun a b hm => h.mod a b (List.mem_cons_of_mem _ hm)⟩ hf

theorem findMod_ok : ∀ {env : Env} {x ex}, EnvOK P env → env.findMod x = some ex → ∀ e ∈ ex, P e.sym e.text
  | .sym _ _ _ :: r, x, ex, h, hf => by
    rw [Env.findMod] at hf
    exact findMod_ok ⟨fun a b c hm => h.sym a b c (List.mem_cons_of_mem _ hm), fun a b hm => h.mod a b (List.mem_cons_of_mem _ hm)⟩ hf
  | .mod y ex' :: r, x, ex, h, hf => by
    rw [Env.findMod] at hf
    split at hf
    · cases hf
      exact h.mod y ex' (by simp)
    · exact findMod_ok ⟨fun a b c hm => h.sym a b c (List.mem_cons_of_mem _ hm), fun a b hm => h.mod a b (List.mem_cons_of_mem _ hm)⟩ hf

theorem getExport_ok {S : Type} {ns : NS} {x : String} : ∀ {u : List (Export S)} {e}, getExport ns x u = some e → e ∈ u ∧ e.text = x
  | a :: u, e, h => by
    rw [getExport] at h
    split at h
    · rename_i hc
      cases h
      exact ⟨by simp, hc.2⟩
    · obtain ⟨h1, h2⟩ := getExport_ok h
      exact ⟨List.mem_cons_of_mem _ h1, h2⟩

theorem useName_ok {env : Env} (h : EnvOK P env) {ns u n} (hn : OK P n) : OutOK P (useName ns u env n).2 := by
  unfold useName
  split
  · rename_i t ht; exact .ref (find_ok h ht) hn
  · exact .err ..

theorem useNs_ok {env : Env} (h : EnvOK P env) {w m n} (hn : OK P n) : OutOK P (useNs w env m n).2 := by
  unfold useNs
  split
  · exact .err ..
  · rename_i ex hex
    cases hf : findExport ex w n.text with
    | noExport => exact .err ..
    | wrongNamespace => exact .err ..
    | ok e =>
      obtain ⟨h1, h2⟩ := getExport_ok ((getExport_of_find _ _ _ _).1 hf)
      have := findMod_ok h hex e h1
      rw [h2] at this
      exact .ref this hn

mutual
theorem specTy_ok {env : Env} (h : EnvOK P env) : ∀ t, (∀ n ∈ namesTy t, OK P n) → OutOK P (specTy env t).2
  | .int, _ => by simp only [specTy]; exact .nil
  | .bool, _ => by simp only [specTy]; exact .nil
  | .string, _ => by simp only [specTy]; exact .nil
  | .missing, _ => by simp only [specTy]; exact .nil
  | .paren t, hn => by simp only [specTy]; exact specTy_ok h t hn
  | .fn a b, hn => by
    simp only [specTy]
    exact (specTy_ok h a fun n hm => hn n (by simp [namesTy, hm])).append (specTy_ok h b fun n hm => hn n (by simp [namesTy, hm]))
  | .named ns name args, hn => by
    simp only [specTy]
    refine .append ?_ (specTys_ok h args fun n hm => hn n (by simp [namesTy, hm]))
    match ns, name with
    | some ns, some n => exact useNs_ok h (hn n (by simp [namesTy]))
    | none, some n => exact useName_ok h (hn n (by simp [namesTy]))
    | some _, none => exact .nil
    | none, none => exact .nil
theorem specTys_ok {env : Env} (h : EnvOK P env) : ∀ t, (∀ n ∈ namesTys t, OK P n) → OutOK P (specTys env t).2
  | .nil, _ => by simp only [specTys]; exact .nil
  | .cons t ts, hn => by
    simp only [specTys]
    exact (specTy_ok h t fun n hm => hn n (by simp [namesTys, hm])).append (specTys_ok h ts fun n hm => hn n (by simp [namesTys, hm]))
end

theorem useTyVar_ok {env : Env} (h : EnvOK P env) {n : Name} (hn : OK P n) (b : Bool) :
    EnvOK P (useTyVar env n b).2.1 ∧ OutOK P (useTyVar env n b).2.2.2 := by
  unfold useTyVar
  split
  · rename_i t ht; exact ⟨h, .ref (find_ok h ht) hn⟩
  · split
    · exact ⟨h.cons_sym hn, .def_ hn ..⟩
    · exact ⟨h, .err ..⟩

mutual
theorem specTyV_ok : ∀ (t : Ty) {env : Env}, EnvOK P env → (∀ n ∈ namesTy t, OK P n) → EnvOK P (specTyV env t).env ∧ OutOK P (specTyV env t).out
  | .int, env, h, _ => by simp only [specTyV]; exact ⟨h, .nil⟩
  | .bool, env, h, _ => by simp only [specTyV]; exact ⟨h, .nil⟩
  | .string, env, h, _ => by simp only [specTyV]; exact ⟨h, .nil⟩
  | .missing, env, h, _ => by simp only [specTyV]; exact ⟨h, .nil⟩
  | .paren t, env, h, hn => by simp only [specTyV]; exact specTyV_ok t h hn
  | .fn a b, env, h, hn => by
    simp only [specTyV]
    have h1 := specTyV_ok a h fun n hm => hn n (by simp [namesTy, hm])
    have h2 := specTyV_ok b h1.1 fun n hm => hn n (by simp [namesTy, hm])
    exact ⟨h2.1, h1.2.append h2.2⟩
  | .named (some ns) (some n) args, env, h, hn => by
    simp only [specTyV]
    have h2 := specTysV_ok args h fun n hm => hn n (by simp [namesTy, hm])
    exact ⟨h2.1, (useNs_ok h (hn n (by simp [namesTy]))).append h2.2⟩
  | .named none (some n) args, env, h, hn => by
    simp only [specTyV]
    have h1 := useTyVar_ok h (hn n (by simp [namesTy])) args.isNil
    have h2 := specTysV_ok args h1.1 fun n hm => hn n (by simp [namesTy, hm])
    exact ⟨h2.1, h1.2.append h2.2⟩
  | .named none none args, env, h, hn => by
    simp only [specTyV]
    have h2 := specTysV_ok args h fun n hm => hn n (by simp [namesTy, hm])
    exact ⟨h2.1, OutOK.nil.append h2.2⟩
  | .named (some _) none args, env, h, hn => by
    simp only [specTyV]
    have h2 := specTysV_ok args h fun n hm => hn n (by simp [namesTy, hm])
    exact ⟨h2.1, OutOK.nil.append h2.2⟩
theorem specTysV_ok : ∀ (t : Tys) {env : Env}, EnvOK P env → (∀ n ∈ namesTys t, OK P n) → EnvOK P (specTysV env t).env ∧ OutOK P (specTysV env t).out
  | .nil, env, h, _ => by simp only [specTysV]; exact ⟨h, .nil⟩
  | .cons t ts, env, h, hn => by
    simp only [specTysV]
    have h1 := specTyV_ok t h fun n hm => hn n (by simp [namesTys, hm])
    have h2 := specTysV_ok ts h1.1 fun n hm => hn n (by simp [namesTys, hm])
    exact ⟨h2.1, h1.2.append h2.2⟩
end

theorem specAnn_ok (t : Option Ty) {env : Env} (h : EnvOK P env) (hn : ∀ n ∈ namesAnn t, OK P n) :
    EnvOK P (specAnn env t).env ∧ OutOK P (specAnn env t).out := by
  cases t with
  | none => exact ⟨h, .nil⟩
  | some t => exact specTyV_ok t h hn

theorem oVars_ok : ∀ {ns : List Name}, (∀ n ∈ ns, OK P n) → OutOK P (oVars ns)
  | [], _ => .nil
  | n :: ns, h => (OutOK.def_ (h n (by simp)) _ _).append (oVars_ok fun n hm => h n (by simp [hm]))
theorem oParams_ok : ∀ {ns : List Name}, (∀ n ∈ ns, OK P n) → OutOK P (oParams ns)
  | [], _ => .nil
  | n :: ns, h => (OutOK.def_ (h n (by simp)) _ _).append (oParams_ok fun n hm => h n (by simp [hm]))

mutual
theorem specExpr_ok : ∀ (e : Expr) {env : Env}, EnvOK P env → (∀ n ∈ namesExpr e, OK P n) → OutOK P (specExpr env e)
  | .name (some n), env, h, hn => by simp only [specExpr]; exact useName_ok h (hn n (by simp [namesExpr]))
  | .name none, env, h, hn => by simp only [specExpr]; exact .nil
  | .nsName (some m) (some n), env, h, hn => by simp only [specExpr]; exact useNs_ok h (hn n (by simp [namesExpr]))
  | .nsName none n, env, h, hn => by simp only [specExpr]; exact .nil
  | .nsName (some m) none, env, h, hn => by simp only [specExpr]; exact .nil
  | .apply f a, env, h, hn => by
    simp only [specExpr]
    exact (specExpr_ok f h fun n hm => hn n (by simp [namesExpr, hm])).append (specExpr_ok a h fun n hm => hn n (by simp [namesExpr, hm]))
  | .binary f a, env, h, hn => by
    simp only [specExpr]
    exact (specExpr_ok f h fun n hm => hn n (by simp [namesExpr, hm])).append (specExpr_ok a h fun n hm => hn n (by simp [namesExpr, hm]))
  | .letE (some n) ty v r, env, h, hn => by
    simp only [specExpr]
    have h1 := specAnn_ok ty h fun n hm => hn n (by simp [namesExpr, hm])
    have hd := hn n (by simp [namesExpr])
    exact h1.2.append ((specExpr_ok v h1.1 fun n hm => hn n (by simp [namesExpr, hm])).append
      ((OutOK.def_ hd _ _).append (specExpr_ok r (h.value hd) fun n hm => hn n (by simp [namesExpr, hm]))))
  | .letE none ty v r, env, h, hn => by
    simp only [specExpr]
    have h1 := specAnn_ok ty h fun n hm => hn n (by simp [namesExpr, hm])
    exact h1.2.append ((specExpr_ok v h1.1 fun n hm => hn n (by simp [namesExpr, hm])).append
      (specExpr_ok r h fun n hm => hn n (by simp [namesExpr, hm])))
  | .matchE d cs, env, h, hn => by
    simp only [specExpr]
    exact (specExpr_ok d h fun n hm => hn n (by simp [namesExpr, hm])).append (specCases_ok cs h fun n hm => hn n (by simp [namesExpr, hm]))
  | .ifE c t e, env, h, hn => by
    simp only [specExpr]
    exact (specExpr_ok c h fun n hm => hn n (by simp [namesExpr, hm])).append ((specExpr_ok t h fun n hm => hn n (by simp [namesExpr, hm])).append
      (specExpr_ok e h fun n hm => hn n (by simp [namesExpr, hm])))
  | .literal, env, h, hn => by simp only [specExpr]; exact .nil
  | .lambda (some n) b, env, h, hn => by
    simp only [specExpr]
    have hd := hn n (by simp [namesExpr])
    exact (OutOK.def_ hd _ _).append (specExpr_ok b (h.value hd) fun n hm => hn n (by simp [namesExpr, hm]))
  | .lambda none b, env, h, hn => by simp only [specExpr]; exact specExpr_ok b h fun n hm => hn n (by simp [namesExpr, hm])
  | .paren e, env, h, hn => by simp only [specExpr]; exact specExpr_ok e h fun n hm => hn n (by simp [namesExpr, hm])
  | .hole, env, h, hn => by simp only [specExpr]; exact .nil
  | .missing, env, h, hn => by simp only [specExpr]; exact .nil
theorem specCases_ok : ∀ (cs : Cases) {env : Env}, EnvOK P env → (∀ n ∈ namesCases cs, OK P n) → OutOK P (specCases env cs)
  | .nil, env, h, hn => by simp only [specCases]; exact .nil
  | .cons ns ctor vars body rest, env, h, hn => by
    simp only [specCases]
    have hv : ∀ n ∈ vars, OK P n := fun n hm => hn n (by simp [namesCases, hm])
    refine .append ?_ ((oVars_ok hv).append ((specExpr_ok body (h.values hv) fun n hm => hn n (by simp [namesCases, hm])).append
      (specCases_ok rest h fun n hm => hn n (by simp [namesCases, hm]))))
    match ns, ctor with
    | some m, some n => exact useNs_ok h (hn n (by simp [namesCases]))
    | none, some n => exact useName_ok h (hn n (by simp [namesCases]))
    | some _, none => exact .nil
    | none, none => exact .nil
end

theorem specFields_ok {env : Env} (h : EnvOK P env) : ∀ {fs : List FieldSyntax}, (∀ n ∈ fs.flatMap namesField, OK P n) → OutOK P (specFields env fs).2
  | [], _ => .nil
  | .recur :: fs, hn => by
    simp only [specFields]
    exact specFields_ok h fun n hm => hn n (by rw [List.flatMap_cons]; exact List.mem_append_right _ hm)
  | .type t :: fs, hn => by
    simp only [specFields]
    simp only [List.flatMap_cons, List.mem_append] at hn
    exact (specTy_ok h t fun n hm => hn n (.inl hm)).append (specFields_ok h fun n hm => hn n (.inr hm))

theorem specTypeCases_ok {env : Env} (h : EnvOK P env) {ty ps v} : ∀ {cs : List CaseSyntax} {names},
    (∀ n ∈ cs.flatMap (fun c => c.name.toList ++ c.fields.flatMap namesField), OK P n) → OutOK P (specTypeCases env ty ps v cs names).2
  | [], _, _ => .nil
  | c :: cs, names, hn => by
    simp only [List.flatMap_cons, List.mem_append] at hn
    have hf := specFields_ok h (fs := c.fields) fun n hm => hn n (.inl (.inr hm))
    simp only [specTypeCases]
    split
    · exact hf.append (specTypeCases_ok h fun n hm => hn n (.inr hm))
    · rename_i n he
      split
      · exact hf.append ((OutOK.err ..).append (specTypeCases_ok h fun n hm => hn n (.inr hm)))
      · exact hf.append ((OutOK.def_ (hn n (.inl (.inl (by simp [he])))) _ _).append (specTypeCases_ok h fun n hm => hn n (.inr hm)))

theorem specExpose_ok {unit : List (Export Target)} (hu : ∀ e ∈ unit, P e.sym e.text) : ∀ {ns : List Name}, (∀ n ∈ ns, OK P n) → OutOK P (specExpose unit ns)
  | [], _ => .nil
  | n :: ns, hn => by
    simp only [specExpose]
    refine .append ?_ (specExpose_ok hu fun n hm => hn n (by simp [hm]))
    split
    · exact .err ..
    · refine ⟨(by intro r h; cases h), fun d hd => ?_⟩
      simp only [exposedDefs, List.mem_filterMap] at hd
      obtain ⟨_, -, hd⟩ := hd
      obtain ⟨e, he, rfl⟩ := Option.map_eq_some_iff.1 hd
      obtain ⟨h1, h2⟩ := getExport_ok he
      refine ⟨⟨fun _ => ⟨?_, hn n (by simp)⟩, nofun⟩, by intro e he; cases he⟩
      have := hu e h1
      rw [h2] at this
      exact this

variable (P) in
/-- What an import gives is spelled as exported. -/
def ImportOK (me : Nat) : Item → Prop
  | .importI _ (.ok unit) _ _ => ∀ e ∈ unit, P (erase me e.sym) e.text
  | _ => True

theorem specItem_ok {env : Env} (h : EnvOK P env) {me : Nat} {i : Item} (hn : ∀ n ∈ namesItem i, OK P n) (hi : ImportOK P me i) : OutOK P (specItem me env i) := by
  match i, hi with
  | .importI node .noPath name exposed, _ => exact .nil
  | .importI node (.failed e m) name exposed, _ => exact .err ..
  | .importI node (.ok unit) name exposed, hi =>
    have hu : ∀ e ∈ unit.map (·.map (erase me)), P e.sym e.text := by
      intro e he
      obtain ⟨e', he', rfl⟩ := List.mem_map.1 he
      exact hi e' he'
    simp only [specItem, specImport]
    refine .append ?_ (specExpose_ok hu fun n hm => hn n (by simp [namesItem, hm]))
    cases name with
    | none => exact ⟨(by intro r h; cases h), (by intro d hd; rw [List.mem_singleton.1 hd]; exact ⟨⟨nofun, fun _ => rfl⟩, hu⟩)⟩
    | some n =>
      have := hn n (by simp [namesItem])
      exact ⟨(by intro r h; cases h), (by intro d hd; rw [List.mem_singleton.1 hd]; exact ⟨⟨fun _ => ⟨this, this⟩, nofun⟩, hu⟩)⟩
  | .typeI node ex exc name ps cs, _ =>
    simp only [specItem, specTypeItem]
    have hp : ∀ n ∈ ps, OK P n := fun n hm => hn n (by simp [namesItem, hm])
    refine (oParams_ok hp).append (.append (specTypeCases_ok (h.params hp) fun n hm => hn n (by
      simp only [namesItem, List.mem_append]; exact .inr (.inr hm))) ?_)
    cases name with
    | none => exact .nil
    | some n => exact .def_ (hn n (by simp [namesItem])) _ _
  | .valueI ex name ty v, _ =>
    simp only [specItem, specValueItem]
    have h1 := specAnn_ok ty h fun n hm => hn n (by simp [namesItem, hm])
    refine h1.2.append (.append ?_ (specExpr_ok v h1.1 fun n hm => hn n (by simp [namesItem, hm])))
    cases name with
    | none => exact .nil
    | some n => exact .def_ (hn n (by simp [namesItem])) _ _

theorem after_ok {env : Env} (h : EnvOK P env) {ds : List (Def Target)}
    (hd : ∀ d ∈ ds, ((d.hasName = true → P d.sym d.text ∧ P (.here d.node) d.text) ∧ (d.hasName = false → d.sym = .here d.node)) ∧ ∀ e ∈ d.unit, P e.sym e.text) : EnvOK P (env.after ds) := by
  have key : ∀ b ∈ ds.reverse.flatMap bindingsOf, (∀ ns x t, b = .sym ns x t → P t x) ∧ (∀ x ex, b = .mod x ex → ∀ e ∈ ex, P e.sym e.text) := by
    intro b hb
    obtain ⟨d, h1, h2⟩ := List.mem_flatMap.1 hb
    have hd' := hd d (by simpa using h1)
    unfold bindingsOf at h2
    split at h2
    · cases h2
    · rename_i hc
      have hh : d.hasName = true := by
        cases hx : d.hasName with
        | true => rfl
        | false => exact absurd (.inr hx) hc
      have hp := (hd'.1.1 hh).1
      split at h2
      · rw [List.mem_singleton.1 h2]
        exact ⟨fun _ _ _ e => by cases e; exact hp, nofun⟩
      · simp only [List.mem_cons, List.not_mem_nil, or_false] at h2
        rcases h2 with rfl | rfl <;> exact ⟨fun _ _ _ e => by cases e; exact hp, nofun⟩
      · rw [List.mem_singleton.1 h2]
        exact ⟨fun _ _ _ e => by cases e; exact hp, nofun⟩
      · rw [List.mem_singleton.1 h2]
        exact ⟨nofun, fun _ _ e => by cases e; exact hd'.2⟩
  refine ⟨fun ns x t hm => ?_, fun x ex hm => ?_⟩
  · rcases List.mem_append.1 hm with hm | hm
    · exact (key _ hm).1 _ _ _ rfl
    · exact h.sym _ _ _ hm
  · rcases List.mem_append.1 hm with hm | hm
    · exact (key _ hm).2 _ _ rfl
    · exact h.mod _ _ hm

theorem specUnit_ok {me : Nat} : ∀ {is : List Item} {env : Env}, EnvOK P env → (∀ i ∈ is, (∀ n ∈ namesItem i, OK P n) ∧ ImportOK P me i) →
    ∀ o ∈ specUnit me is env, OutOK P o
  | [], _, _, _, o, ho => by cases ho
  | i :: is, env, h, hi, o, ho => by
    obtain ⟨h1, h2⟩ := hi i (by simp)
    have hok := specItem_ok h h1 h2
    rcases List.mem_cons.1 ho with rfl | ho
    · exact hok
    · exact specUnit_ok (after_ok h hok.defs) (fun i hm => hi i (by simp [hm])) o ho

end

end Tic.Spell
