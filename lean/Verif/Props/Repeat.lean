import Verif.Props.Construct
import Verif.Props.Locality

/-
Repeating and splitting inputs (C90): a second `set` with the same plain values does nothing,
and `set` with two sets of plain values is `set` with the one and then with the other.
-/
namespace JC
variable {env : Env}

/-! ### Specification: pipelines that compute from the value alone -/

/-- the same result, or both a validation error, or both another exception -/
def AlikeRes {α : Type} : Except Exc α → Except Exc α → Prop
  | .ok a, .ok b => a = b
  | .error (.validation a), .error (.validation b) => (a = [] ↔ b = [])
  | .error (.validation _), .error _ => False
  | .error _, .error (.validation _) => False
  | .error _, .error _ => True
  | _, _ => False

/-- a modifier that looks at nothing but the value: not at the clock, at random numbers, at
other fields or at other objects -/
def Leaf.ByValue (l : Leaf) : Prop :=
  ∀ h h' c c', c.val = c'.val → AlikeRes (l.transform h c) (l.transform h' c') ∧ AlikeRes (l.validate h c) (l.validate h' c')

mutual
/-- built from such modifiers, also inside lists, dicts and unions; no objects -/
def Mod.ByValue : Mod → Prop
  | .eager => True
  | .pre => True
  | .leaf l => l.ByValue
  | .listOf _ sp item => sp = .no ∧ Mod.ByValueL item
  | .dictOf _ item => Mod.ByValueL item
  | .instOf _ _ => False
  | .union alts => Mod.ByValueA alts
/-- a pipeline of such modifiers -/
def Mod.ByValueL : List Mod → Prop
  | [] => True
  | m :: ms => m.ByValue ∧ Mod.ByValueL ms
/-- alternatives of a union -/
def Mod.ByValueA : List (List Mod) → Prop
  | [] => True
  | a :: as => Mod.ByValueL a ∧ Mod.ByValueA as
end

/-! ### Such pipelines have no effect and one result -/

/-- neither changes anything and the outcomes are alike -/
def AlikeRun {α : Type} (m m' : Py World α) : Prop := ∀ w w', (m w).2 = w ∧ (m' w').2 = w' ∧ AlikeRes (m w).1 (m' w').1

theorem AlikeRun.pure {α : Type} (a : α) : AlikeRun (pure a) (pure a) := fun _ _ => ⟨rfl, rfl, rfl⟩

theorem AlikeRun.run {α : Type} {m m' : Py World α} (h : AlikeRun m m') (w w' : World) :
    (∃ a, m w = (.ok a, w) ∧ m' w' = (.ok a, w')) ∨
    (∃ e e', m w = (.error e, w) ∧ m' w' = (.error e', w') ∧ AlikeRes (α := α) (.error e) (.error e')) := by
  obtain ⟨h1, h2, h3⟩ := h w w'
  rcases hm : m w with ⟨e | a, w1⟩ <;> rcases hm' : m' w' with ⟨e' | a', w2⟩ <;>
    rw [hm] at h1 h3 <;> rw [hm'] at h2 h3 <;> simp only at h1 h2 h3 <;> subst h1 <;> subst h2
  · exact .inr ⟨e, e', rfl, rfl, h3⟩
  · cases e <;> exact h3.elim
  · exact h3.elim
  · cases h3; exact .inl ⟨a, rfl, rfl⟩

theorem AlikeRun.bind {α β : Type} {m m' : Py World α} {f f' : α → Py World β} (h : AlikeRun m m') (hf : ∀ a, AlikeRun (f a) (f' a)) :
    AlikeRun (m >>= f) (m' >>= f') := by
  intro w w'
  rw [Py.bind_run, Py.bind_run]
  rcases h.run w w' with ⟨a, h1, h2⟩ | ⟨e, e', h1, h2, h3⟩ <;> rw [h1, h2]
  · exact hf a w w'
  · refine ⟨rfl, rfl, ?_⟩
    cases e <;> cases e' <;> simp_all [AlikeRes]

theorem like_raise_vexc {α : Type} (c c' : Ctx) (s : String) : AlikeRun (Py.raise (c.vexc s) : Py World α) (Py.raise (c'.vexc s)) := by
  intro w w'
  refine ⟨rfl, rfl, ?_⟩
  simp [AlikeRes, Ctx.vexc]

theorem like_read {α : Type} {f f' : World → Except Exc α} (h : ∀ w w', AlikeRes (f w) (f' w')) : AlikeRun (readW f) (readW f') := by
  intro w w'
  exact ⟨rfl, rfl, h w w'⟩

theorem like_catchAll {α : Type} {m m' : Py World α} {h h' : Exc → Py World α} (hm : AlikeRun m m') (hh : ∀ e e', AlikeRun (h e) (h' e')) :
    AlikeRun (m.catchAll h) (m'.catchAll h') := by
  intro w w'
  unfold Py.catchAll
  rcases hm.run w w' with ⟨a, h1, h2⟩ | ⟨e, e', h1, h2, h3⟩ <;> rw [h1, h2]
  · exact ⟨rfl, rfl, rfl⟩
  · exact hh e e' w w'

theorem like_catchV {α : Type} {m m' : Py World α} {h h' : List (String × String) → Py World α} (hm : AlikeRun m m') (hh : ∀ e e', AlikeRun (h e) (h' e')) :
    AlikeRun (m.catchV h) (m'.catchV h') := by
  intro w w'
  unfold Py.catchV
  rcases hm.run w w' with ⟨a, h1, h2⟩ | ⟨e, e', h1, h2, h3⟩ <;> rw [h1, h2]
  · exact ⟨rfl, rfl, rfl⟩
  · cases e <;> cases e' <;> first
      | exact hh _ _ w w'
      | exact h3.elim
      | exact ⟨rfl, rfl, trivial⟩

/-- contexts of `set`: there is an owner, and the first error ends a validation -/
def SetCtx (c : Ctx) : Prop := c.owner.isSome = true ∧ c.cfg.allFields = some false

theorem like_raiseMsgs {a b : List (String × String)} (h : a = [] ↔ b = []) : AlikeRun (raiseMsgs a : Py World Unit) (raiseMsgs b) := by
  cases a with
  | nil => rw [h.1 rfl]; exact AlikeRun.pure ()
  | cons x a =>
    cases b with
    | nil => exact absurd (h.2 rfl) (by simp)
    | cons y b => exact fun w w' => ⟨rfl, rfl, by simp [AlikeRes, raiseMsgs]⟩

theorem updated_nil_iff {L : List (String × String)} : dictUpdate [] L = [] ↔ L = [] :=
  ⟨dictUpdate_nil_iff, fun h => by rw [h]; rfl⟩

/-- the loop of a chain's validation and what is raised afterwards -/
theorem like_chainLoop {c c' : Ctx} (hc : SetCtx c) (hc' : SetCtx c') (ms : List (Ops World)) (hl : ∀ m ∈ ms, AlikeRun (m.validate c) (m.validate c')) :
    AlikeRun (validateLoop c ms [] >>= raiseMsgs) (validateLoop c' ms [] >>= raiseMsgs) := by
  induction ms with
  | nil => exact AlikeRun.pure ()
  | cons m ms ih =>
    have h := hl m (by simp)
    have ih := ih (fun m' h' => hl m' (by simp [h']))
    intro w w'
    have key : ∀ (c : Ctx) (m : Ops World) (ms : List (Ops World)) (w : World), SetCtx c → (validateLoop c (m :: ms) [] >>= raiseMsgs) w =
        match m.validate c w with
        | (.ok _, s') => (validateLoop c ms [] >>= raiseMsgs) s'
        | (.error (.validation msgs), s') => (raiseMsgs (dictUpdate [] msgs) : Py World Unit) s'
        | (.error e, s') => (.error e, s') := by
      intro c m ms w hc
      rw [Py.bind_run]
      simp only [validateLoop]
      rcases m.validate c w with ⟨e | a, s⟩
      · cases e <;> simp [hc.2]
      · rfl
    rw [key c m ms w hc, key c' m ms w' hc']
    rcases h.run w w' with ⟨a, h1, h2⟩ | ⟨e, e', h1, h2, h3⟩ <;> rw [h1, h2]
    · exact ih w w'
    · cases e <;> cases e' <;> first
        | exact like_raiseMsgs (by rw [updated_nil_iff, updated_nil_iff]; exact h3) w w'
        | exact h3.elim
        | exact ⟨rfl, rfl, trivial⟩

/-- the item loop of a collection's validation and what is raised afterwards -/
theorem like_colLoop {c c' : Ctx} {item item' : Ops World} (h : ∀ v k, AlikeRun (item.validate (c.colval v k)) (item'.validate (c'.colval v k))) (es : List (Key × Val)) :
    AlikeRun (colValidateLoop item c false es []) (colValidateLoop item' c' false es []) := by
  induction es with
  | nil => exact AlikeRun.pure _
  | cons e es ih =>
    obtain ⟨k, v⟩ := e
    intro w w'
    unfold colValidateLoop
    rcases (h v k).run w w' with ⟨a, h1, h2⟩ | ⟨e, e', h1, h2, h3⟩ <;> rw [h1, h2]
    · exact ih w w'
    · cases e <;> cases e' <;> first
        | exact ⟨rfl, rfl, h3⟩

theorem like_colValidate {c c' : Ctx} (hc : SetCtx c) (hc' : SetCtx c') {item item' : Ops World} {sp : Special}
    (h : ∀ v k, AlikeRun (item.validate (c.colval v k)) (item'.validate (c'.colval v k))) (es : List (Key × Val)) :
    AlikeRun (colValidate (colEnv env sp) item c es) (colValidate (colEnv env sp) item' c' es) := by
  have key : ∀ (c : Ctx) (item : Ops World), SetCtx c → colValidate (colEnv env sp) item c es = (colValidateLoop item c false es [] >>= raiseMsgs) := by
    intro c item hc
    funext w
    obtain ⟨o, ho⟩ := Option.isSome_iff_exists.1 hc.1
    unfold colValidate colEnv
    simp only [ho, hc.2, Option.getD_some]
    rfl
  rw [key c item hc, key c' item' hc']
  exact (like_colLoop h es).bind (fun a => like_raiseMsgs Iff.rfl)

theorem like_colMap {c c' : Ctx} (hc : SetCtx c) (hc' : SetCtx c') {ce : ColEnv World} (hsp : ∀ c k v, ce.special c k v = none)
    (hce : ∀ c, c.owner.isSome = true → ce.ownerConf c = pure ()) {f f' : Ctx → Py World Val}
    (h : ∀ v k, AlikeRun (f (c.colval v k)) (f' (c'.colval v k))) (es : List (Key × Val)) :
    AlikeRun (colMapLoop ce true f c es) (colMapLoop ce true f' c' es) := by
  induction es with
  | nil => exact AlikeRun.pure _
  | cons e es ih =>
    obtain ⟨k, v⟩ := e
    unfold colMapLoop
    simp only [if_true, hsp, hce c hc.1, hce c' hc'.1]
    exact (h v k).bind (fun x => (AlikeRun.pure ()).bind (fun _ => ih.bind (fun xs => AlikeRun.pure _)))

theorem like_reduce {f f' : Ops World → Val → Py World Val} (ms : List (Ops World)) (h : ∀ m ∈ ms, ∀ v, AlikeRun (f m v) (f' m v)) :
    ∀ v, AlikeRun (reduceM f ms v) (reduceM f' ms v) := by
  induction ms with
  | nil => intro v; exact AlikeRun.pure v
  | cons m ms ih => intro v; exact (h m (by simp) v).bind (fun v' => ih (fun m' h' => h m' (by simp [h'])) v')

theorem SetCtx.nval {c : Ctx} (h : SetCtx c) (v : Val) : SetCtx (c.nval v) := h
theorem SetCtx.colval {c : Ctx} (h : SetCtx c) (v : Val) (k : Key) : SetCtx (c.colval v k) := h
theorem SetCtx.alter {c : Ctx} (h : SetCtx c) : SetCtx c.alterfdef := h

theorem colEnv_conf (c : Ctx) (sp : Special) (h : c.owner.isSome = true) : (colEnv env sp).ownerConf c = pure () := by
  obtain ⟨o, ho⟩ := Option.isSome_iff_exists.1 h
  simp [colEnv, ho]

theorem colEnv_special (c : Ctx) (k : Key) (v : Val) : (colEnv env .no).special c k v = none := by
  cases v <;> simp [colEnv]

variable {vis : Visitor}

mutual
theorem like_validate (hv : NoMarks vis) : ∀ (m : Mod), m.ByValue → ∀ c c', SetCtx c → SetCtx c' → c.val = c'.val →
    AlikeRun ((m.den env vis).validate c) ((m.den env vis).validate c')
  | .eager, _, c, c', _, _, _ => AlikeRun.pure ()
  | .pre, _, c, c', _, _, _ => AlikeRun.pure ()
  | .leaf l, h, c, c', _, _, he => like_read (fun w w' => (h w.heap w'.heap c c' he).2)
  | .listOf nn sp item, h, c, c', hc, hc', he => by
    simp only [Mod.den, listOps, ← he]
    cases c.val with
    | none => exact AlikeRun.pure ()
    | list xs => exact like_colValidate hc hc' (fun v k => like_chain_validate hv item h.2 _ _ (hc.colval v k) (hc'.colval v k) rfl) _
    | _ => exact like_raise_vexc c c' _
  | .dictOf nn item, h, c, c', hc, hc', he => by
    simp only [Mod.den, dictOps, ← he]
    cases c.val with
    | none => exact AlikeRun.pure ()
    | dict xs => exact like_colValidate hc hc' (fun v k => like_chain_validate hv item h _ _ (hc.colval v k) (hc'.colval v k) rfl) _
    | _ => exact like_raise_vexc c c' _
  | .instOf cls st, h, _, _, _, _, _ => h.elim
  | .union alts, h, c, c', hc, hc', he => by
    simp only [Mod.den, unionOps]
    have := like_union_validate hv alts h c.alterfdef c'.alterfdef hc.alter hc'.alter he
    rw [← he]
    split
    · exact AlikeRun.pure ()
    · exact this
theorem like_chain_validate (hv : NoMarks vis) : ∀ (ms : List Mod), Mod.ByValueL ms → ∀ c c', SetCtx c → SetCtx c' → c.val = c'.val →
    AlikeRun ((chainOps (setParent env) (denL env vis ms)).validate c) ((chainOps (setParent env) (denL env vis ms)).validate c')
  | ms, h, c, c', hc, hc', he => by
    simp only [chainOps, chainValidate]
    rw [nvs_denL env vis hv]
    refine like_chainLoop hc hc' _ ?_
    intro m hm
    obtain ⟨m', h1, rfl⟩ := List.mem_map.1 hm
    exact like_list_validate hv ms h m' (mem_nvsM h1) c c' hc hc' he
theorem like_list_validate (hv : NoMarks vis) : ∀ (ms : List Mod), Mod.ByValueL ms → ∀ m ∈ ms, ∀ c c', SetCtx c → SetCtx c' → c.val = c'.val →
    AlikeRun ((m.den env vis).validate c) ((m.den env vis).validate c')
  | m' :: ms, h, m, hm, c, c', hc, hc', he => by
    by_cases hm' : m = m'
    · rw [hm']
      exact like_validate hv m' h.1 c c' hc hc' he
    · refine like_list_validate hv ms h.2 m ?_ c c' hc hc' he
      rcases List.mem_cons.1 hm with h' | h'
      · exact absurd h' hm'
      · exact h'
theorem like_union_validate (hv : NoMarks vis) : ∀ (as : List (List Mod)), Mod.ByValueA as → ∀ c c', SetCtx c → SetCtx c' → c.val = c'.val →
    AlikeRun (unionValidate c (denA env vis as)) (unionValidate c' (denA env vis as))
  | [], _, c, c', _, _, _ => like_raise_vexc c c' _
  | a :: as, h, c, c', hc, hc', he =>
    like_catchV (like_chain_validate hv a h.1 c c' hc hc' he) (fun _ _ => like_union_validate hv as h.2 c c' hc hc' he)
end

mutual
theorem like_transform (hv : NoMarks vis) : ∀ (m : Mod), m.ByValue → ∀ c c', SetCtx c → SetCtx c' → c.val = c'.val →
    AlikeRun ((m.den env vis).transform c) ((m.den env vis).transform c')
  | .eager, _, c, c', _, _, he => by simp only [Mod.den, he]; exact AlikeRun.pure _
  | .pre, _, c, c', _, _, he => by simp only [Mod.den, he]; exact AlikeRun.pure _
  | .leaf l, h, c, c', _, _, he => like_read (fun w w' => (h w.heap w'.heap c c' he).1)
  | .listOf nn sp item, h, c, c', hc, hc', he => by
    obtain ⟨rfl, h⟩ := h
    simp only [Mod.den, listOps, ← he]
    cases c.val with
    | none => cases nn <;> exact AlikeRun.pure _
    | list xs =>
      exact (like_colMap hc hc' colEnv_special (fun c h => colEnv_conf c _ h)
        (fun v k => like_chain_transform hv item h _ _ (hc.colval v k) (hc'.colval v k) rfl) _).bind (fun r => AlikeRun.pure _)
    | _ => exact AlikeRun.pure _
  | .dictOf nn item, h, c, c', hc, hc', he => by
    simp only [Mod.den, dictOps, ← he]
    cases c.val with
    | none => cases nn <;> exact AlikeRun.pure _
    | dict xs =>
      exact (like_colMap (ce := { colEnv env .no with special := fun _ _ _ => Option.none }) hc hc' (fun _ _ _ => rfl)
        (fun c h => colEnv_conf (env := env) c .no h)
        (fun v k => like_chain_transform hv item h _ _ (hc.colval v k) (hc'.colval v k) rfl) _).bind (fun r => AlikeRun.pure _)
    | _ => exact AlikeRun.pure _
  | .instOf cls st, h, _, _, _, _, _ => h.elim
  | .union alts, h, c, c', hc, hc', he => by
    simp only [Mod.den, unionOps]
    have := like_union_transform hv alts h c.alterfdef c'.alterfdef hc.alter hc'.alter he
    rw [← he]
    split
    · exact AlikeRun.pure _
    · exact this
theorem like_chain_transform (hv : NoMarks vis) : ∀ (ms : List Mod), Mod.ByValueL ms → ∀ c c', SetCtx c → SetCtx c' → c.val = c'.val →
    AlikeRun ((chainOps (setParent env) (denL env vis ms)).transform c) ((chainOps (setParent env) (denL env vis ms)).transform c')
  | ms, h, c, c', hc, hc', he => by
    simp only [chainOps, chainTransform, he]
    refine AlikeRun.bind (like_reduce _ ?_ _) (fun v => like_reduce _ ?_ _)
    · rw [tvs_denL env vis hv]
      intro m hm v
      obtain ⟨m', h1, rfl⟩ := List.mem_map.1 hm
      unfold vt
      refine (like_list_transform hv ms h m' (mem_tvsM h1) _ _ (hc.nval v) (hc'.nval v) rfl).bind (fun r => ?_)
      exact (like_list_validate hv ms h m' (mem_tvsM h1) _ _ ((hc.nval v).nval r) ((hc'.nval v).nval r) rfl).bind (fun _ => AlikeRun.pure _)
    · rw [nvs_denL env vis hv]
      intro m hm v
      obtain ⟨m', h1, rfl⟩ := List.mem_map.1 hm
      exact like_list_transform hv ms h m' (mem_nvsM h1) _ _ (hc.nval v) (hc'.nval v) rfl
theorem like_list_transform (hv : NoMarks vis) : ∀ (ms : List Mod), Mod.ByValueL ms → ∀ m ∈ ms, ∀ c c', SetCtx c → SetCtx c' → c.val = c'.val →
    AlikeRun ((m.den env vis).transform c) ((m.den env vis).transform c')
  | m' :: ms, h, m, hm, c, c', hc, hc', he => by
    by_cases hm' : m = m'
    · rw [hm']
      exact like_transform hv m' h.1 c c' hc hc' he
    · refine like_list_transform hv ms h.2 m ?_ c c' hc hc' he
      rcases List.mem_cons.1 hm with h' | h'
      · exact absurd h' hm'
      · exact h'
theorem like_union_transform (hv : NoMarks vis) : ∀ (as : List (List Mod)), Mod.ByValueA as → ∀ c c', SetCtx c → SetCtx c' → c.val = c'.val →
    AlikeRun (unionTransform c (denA env vis as)) (unionTransform c' (denA env vis as))
  | [], _, c, c', _, _, he => by simp only [denA, unionTransform, he]; exact AlikeRun.pure _
  | a :: as, h, c, c', hc, hc', he =>
    like_catchAll (like_chain_transform hv a h.1 c c' hc hc' he) (fun _ _ => like_union_transform hv as h.2 c c' hc hc' he)
end

/-! ### Specification: plain inputs -/

/-- every field of an input is a plain field computed from its value alone, and no relation is
given by its reference ids -/
structure PlainValues (cd : ClassDef) (kvs : List (String × Val)) : Prop where
  field : ∀ f ∈ cd.fields, Given f kvs → PlainField cd f.name ∧ Mod.ByValueL f.chain
  noId : ∀ f ∈ cd.fields, f.store = .localKey → f.refName ∉ kvs.map Prod.fst ∧ f.jrefName ∉ kvs.map Prod.fst

/-- field names are different from each other and from the names of reference ids -/
structure Distinct (cd : ClassDef) : Prop where
  names : (cd.fields.map Field.name).Nodup
  noKey : ∀ f ∈ cd.fields, cd.localKey? f.name = none

/-- the same object to a user: the same values, flags and records. The modified fields are a
set, and the previous values a dict. -/
structure SameFacts (o o' : Obj) : Prop where
  rest : { o with modFields := [], prev := [] } = { o' with modFields := [], prev := [] }
  marks : ∀ m, m ∈ o.modFields ↔ m ∈ o'.modFields
  prev : ∀ m, dictGet o.prev m = dictGet o'.prev m

/-! ### What `set` does with a plain input -/

theorem SameFacts.refl (o : Obj) : SameFacts o o := ⟨rfl, fun _ => Iff.rfl, fun _ => rfl⟩
theorem SameFacts.trans {a b c : Obj} (h : SameFacts a b) (h' : SameFacts b c) : SameFacts a c :=
  ⟨h.rest.trans h'.rest, fun m => (h.marks m).trans (h'.marks m), fun m => (h.prev m).trans (h'.prev m)⟩
theorem SameFacts.symm {a b : Obj} (h : SameFacts a b) : SameFacts b a :=
  ⟨h.rest.symm, fun m => (h.marks m).symm, fun m => (h.prev m).symm⟩

theorem SameFacts.attrs {a b : Obj} (h : SameFacts a b) : a.attrs = b.attrs := by
  have := h.rest
  simp only [Obj.mk.injEq] at this
  exact this.2.1
theorem SameFacts.isNew {a b : Obj} (h : SameFacts a b) : a.isNew = b.isNew := by
  have := h.rest
  simp only [Obj.mk.injEq] at this
  exact this.2.2.1

/-- the pipeline accepts the value and makes `t` of it -/
def Makes (env : Env) (n : Nat) (f : Field) (v t : Val) : Prop :=
  ∀ c w, SetCtx c → c.val = v → (f.ops env (instOps env n)).transform c w = (.ok t, w)

open Classical in
/-- what the pipeline makes of the value -/
noncomputable def madeOf (env : Env) (n : Nat) (f : Field) (v : Val) : Option Val :=
  if h : ∃ t, Makes env n f v t then some h.choose else none

theorem made_or {n : Nat} {f : Field} (hf : Mod.ByValueL f.chain) (v : Val) :
    (∃ t, madeOf env n f v = some t ∧ Makes env n f v t) ∨
    (madeOf env n f v = none ∧ ∀ c w, SetCtx c → c.val = v → ∃ e, (f.ops env (instOps env n)).transform c w = (.error e, w)) := by
  by_cases h : ∃ t, Makes env n f v t
  · exact .inl ⟨h.choose, by simp only [madeOf, dif_pos h], h.choose_spec⟩
  · refine .inr ⟨by simp only [madeOf, dif_neg h], fun c w hc he => ?_⟩
    have hl := fun c' (hc' : SetCtx c') (he' : c'.val = v) w' =>
      (like_chain_transform (env := env) (instOps_noMarks env n) f.chain hf c c' hc hc' (he.trans he'.symm)).run w w'
    rcases hl c hc he w with ⟨a, h1, h2⟩ | ⟨e, e', h1, h2, h3⟩
    · refine absurd ⟨a, fun c' w' hc' he' => ?_⟩ h
      rcases hl c' hc' he' w' with ⟨b, h3, h4⟩ | ⟨e, e', h3, _⟩
      · rw [h1] at h3
        cases h3
        exact h4
      · rw [h1] at h3
        cases h3
    · exact ⟨e, h1⟩

/-- the value is given and may be written -/
def writes (kvs : List (String × Val)) (f : Field) (o : Obj) : Bool :=
  hasFieldValue f kvs && allowWrite f (o.attrs f.name) (givenValue f kvs)

/-- one field of the input -/
noncomputable def stepObj (env : Env) (n : Nat) (cd : ClassDef) (kvs : List (String × Val)) (f : Field) (o : Obj) : Obj :=
  if writes kvs f o then opObj cd f o (.set f.name ((madeOf env n f (givenValue f kvs)).getD .none)) else o

/-- the input is refused at this field -/
def Refused (env : Env) (n : Nat) (kvs : List (String × Val)) (f : Field) (o : Obj) : Prop :=
  writes kvs f o = true ∧ madeOf env n f (givenValue f kvs) = none

/-- a relation list that must not be None and is not given -/
def fillObj (cd : ClassDef) (f : Field) (o : Obj) : Obj :=
  if (o.attrs f.name).isNone then
    applyIf (f.store = .localKey) (setVal f.refName (.list [])) (setVal f.name (.list []) (trackObj cd f o))
  else o

theorem find_named {fs : List Field} (hn : (fs.map Field.name).Nodup) {f : Field} (hf : f ∈ fs) : fs.find? (fun g => g.name = f.name) = some f := by
  induction fs with
  | nil => cases hf
  | cons g fs ih =>
    rw [List.map_cons, List.nodup_cons] at hn
    rcases List.mem_cons.1 hf with rfl | h
    · simp
    · have : g.name ≠ f.name := fun he => hn.1 (he ▸ List.mem_map_of_mem h)
      rw [List.find?_cons_of_neg (by simpa using this)]
      exact ih hn.2 h

theorem Distinct.field {cd : ClassDef} (hd : Distinct cd) {f : Field} (hf : f ∈ cd.fields) : cd.field? f.name = some f := find_named hd.names hf

theorem step_cls (n : Nat) (cd : ClassDef) (kvs : List (String × Val)) (f : Field) (o : Obj) : (stepObj env n cd kvs f o).cls = o.cls := by
  unfold stepObj
  split
  · exact (opObj_cls _ _ _ _).1
  · rfl

theorem trackObj_facts (cd : ClassDef) (f : Field) (o : Obj) : (trackObj cd f o).cls = o.cls ∧ (trackObj cd f o).attrs = o.attrs ∧ (trackObj cd f o).isNew = o.isNew := by
  unfold trackObj
  split <;> exact ⟨rfl, rfl, rfl⟩

theorem fill_cls (cd : ClassDef) (f : Field) (o : Obj) : (fillObj cd f o).cls = o.cls := by
  unfold fillObj applyIf
  split
  · split <;> exact (trackObj_facts cd f o).1
  · rfl

theorem isNone_iff' {v : Val} : v.isNone = true ↔ v = .none := by cases v <;> simp [Val.isNone]

theorem getD_notin {kvs : List (String × Val)} {k : String} (h : k ∉ kvs.map Prod.fst) : getD kvs k = .none := by
  unfold getD
  rw [dictGet_none_iff.2 h]
  rfl

/-- one field -/
theorem field_run {n i : Nat} {w : World} {kvs : List (String × Val)} {f : Field} {c : Ctx} (hfuel : env.fuel ≠ 0) (hd : Distinct (w.cdef env i))
    (hp : PlainValues (w.cdef env i) kvs) (hf : f ∈ (w.cdef env i).fields) (hc : SetCtx c) (hb : c.cfg.fillBlanks = false) :
    (Refused env n kvs f (w.heap i) ∧ ∃ e, transformField env (Field.ops env (instOps env n)) c i false kvs f w = (.error e, w)) ∨
    (¬ Refused env n kvs f (w.heap i) ∧ transformField env (Field.ops env (instOps env n)) c i false kvs f w =
      (.ok (), w.upd i (stepObj env n (w.cdef env i) kvs f))) := by
  cases hg : hasFieldValue f kvs with
  | false =>
    have hw : writes kvs f (w.heap i) = false := by simp [writes, hg]
    refine .inr ⟨fun h => absurd (hw.symm.trans h.1) (by simp), ?_⟩
    have hs : stepObj env n (w.cdef env i) kvs f (w.heap i) = w.heap i := by simp [stepObj, hw]
    rw [upd_congr w i (g := fun o => o) hs, upd_id]
    unfold transformField
    rw [hg]
    simp only [Bool.false_eq_true, if_false, absentField]
    split
    · split
      · rename_i hl
        have := hp.noId f hf hl
        simp only [setRefKey, getD_notin this.1, getD_notin this.2, Val.isNone, if_true]
        rfl
      · rfl
    · rw [hb]
      rfl
  | true =>
    obtain ⟨hpf, hby⟩ := hp.field f hf ((hasFieldValue_iff f kvs).1 hg)
    obtain ⟨f', hf', hl, hr, hcalc⟩ := hpf
    have hff : f' = f := Option.some.inj (hf'.symm.trans (hd.field hf))
    subst hff
    have hcur : ∀ w' : World, w'.cdef env i = w.cdef env i → w'.getattr env i f'.name = .ok (w'.attr i f'.name) := by
      intro w' he
      unfold World.getattr
      rw [he, hf']
      simp [hcalc]
    have hallow : ∀ cur, (cur = w.attr i f'.name ∨ (f'.writeRule ≠ .writeOnce)) →
        allowWrite f' cur (getFieldValue f' kvs) = writes kvs f' (w.heap i) := by
      intro cur h
      rw [getFieldValue_eq]
      simp only [writes, hg, Bool.true_and]
      rcases h with rfl | h
      · rfl
      · cases hwr : f'.writeRule <;> simp_all [allowWrite]
    unfold transformField
    rw [hg]
    simp only [if_true, presentField]
    have hread : readW (fun w => if f'.writeRule = .writeOnce then w.getattr env i f'.name else .ok .none) w =
        (.ok (if f'.writeRule = .writeOnce then w.attr i f'.name else .none), w) := by
      unfold readW
      split
      · show (World.getattr env w i f'.name, w) = _
        rw [hcur w rfl]
      · rfl
    rw [Py.bind_run, hread]
    simp only []
    rw [hallow _ (by split <;> simp_all)]
    cases hw : writes kvs f' (w.heap i) with
    | false =>
      refine .inr ⟨fun h => absurd (hw.symm.trans h.1) (by simp), ?_⟩
      have hs : stepObj env n (w.cdef env i) kvs f' (w.heap i) = w.heap i := by simp [stepObj, hw]
      rw [upd_congr w i (g := fun o => o) hs, upd_id]
      simp only [Bool.false_eq_true, if_false, hb, Bool.false_and]
      rfl
    | true =>
      simp only [if_true]
      obtain ⟨ow, how⟩ := Option.isSome_iff_exists.1 hc.1
      have hek : readW (fun w => c.ekey env w f'.name) w = (.ok ((w.cdef env ow).outKey f'.name), w) := by
        simp [readW, Ctx.ekey, how]
      rw [Py.bind_run, Py.get_run]
      simp only []
      rw [Py.bind_run, hek]
      simp only []
      rw [Py.bind_run]
      have hsc : SetCtx (c.nextvo (getFieldValue f' kvs) f'.name ((w.cdef env ow).outKey f'.name) ((w.heap i).cls, f'.name) i) := ⟨rfl, hc.2⟩
      rcases made_or (env := env) (n := n) hby (givenValue f' kvs) with ⟨t, ht, hm⟩ | ⟨hn, he⟩
      · refine .inr ⟨fun h => absurd (ht.symm.trans h.2) (by simp), ?_⟩
        rw [hm _ w hsc (getFieldValue_eq f' kvs)]
        simp only [pyWhen, decide_not, hcalc, decide_false, Bool.not_false, if_true]
        obtain ⟨g, hg', hrun⟩ := plain_set_run (v := t) hfuel (⟨f', hf', hl, hr, hcalc⟩ : PlainField (w.cdef env i) f'.name)
        have : g = f' := Option.some.inj (hg'.symm.trans hf')
        subst this
        rw [hrun]
        congr 1
        refine upd_congr w i ?_
        simp [stepObj, hw, ht]
      · obtain ⟨e, he⟩ := he _ w hsc (getFieldValue_eq f' kvs)
        refine .inl ⟨⟨hw, hn⟩, e, ?_⟩
        rw [he]

/-- what a step leaves alone -/
theorem stepObj_other {n : Nat} {cd : ClassDef} {kvs : List (String × Val)} {f : Field} {o : Obj} {m : String} (h : m ≠ f.name) :
    (stepObj env n cd kvs f o).attrs m = o.attrs m := by
  unfold stepObj
  split
  · simp only [opObj]
    split
    · rfl
    · simp [setVal, h, (trackObj_facts cd f o).2.1]
  · rfl

theorem writes_congr {kvs : List (String × Val)} {f : Field} {o o' : Obj} (h : o.attrs f.name = o'.attrs f.name) : writes kvs f o = writes kvs f o' := by
  unfold writes
  rw [h]

/-- the loop over the fields, for distinct fields -/
theorem fields_run {n i : Nat} {kvs : List (String × Val)} {c : Ctx} (hfuel : env.fuel ≠ 0) (hc : SetCtx c) (hb : c.cfg.fillBlanks = false) (fs : List Field) :
    ∀ {w : World}, Distinct (w.cdef env i) → PlainValues (w.cdef env i) kvs → (∀ f ∈ fs, f ∈ (w.cdef env i).fields) → (fs.map Field.name).Nodup →
    ((∃ f ∈ fs, Refused env n kvs f (w.heap i)) ∧ ∃ e w', transformFields env (Field.ops env (instOps env n)) c i false kvs fs w = (.error e, w')) ∨
    ((∀ f ∈ fs, ¬ Refused env n kvs f (w.heap i)) ∧ transformFields env (Field.ops env (instOps env n)) c i false kvs fs w =
      (.ok (), w.upd i (fun o => fs.foldl (fun o f => stepObj env n (w.cdef env i) kvs f o) o))) := by
  induction fs with
  | nil => intro w _ _ _ _; exact .inr ⟨by simp, by simp only [transformFields, List.foldl_nil, upd_id]; rfl⟩
  | cons f fs ih =>
    intro w hd hp hs hn
    rw [List.map_cons, List.nodup_cons] at hn
    simp only [transformFields]
    rcases field_run (n := n) hfuel hd hp (hs f (by simp)) hc hb with ⟨hR, e, he⟩ | ⟨hR, he⟩
    · exact .inl ⟨⟨f, by simp, hR⟩, e, w, by rw [Py.bind_run, he]⟩
    · have hcd : (w.upd i (stepObj env n (w.cdef env i) kvs f)).cdef env i = w.cdef env i := cdef_upd (step_cls _ _ _ _ _)
      have hsame : ∀ g ∈ fs, Refused env n kvs g ((w.upd i (stepObj env n (w.cdef env i) kvs f)).heap i) ↔ Refused env n kvs g (w.heap i) := by
        intro g hg
        unfold Refused
        rw [upd_heap_self, writes_congr (stepObj_other (fun he => hn.1 (by rw [← he]; exact List.mem_map_of_mem hg)))]
      rw [Py.bind_run, he]
      simp only []
      rcases ih (w := w.upd i (stepObj env n (w.cdef env i) kvs f)) (by rw [hcd]; exact hd) (by rw [hcd]; exact hp)
        (fun g hg => by rw [hcd]; exact hs g (by simp [hg])) hn.2 with ⟨⟨g, hg, hR'⟩, e, w', hr⟩ | ⟨hR', hr⟩
      · exact .inl ⟨⟨g, by simp [hg], (hsame g hg).1 hR'⟩, e, w', hr⟩
      · refine .inr ⟨fun g hg => ?_, ?_⟩
        · rcases List.mem_cons.1 hg with rfl | hg
          · exact hR
          · exact fun h => hR' g hg ((hsame g hg).2 h)
        · rw [hr, hcd, upd_upd]
          rfl

/-! ### Relation lists that must not be None -/

theorem fill_run {i : Nat} {w : World} {f : Field} (hfuel : 2 ≤ env.fuel) (hd : Distinct (w.cdef env i)) (hf : f ∈ (w.cdef env i).fields)
    (hr : f.isRef = true) (ht : f.ftype = .list) (hv : w.attr i f.name = .none) :
    setAttr env i f.name (.list []) w = (.ok (), w.upd i (fillObj (w.cdef env i) f)) := by
  obtain ⟨k, hk⟩ : ∃ k, env.fuel = k + 1 + 1 := ⟨env.fuel - 2, by omega⟩
  have hc : f.store ≠ .calculated := by
    intro h; simp [Field.isRef, h] at hr
  have hfo : fillObj (w.cdef env i) f (w.heap i) =
      applyIf (f.store = .localKey) (setVal f.refName (.list [])) (setVal f.name (.list []) (trackObj (w.cdef env i) f (w.heap i))) := by
    unfold fillObj
    rw [if_pos]
    exact isNone_iff'.2 hv
  have hun : ∀ v : Val, unlinkField env i f .none = (pure () : Py World Unit) := by
    intro _
    unfold unlinkField
    rw [hk]
    simp only [runU, unlinkBody, linkItems, ht]
    split <;> rfl
  have hlk : runL env (k + 1) (.link i f (.list [])) = (pure () : Py World Unit) := by
    simp only [runL, linkBody, linkItems, ht]
    split <;> rfl
  have hne : pyEq (.list []) .none = false := by simp [pyEq]
  unfold setAttr
  rw [Py.bind_run, Py.get_run]
  simp only [hd.noKey f hf, setField, hk, runL, setBody]
  rw [Py.bind_run, Py.get_run]
  simp only [hd.field hf, if_neg hc, hv, hne, Bool.false_eq_true, if_false, hr, if_true]
  rw [hun .none]
  show (track env i f >>= fun _ => (pure () : Py World Unit) >>= fun _ => rawSet i f.name (.list []) >>= fun _ =>
    syncKey env i f (.list []) >>= fun _ => runL env (k + 1) (.link i f (.list []))) w = _
  rw [hlk]
  have htr : track env i f w = (.ok (), w.upd i (trackObj (w.cdef env i) f)) := rfl
  rw [Py.bind_run, htr]
  simp only []
  rw [Py.bind_run, Py.pure_run]
  simp only []
  have hraw : ∀ (m : String) (v : Val) (w : World), rawSet i m v w = (.ok (), w.upd i (setVal m v)) := fun _ _ _ => rfl
  rw [Py.bind_run, hraw]
  simp only []
  rw [upd_upd, upd_congr w i (f := fillObj (w.cdef env i) f) (g := fun o =>
    applyIf (f.store = .localKey) (setVal f.refName (.list [])) (setVal f.name (.list []) (trackObj (w.cdef env i) f o))) hfo]
  rw [Py.bind_run]
  unfold syncKey
  by_cases hs : f.store = .localKey
  · simp only [hs, ne_eq, not_true, if_false, ht, decide_true, applyIf, if_true]
    rw [Py.bind_run]
    simp only [readW, itemIds, hraw, upd_upd]
    rfl
  · simp only [hs, ne_eq, not_false_iff, if_true, decide_false, applyIf, Bool.false_eq_true, if_false]
    rfl

/-- the relation lists to fill -/
def fillList (cd : ClassDef) (kvs : List (String × Val)) : List Field :=
  cd.fields.filter (fun f => !hasFieldValue f kvs && f.isRef && f.ftype = .list && f.collNonnull)

theorem fills_run {i : Nat} (hfuel : 2 ≤ env.fuel) (fs : List Field) : ∀ {w : World}, Distinct (w.cdef env i) →
    (∀ f ∈ fs, f ∈ (w.cdef env i).fields ∧ f.isRef = true ∧ f.ftype = .list) →
    fillRefLists env i (fs.map Field.name) w = (.ok (), w.upd i (fun o => fs.foldl (fun o f => fillObj (w.cdef env i) f o) o)) := by
  induction fs with
  | nil => intro w _ _; simp only [List.map_nil, fillRefLists, List.foldl_nil, upd_id]; rfl
  | cons f fs ih =>
    intro w hd hs
    obtain ⟨hf, hr, ht⟩ := hs f (by simp)
    have hc : f.store ≠ .calculated := by
      intro h; simp [Field.isRef, h] at hr
    have hg : readW (fun w => w.getattr env i f.name) w = (.ok (w.attr i f.name), w) := by
      simp [readW, World.getattr, hd.field hf, hc]
    have hstep : pyWhen (w.attr i f.name).isNone (setAttr env i f.name (.list [])) w = (.ok (), w.upd i (fillObj (w.cdef env i) f)) := by
      unfold pyWhen
      split
      · rename_i hv
        exact fill_run hfuel hd hf hr ht (isNone_iff'.1 hv)
      · rename_i hv
        have : fillObj (w.cdef env i) f (w.heap i) = w.heap i := by
          unfold fillObj
          rw [if_neg]
          exact hv
        rw [upd_congr w i (g := fun o => o) this, upd_id]
        rfl
    simp only [List.map_cons, fillRefLists]
    rw [Py.bind_run, hg]
    simp only []
    rw [Py.bind_run, hstep]
    simp only []
    have hcd : (w.upd i (fillObj (w.cdef env i) f)).cdef env i = w.cdef env i := cdef_upd (fill_cls _ _ _)
    rw [ih (by rw [hcd]; exact hd) (fun g hg => by rw [hcd]; exact hs g (by simp [hg])), hcd, upd_upd]
    rfl

/-! ### A whole call -/

/-- the object after the call -/
noncomputable def setObj (env : Env) (n : Nat) (cd : ClassDef) (kvs : List (String × Val)) (o : Obj) : Obj :=
  (fillList cd kvs).foldl (fun o f => fillObj cd f o) (cd.fields.foldl (fun o f => stepObj env n cd kvs f o) o)

/-- strict input has known keys only -/
def KeysKnown (cd : ClassDef) (kvs : List (String × Val)) : Prop := cd.strictInput = true → ∀ k ∈ kvs.map Prod.fst, k ∈ cd.availableNames

theorem strict_run (c : Ctx) (names : List String) (kvs : List (String × Val)) :
    ((∀ k ∈ kvs.map Prod.fst, k ∈ names) ∧ strictCheck c names kvs = .ok ()) ∨ ((¬ ∀ k ∈ kvs.map Prod.fst, k ∈ names) ∧ ∃ e, strictCheck c names kvs = .error e) := by
  induction kvs with
  | nil => exact .inl ⟨by simp, rfl⟩
  | cons e r ih =>
    obtain ⟨k, v⟩ := e
    unfold strictCheck
    by_cases h : k ∈ names
    · rw [if_pos h]
      rcases ih with ⟨h1, h2⟩ | ⟨h1, h2⟩
      · exact .inl ⟨by simpa [h] using h1, h2⟩
      · exact .inr ⟨by simpa [h] using h1, h2⟩
    · rw [if_neg h]
      exact .inr ⟨fun h' => h (h' k (by simp)), _, rfl⟩

theorem fold_cls {α : Type} (g : α → Obj → Obj) (hg : ∀ a o, (g a o).cls = o.cls) (l : List α) : ∀ o, (l.foldl (fun o a => g a o) o).cls = o.cls := by
  induction l with
  | nil => intro o; rfl
  | cons a l ih => intro o; rw [List.foldl_cons, ih, hg]

theorem setObj_cls (n : Nat) (cd : ClassDef) (kvs : List (String × Val)) (o : Obj) : (setObj env n cd kvs o).cls = o.cls := by
  unfold setObj
  rw [fold_cls _ (fill_cls cd), fold_cls _ (fun f o => step_cls n cd kvs f o)]

/-- the call completes if all keys are known and no value is refused, and then changes the
object alone -/
theorem set_run {n i : Nat} {w : World} {kvs : List (String × Val)} (hfuel : 2 ≤ env.fuel) (hd : Distinct (w.cdef env i)) (hp : PlainValues (w.cdef env i) kvs) :
    ((KeysKnown (w.cdef env i) kvs ∧ ∀ f ∈ (w.cdef env i).fields, ¬ Refused env n kvs f (w.heap i)) ∧
      apiSet env (n + 1) i kvs w = (.ok (), w.upd i (setObj env n (w.cdef env i) kvs))) ∨
    (¬ (KeysKnown (w.cdef env i) kvs ∧ ∀ f ∈ (w.cdef env i).fields, ¬ Refused env n kvs f (w.heap i)) ∧
      ∃ e w', apiSet env (n + 1) i kvs w = (.error e, w')) := by
  -- the world in which the fields are written: other marks, the same objects
  let ms := if (inputPk env (w.heap i).cls kvs).isNone then [] else (({ w with marks := [] } : World).markPutp env (inputPk env (w.heap i).cls kvs) i).marks
  let wm : World := { w with marks := ms }
  have hmark : pyWhen (!(inputPk env (w.heap i).cls kvs).isNone) (Py.modify (fun w' => w'.markPutp env (inputPk env (w.heap i).cls kvs) i)) { w with marks := [] } = (.ok (), wm) := by
    unfold pyWhen
    by_cases h : (inputPk env (w.heap i).cls kvs).isNone = true
    · simp only [h, Bool.not_true, Bool.false_eq_true, if_false, wm, ms, if_true]
      rfl
    · simp only [h, Bool.not_false, if_true, wm, ms, Py.modify_run]
      rfl
  let c := rootCtx w i { fillBlanks := false, allFields := some false } (.dict kvs)
  have hc : SetCtx c := ⟨rfl, rfl⟩
  have hrun : apiSet env (n + 1) i kvs w = match applyDict env (Field.ops env (instOps env n)) (w.heap i).cls none c i false kvs wm with
      | (.ok _, w') => (.ok (), { w' with marks := w.marks })
      | (.error e, w') => (.error e, { w' with marks := w.marks }) := by
    unfold apiSet setDict
    rw [Py.bind_run, Py.get_run]
    simp only []
    rw [Py.bind_run]
    unfold withFreshMarks
    rw [root_transform, Py.bind_run, hmark]
    simp only []
    rw [Py.bind_run]
    rcases applyDict env (Field.ops env (instOps env n)) (w.heap i).cls none c i false kvs wm with ⟨e | u, w'⟩ <;> rfl
  rw [hrun]
  unfold applyDict
  rw [Py.bind_run, Py.get_run]
  simp only [Option.getD_none]
  have hcd : wm.cdef env i = w.cdef env i := rfl
  rw [hcd, Py.bind_run]
  have hst : (w.cdef env i) = env.cls (w.heap i).cls := rfl
  by_cases hs : (env.cls (w.heap i).cls).strictInput = true ∧ ¬ ∀ k ∈ kvs.map Prod.fst, k ∈ (w.cdef env i).availableNames
  · right
    rcases strict_run c (w.cdef env i).availableNames kvs with ⟨h1, _⟩ | ⟨_, e, he⟩
    · exact absurd h1 hs.2
    refine ⟨fun h => hs.2 (h.1 hs.1), e, { wm with marks := w.marks }, ?_⟩
    simp only [pyWhen, hs.1, if_true, readW, he]
  · have hk : KeysKnown (w.cdef env i) kvs := by
      intro h
      exact Classical.byContradiction (fun h' => hs ⟨h, h'⟩)
    have hpw : pyWhen (env.cls (w.heap i).cls).strictInput (readW (fun _ => strictCheck c (w.cdef env i).availableNames kvs)) wm = (.ok (), wm) := by
      unfold pyWhen
      split
      · rename_i h
        rcases strict_run c (w.cdef env i).availableNames kvs with ⟨_, h1⟩ | ⟨h1, _⟩
        · simp only [readW, h1]
        · exact absurd (hk h) h1
      · rfl
    rw [hpw]
    simp only []
    rw [Py.bind_run]
    rcases fields_run (n := n) (w := wm) (c := c) (by omega) hc rfl (w.cdef env i).fields hd hp (fun f hf => hf) hd.names with
      ⟨⟨f, hf, hR⟩, e, w', hr⟩ | ⟨hR, hr⟩
    · right
      refine ⟨fun h => h.2 f hf hR, e, { w' with marks := w.marks }, ?_⟩
      rw [hr]
    · left
      refine ⟨⟨hk, hR⟩, ?_⟩
      rw [hr]
      simp only []
      have hcd2 : (wm.upd i (fun o => (w.cdef env i).fields.foldl (fun o f => stepObj env n (w.cdef env i) kvs f o) o)).cdef env i = w.cdef env i :=
        cdef_upd (fold_cls _ (fun f o => step_cls n _ kvs f o) _ _)
      have hfl : nonnullRefLists kvs (w.cdef env i).fields = (fillList (w.cdef env i) kvs).map Field.name := rfl
      rw [hcd, hfl, fills_run hfuel _ (by rw [hcd2]; exact hd) (by
        intro f hf
        rw [hcd2]
        have := List.mem_filter.1 hf
        simp only [Bool.and_eq_true, decide_eq_true_eq] at this
        exact ⟨this.1, this.2.1.1.2, this.2.1.2⟩), hcd2, upd_upd]
      rfl

/-! ### Steps on different fields can be swapped -/

theorem SameFacts.of {o o' : Obj} (h1 : o.cls = o'.cls) (h2 : o.attrs = o'.attrs) (h3 : o.isNew = o'.isNew) (h4 : o.isModified = o'.isModified)
    (h5 : o.unlinked = o'.unlinked) (h6 : o.linkKeys = o'.linkKeys) (h7 : o.unlinkKeys = o'.unlinkKeys) (h8 : o.graph = o'.graph)
    (h9 : o.operator = o'.operator) (h10 : o.picks = o'.picks) (h11 : o.isDeleted = o'.isDeleted) (hm : ∀ m, m ∈ o.modFields ↔ m ∈ o'.modFields)
    (hp : ∀ m, dictGet o.prev m = dictGet o'.prev m) : SameFacts o o' := by
  refine ⟨?_, hm, hp⟩
  simp only [h1, h2, h3, h4, h5, h6, h7, h8, h9, h10, h11]

theorem SameFacts.setVal {o o' : Obj} (h : SameFacts o o') (m : String) (v : Val) : SameFacts (setVal m v o) (setVal m v o') := by
  refine ⟨?_, h.marks, h.prev⟩
  have := h.rest
  simp only [Obj.mk.injEq] at this
  obtain ⟨h1, h2, h3, h4, _, _, h5, h6, h7, h8, h9, h10, h11⟩ := this
  simp only [JC.setVal, h1, h2, h3, h4, h5, h6, h7, h8, h9, h10, h11]

theorem SameFacts.track {o o' : Obj} (h : SameFacts o o') (cd : ClassDef) (f : Field) : SameFacts (trackObj cd f o) (trackObj cd f o') := by
  have hn := h.isNew
  unfold trackObj
  rw [hn]
  split
  · exact h
  · have := h.rest
    simp only [Obj.mk.injEq] at this
    obtain ⟨h1, h2, h3, h4, _, _, h5, h6, h7, h8, h9, h10, h11⟩ := this
    refine SameFacts.of h1 h2 rfl rfl h5 h6 h7 h8 h9 h10 h11 (fun m => ?_) (fun m => ?_)
    · simp only [mem_setAdd, h.marks m]
    · simp only [h.prev f.name]
      split
      · rw [dictGet_append, dictGet_append, h.prev m, h2]
      · exact h.prev m

/-- recording one change and recording another -/
theorem track_comm (cd : ClassDef) {f g : Field} (hne : f.name ≠ g.name) (o : Obj) :
    SameFacts (trackObj cd f (trackObj cd g o)) (trackObj cd g (trackObj cd f o)) := by
  unfold trackObj
  by_cases hn : o.isNew = true
  · simp only [hn, if_true]
    exact SameFacts.refl o
  · simp only [hn, Bool.false_eq_true, if_false]
    refine SameFacts.of rfl rfl rfl rfl rfl rfl rfl rfl rfl rfl rfl (fun m => ?_) (fun m => ?_)
    · simp only [mem_setAdd]
      constructor <;> rintro ((h | h) | h) <;> simp [h]
    · have hf : ∀ v, dictGet (o.prev ++ [(g.name, v)]) f.name = dictGet o.prev f.name := fun v => dictGet_other hne _ v
      have hg : ∀ v, dictGet (o.prev ++ [(f.name, v)]) g.name = dictGet o.prev g.name := fun v => dictGet_other (Ne.symm hne) _ v
      cases hrf : (recordsPrev cd f && (dictGet o.prev f.name).isNone) <;> cases hrg : (recordsPrev cd g && (dictGet o.prev g.name).isNone) <;>
        simp only [hrf, hrg, hf, hg, if_true, Bool.false_eq_true, if_false]
      rw [dictGet_append, dictGet_append, dictGet_append, dictGet_append]
      cases hm : dictGet o.prev m with
      | some v => simp
      | none =>
        simp only [Option.none_or]
        by_cases h1 : m = f.name
        · subst h1
          simp [dictGet, Ne.symm hne]
        · by_cases h2 : m = g.name
          · subst h2
            simp [dictGet, hne]
          · simp [dictGet, Ne.symm h1, Ne.symm h2]

theorem setVal_comm {a b : String} {u v : Val} (h : a ≠ b ∨ u = v) (o : Obj) : setVal a u (setVal b v o) = setVal b v (setVal a u o) := by
  unfold setVal
  simp only [Obj.mk.injEq, true_and, and_true]
  funext m
  by_cases h1 : m = a <;> by_cases h2 : m = b
  · subst h1
    rcases h with h | h
    · exact absurd h2 h
    · simp [h]
  · simp [h1, show ¬ a = b from h1 ▸ h2]
  · simp [h2, show ¬ b = a from h2 ▸ h1]
  · simp [h1, h2]

theorem setVal_track (cd : ClassDef) {f : Field} {m : String} {v : Val} (h : m ≠ f.name) (o : Obj) :
    setVal m v (trackObj cd f o) = trackObj cd f (setVal m v o) := by
  unfold trackObj setVal
  by_cases hn : o.isNew = true
  · simp [hn]
  · simp [hn, Ne.symm h]

/-- a conditional write of a field and perhaps of its reference ids, with the record of the change -/
def chg (cd : ClassDef) (f : Field) (v : Val) (key : Option String) (o : Obj) : Obj :=
  (match key with
    | some k => setVal k (.list [])
    | none => fun o => o) (setVal f.name v (trackObj cd f o))

theorem chg_attr {cd : ClassDef} {f : Field} {v : Val} {key : Option String} {o : Obj} {m : String} (h : m ≠ f.name) (hk : ∀ k, key = some k → m ≠ k) :
    (chg cd f v key o).attrs m = o.attrs m := by
  unfold chg
  cases key with
  | none => simp [setVal, h, (trackObj_facts cd f o).2.1]
  | some k => simp [setVal, h, hk k rfl, (trackObj_facts cd f o).2.1]

theorem chg_congr {cd : ClassDef} {f : Field} {v : Val} {key : Option String} {o o' : Obj} (h : SameFacts o o') : SameFacts (chg cd f v key o) (chg cd f v key o') := by
  unfold chg
  cases key with
  | none => exact (h.track cd f).setVal _ _
  | some k => exact ((h.track cd f).setVal _ _).setVal _ _

theorem chg_comm {cd : ClassDef} {f g : Field} {v u : Val} {kf kg : Option String} (hne : f.name ≠ g.name) (h1 : ∀ k, kf = some k → k ≠ g.name)
    (h2 : ∀ k, kg = some k → k ≠ f.name) (o : Obj) : SameFacts (chg cd f v kf (chg cd g u kg o)) (chg cd g u kg (chg cd f v kf o)) := by
  have base : SameFacts (setVal f.name v (trackObj cd f (setVal g.name u (trackObj cd g o))))
      (setVal g.name u (trackObj cd g (setVal f.name v (trackObj cd f o)))) := by
    rw [← setVal_track cd (Ne.symm hne), ← setVal_track cd hne, setVal_comm (.inl hne)]
    exact ((track_comm cd hne o).setVal _ _).setVal _ _
  unfold chg
  cases kf with
  | none =>
    cases kg with
    | none => exact base
    | some k =>
      have hk := h2 k rfl
      simp only []
      rw [← setVal_track cd hk, setVal_comm (.inl (Ne.symm hk))]
      exact base.setVal _ _
  | some k' =>
    have hk' := h1 k' rfl
    cases kg with
    | none =>
      simp only []
      rw [← setVal_track cd hk', setVal_comm (a := g.name) (.inl (Ne.symm hk'))]
      exact base.setVal _ _
    | some k =>
      have hk := h2 k rfl
      simp only []
      rw [← setVal_track cd hk, setVal_comm (a := f.name) (.inl (Ne.symm hk)), ← setVal_track cd hk', setVal_comm (a := g.name) (.inl (Ne.symm hk')),
        setVal_comm (a := k') (b := k) (.inr rfl)]
      exact (base.setVal _ _).setVal _ _

/-- a step: a change made depending on the present value of the field -/
structure Step where
  field : Field
  todo : Val → Option Val
  key : Option String

/-- run a step -/
def Step.act (cd : ClassDef) (s : Step) (o : Obj) : Obj :=
  match s.todo (o.attrs s.field.name) with
  | some v => chg cd s.field v s.key o
  | none => o

theorem act_congr {cd : ClassDef} (s : Step) {o o' : Obj} (h : SameFacts o o') : SameFacts (s.act cd o) (s.act cd o') := by
  unfold Step.act
  rw [h.attrs]
  split
  · exact chg_congr h
  · exact h

/-- two steps that do not interfere -/
def StepsApart (s t : Step) : Prop :=
  (s.field.name ≠ t.field.name ∧ (∀ k, s.key = some k → k ≠ t.field.name) ∧ (∀ k, t.key = some k → k ≠ s.field.name)) ∨
  s = t ∨ (∀ v, s.todo v = none) ∨ (∀ v, t.todo v = none)

theorem act_comm {cd : ClassDef} {s t : Step} (h : StepsApart s t) (o : Obj) : SameFacts (s.act cd (t.act cd o)) (t.act cd (s.act cd o)) := by
  rcases h with ⟨hne, h1, h2⟩ | rfl | h | h
  · unfold Step.act
    cases ht : t.todo (o.attrs t.field.name) with
    | none =>
      simp only []
      cases hs : s.todo (o.attrs s.field.name) with
      | none => simp only [ht]; exact SameFacts.refl o
      | some v =>
        simp only []
        rw [chg_attr (Ne.symm hne) (fun k hk => Ne.symm (h1 k hk)), ht]
        exact SameFacts.refl _
    | some u =>
      simp only []
      rw [chg_attr hne (fun k hk => Ne.symm (h2 k hk))]
      cases hs : s.todo (o.attrs s.field.name) with
      | none =>
        simp only [ht]
        exact SameFacts.refl _
      | some v =>
        simp only []
        rw [chg_attr (Ne.symm hne) (fun k hk => Ne.symm (h1 k hk)), ht]
        exact chg_comm hne h1 h2 o
  · exact SameFacts.refl _
  · simp only [Step.act, h]; exact SameFacts.refl _
  · simp only [Step.act, h]; exact SameFacts.refl _

/-- run several steps -/
def acts (cd : ClassDef) (l : List Step) (o : Obj) : Obj := l.foldl (fun o s => s.act cd o) o

theorem acts_congr {cd : ClassDef} (l : List Step) : ∀ {o o' : Obj}, SameFacts o o' → SameFacts (acts cd l o) (acts cd l o') := by
  induction l with
  | nil => exact fun h => h
  | cons s l ih => exact fun h => ih (act_congr s h)

theorem acts_append (cd : ClassDef) (l l' : List Step) (o : Obj) : acts cd (l ++ l') o = acts cd l' (acts cd l o) := List.foldl_append

theorem acts_perm {cd : ClassDef} {l l' : List Step} (hp : l.Perm l') (h : ∀ s ∈ l, ∀ t ∈ l, StepsApart s t) : ∀ o, SameFacts (acts cd l o) (acts cd l' o) := by
  induction hp with
  | nil => exact fun o => SameFacts.refl o
  | cons s _ ih => exact fun o => ih (fun a ha b hb => h a (by simp [ha]) b (by simp [hb])) _
  | swap s t l => exact fun o => acts_congr l (act_comm (h s (by simp) t (by simp)) o)
  | trans hp1 _ ih1 ih2 =>
    exact fun o => (ih1 h o).trans (ih2 (fun a ha b hb => h a (hp1.symm.subset ha) b (hp1.symm.subset hb)) o)

/-! ### The steps of a call -/

/-- writing one field of the input -/
noncomputable def wStep (env : Env) (n : Nat) (kvs : List (String × Val)) (f : Field) : Step where
  field := f
  key := none
  todo := fun cur =>
    if hasFieldValue f kvs && allowWrite f cur (givenValue f kvs) then
      (if pyEq ((madeOf env n f (givenValue f kvs)).getD .none) cur then none else some ((madeOf env n f (givenValue f kvs)).getD .none))
    else none

/-- filling a relation list -/
def fStep (f : Field) : Step where
  field := f
  key := if f.store = .localKey then some f.refName else none
  todo := fun cur => if cur.isNone then some (.list []) else none

theorem wStep_act (n : Nat) (cd : ClassDef) (kvs : List (String × Val)) (f : Field) (o : Obj) : (wStep env n kvs f).act cd o = stepObj env n cd kvs f o := by
  unfold Step.act stepObj writes wStep
  simp only []
  split
  · rename_i v hv
    split at hv
    · rename_i hw
      rw [if_pos hw]
      simp only [opObj]
      split at hv
      · cases hv
      · rename_i he
        cases hv
        rw [if_neg he]
        rfl
    · cases hv
  · rename_i hv
    split at hv
    · rename_i hw
      rw [if_pos hw]
      simp only [opObj]
      split at hv
      · rename_i he
        rw [if_pos he]
      · cases hv
    · rename_i hw
      rw [if_neg hw]

theorem fStep_act (cd : ClassDef) (f : Field) (o : Obj) : (fStep f).act cd o = fillObj cd f o := by
  unfold Step.act fillObj fStep chg applyIf
  by_cases h : (o.attrs f.name).isNone = true <;> by_cases hs : f.store = .localKey <;> simp [h, hs]

theorem foldl_map_act {α : Type} (cd : ClassDef) (st : α → Step) (g : α → Obj → Obj) (h : ∀ a o, (st a).act cd o = g a o) (l : List α) :
    ∀ o, l.foldl (fun o a => g a o) o = acts cd (l.map st) o := by
  induction l with
  | nil => intro o; rfl
  | cons a l ih =>
    intro o
    rw [List.foldl_cons, ih, ← h]
    rfl

theorem setObj_acts (n : Nat) (cd : ClassDef) (kvs : List (String × Val)) (o : Obj) :
    setObj env n cd kvs o = acts cd (cd.fields.map (wStep env n kvs) ++ (fillList cd kvs).map fStep) o := by
  unfold setObj
  rw [acts_append, foldl_map_act cd (wStep env n kvs) _ (wStep_act n cd kvs), foldl_map_act cd fStep _ (fStep_act cd)]

theorem wStep_idle {n : Nat} {kvs : List (String × Val)} {f : Field} (h : hasFieldValue f kvs = false) (v : Val) : (wStep env n kvs f).todo v = none := by
  simp [wStep, h]

theorem not_given {f : Field} {kvs : List (String × Val)} (h : ¬ Given f kvs) : hasFieldValue f kvs = false := by
  cases hv : hasFieldValue f kvs with
  | false => rfl
  | true => exact absurd ((hasFieldValue_iff f kvs).1 hv) h

theorem ref_not_given {cd : ClassDef} {kvs : List (String × Val)} (hd : Distinct cd) (hp : PlainValues cd kvs) {f : Field} (hf : f ∈ cd.fields) (hr : f.isRef = true) :
    hasFieldValue f kvs = false := by
  refine not_given (fun hg => ?_)
  obtain ⟨f', hf', _, hr', _⟩ := (hp.field f hf hg).1
  rw [hd.field hf] at hf'
  cases hf'
  rw [hr] at hr'
  cases hr'

theorem fillList_eq {cd : ClassDef} {kvs : List (String × Val)} (hd : Distinct cd) (hp : PlainValues cd kvs) : fillList cd kvs = fillList cd [] := by
  unfold fillList
  refine List.filter_congr (fun f hf => ?_)
  cases hr : f.isRef with
  | false => simp
  | true => rw [ref_not_given hd hp hf hr]; simp [hasFieldValue, dictGet]

theorem fillList_mem {cd : ClassDef} {kvs : List (String × Val)} {f : Field} (h : f ∈ fillList cd kvs) : f ∈ cd.fields ∧ f.isRef = true := by
  have := List.mem_filter.1 h
  simp only [Bool.and_eq_true, decide_eq_true_eq] at this
  exact ⟨this.1, this.2.1.1.2⟩

theorem same_name {cd : ClassDef} (hd : Distinct cd) {f g : Field} (hf : f ∈ cd.fields) (hg : g ∈ cd.fields) (h : f.name = g.name) : f = g := by
  have h1 := hd.field hf
  rw [h, hd.field hg] at h1
  exact (Option.some.inj h1).symm

theorem key_ne {cd : ClassDef} (hd : Distinct cd) {f g : Field} (hf : f ∈ cd.fields) (hg : g ∈ cd.fields) {k : String} (hk : (fStep f).key = some k) : k ≠ g.name := by
  rintro rfl
  simp only [fStep] at hk
  split at hk
  · rename_i hs
    cases hk' : cd.localKey? g.name with
    | none =>
      unfold ClassDef.localKey? at hk'
      have := List.find?_eq_none.1 hk' f hf
      simp [hs, Option.some.inj hk] at this
    | some x => rw [hd.noKey g hg] at hk'; cases hk'
  · cases hk

/-- the steps of plain inputs about different fields do not interfere -/
theorem steps_apart {n : Nat} {cd : ClassDef} {a b : List (String × Val)} (hd : Distinct cd) (ha : PlainValues cd a) (hb : PlainValues cd b)
    (hs : ∀ f ∈ cd.fields, ¬ (Given f a ∧ Given f b)) {s t : Step}
    (h1 : s ∈ cd.fields.map (wStep env n a) ∨ s ∈ cd.fields.map (wStep env n b) ∨ s ∈ (fillList cd []).map fStep)
    (h2 : t ∈ cd.fields.map (wStep env n a) ∨ t ∈ cd.fields.map (wStep env n b) ∨ t ∈ (fillList cd []).map fStep) : StepsApart s t := by
  have ww : ∀ {x y : List (String × Val)} {f g : Field}, f ∈ cd.fields → g ∈ cd.fields →
      (f = g → x = y ∨ hasFieldValue f x = false ∨ hasFieldValue f y = false) → StepsApart (wStep env n x f) (wStep env n y g) := by
    intro x y f g hf hg h
    by_cases he : f.name = g.name
    · have := same_name hd hf hg he
      subst this
      rcases h rfl with rfl | h | h
      · exact .inr (.inl rfl)
      · exact .inr (.inr (.inl (wStep_idle h)))
      · exact .inr (.inr (.inr (wStep_idle h)))
    · exact .inl ⟨he, fun k hk => (by cases hk), fun k hk => (by cases hk)⟩
  have sep : ∀ f ∈ cd.fields, hasFieldValue f a = false ∨ hasFieldValue f b = false := by
    intro f hf
    by_cases h : Given f a
    · exact .inr (not_given (fun h' => hs f hf ⟨h, h'⟩))
    · exact .inl (not_given h)
  have fw : ∀ {x : List (String × Val)} {f g : Field}, PlainValues cd x → f ∈ fillList cd [] → g ∈ cd.fields → StepsApart (fStep f) (wStep env n x g) := by
    intro x f g hx hf hg
    obtain ⟨hf, hr⟩ := fillList_mem hf
    by_cases he : f.name = g.name
    · have := same_name hd hf hg he
      subst this
      exact .inr (.inr (.inr (wStep_idle (ref_not_given hd hx hf hr))))
    · exact .inl ⟨he, fun k hk => key_ne hd hf hg hk, fun k hk => (by cases hk)⟩
  have symm : ∀ {s t : Step}, StepsApart s t → StepsApart t s := by
    rintro s t (⟨h1, h2, h3⟩ | h | h | h)
    · exact .inl ⟨Ne.symm h1, h3, h2⟩
    · exact .inr (.inl h.symm)
    · exact .inr (.inr (.inr h))
    · exact .inr (.inr (.inl h))
  have ff : ∀ {f g : Field}, f ∈ fillList cd [] → g ∈ fillList cd [] → StepsApart (fStep f) (fStep g) := by
    intro f g hf hg
    have hf := (fillList_mem hf).1
    have hg := (fillList_mem hg).1
    by_cases he : f.name = g.name
    · rw [same_name hd hf hg he]
      exact .inr (.inl rfl)
    · exact .inl ⟨he, fun k hk => key_ne hd hf hg hk, fun k hk => key_ne hd hg hf hk⟩
  rcases h1 with h1 | h1 | h1 <;> obtain ⟨f, hf, rfl⟩ := List.mem_map.1 h1 <;>
    rcases h2 with h2 | h2 | h2 <;> obtain ⟨g, hg, rfl⟩ := List.mem_map.1 h2
  · exact ww hf hg (fun _ => .inl rfl)
  · exact ww hf hg (fun _ => .inr (sep f hf))
  · exact symm (fw ha hg hf)
  · exact ww hf hg (fun _ => .inr ((sep f hf).symm))
  · exact ww hf hg (fun _ => .inl rfl)
  · exact symm (fw hb hg hf)
  · exact fw ha hf hg
  · exact fw hb hf hg
  · exact ff hf hg

/-- filling again does nothing -/
theorem fill_keeps {cd : ClassDef} {f : Field} {o : Obj} {m : String} (h : o.attrs m ≠ .none) : ((fStep f).act cd o).attrs m ≠ .none := by
  rw [fStep_act]
  unfold fillObj applyIf
  split
  · split
    · simp only [setVal, (trackObj_facts cd f o).2.1]
      split
      · exact fun h => by cases h
      · split
        · exact fun h => by cases h
        · exact h
    · simp only [setVal, (trackObj_facts cd f o).2.1]
      split
      · exact fun h => by cases h
      · exact h
  · exact h

theorem fills_keep {cd : ClassDef} {m : String} (l : List Field) : ∀ {o : Obj}, o.attrs m ≠ .none → (acts cd (l.map fStep) o).attrs m ≠ .none := by
  induction l with
  | nil => exact fun h => h
  | cons f l ih => exact fun h => ih (fill_keeps h)

theorem fills_fill {cd : ClassDef} (l : List Field) : ∀ (o : Obj), ∀ f ∈ l, (acts cd (l.map fStep) o).attrs f.name ≠ .none := by
  induction l with
  | nil => intro o f hf; cases hf
  | cons g l ih =>
    intro o f hf
    rcases List.mem_cons.1 hf with rfl | hf
    · refine fills_keep l ?_
      show ((fStep f).act cd o).attrs f.name ≠ .none
      rw [fStep_act]
      unfold fillObj applyIf
      split
      · split
        · simp only [setVal]
          split
          · exact fun h => by cases h
          · simp
        · simp [setVal]
      · rename_i h
        exact fun h' => h (isNone_iff'.2 h')
    · exact ih _ f hf

theorem fills_idle {cd : ClassDef} (l : List Field) : ∀ {o : Obj}, (∀ f ∈ l, o.attrs f.name ≠ .none) → acts cd (l.map fStep) o = o := by
  induction l with
  | nil => intro o _; rfl
  | cons f l ih =>
    intro o h
    show acts cd (l.map fStep) ((fStep f).act cd o) = o
    have : (fStep f).act cd o = o := by
      rw [fStep_act]
      unfold fillObj
      rw [if_neg]
      exact fun h' => h f (by simp) (isNone_iff'.1 h')
    rw [this]
    exact ih (fun g hg => h g (by simp [hg]))

/-- what the steps leave alone -/
theorem acts_attr {cd : ClassDef} {m : String} (l : List Step) : ∀ {o : Obj},
    (∀ s ∈ l, (m ≠ s.field.name ∧ ∀ k, s.key = some k → m ≠ k) ∨ ∀ v, s.todo v = none) → (acts cd l o).attrs m = o.attrs m := by
  induction l with
  | nil => intro o _; rfl
  | cons s l ih =>
    intro o h
    refine (ih (o := s.act cd o) (fun t ht => h t (by simp [ht]))).trans ?_
    unfold Step.act
    split
    · rename_i v hv
      rcases h s (by simp) with h | h
      · exact chg_attr h.1 h.2
      · rw [h] at hv; cases hv
    · rfl

/-- the value of a plain field after the call comes from its own step -/
theorem setObj_attr {n : Nat} {cd : ClassDef} {kvs : List (String × Val)} (hd : Distinct cd) {f : Field} (hf : f ∈ cd.fields) (hr : f.isRef = false) (o : Obj) :
    (setObj env n cd kvs o).attrs f.name = (stepObj env n cd kvs f o).attrs f.name := by
  rw [setObj_acts, acts_append]
  rw [acts_attr (o := acts cd (cd.fields.map (wStep env n kvs)) o)]
  · obtain ⟨pre, post, hfs⟩ := List.append_of_mem hf
    have hn := hd.names
    rw [hfs, List.map_append, List.map_cons] at hn
    have hpre : ∀ g ∈ pre, f.name ≠ g.name := by
      intro g hg he
      have := (List.nodup_append.1 hn).2.2 g.name (List.mem_map_of_mem hg) f.name (by simp)
      exact this he.symm
    have hpost : ∀ g ∈ post, f.name ≠ g.name := by
      intro g hg he
      have := (List.nodup_cons.1 (List.nodup_append.1 hn).2.1).1
      exact this (he ▸ List.mem_map_of_mem hg)
    rw [hfs, List.map_append, List.map_cons, acts_append]
    show (acts cd (post.map (wStep env n kvs)) ((wStep env n kvs f).act cd (acts cd (pre.map (wStep env n kvs)) o))).attrs f.name = _
    rw [acts_attr, wStep_act]
    · have h0 : (acts cd (pre.map (wStep env n kvs)) o).attrs f.name = o.attrs f.name := by
        refine acts_attr _ ?_
        intro s hs
        obtain ⟨g, hg, rfl⟩ := List.mem_map.1 hs
        exact .inl ⟨hpre g hg, fun k hk => (by cases hk)⟩
      unfold stepObj
      rw [writes_congr h0]
      split
      · simp only [opObj, h0]
        split
        · exact h0
        · simp [setVal]
      · exact h0
    · intro s hs
      obtain ⟨g, hg, rfl⟩ := List.mem_map.1 hs
      exact .inl ⟨hpost g hg, fun k hk => (by cases hk)⟩
  · intro s hs
    obtain ⟨g, hg, rfl⟩ := List.mem_map.1 hs
    obtain ⟨hg, hgr⟩ := fillList_mem hg
    refine .inl ⟨fun he => ?_, fun k hk => Ne.symm (key_ne hd hg hf hk)⟩
    rw [same_name hd hf hg he, hgr] at hr
    cases hr

theorem step_idle {n : Nat} {cd : ClassDef} {kvs : List (String × Val)} {f : Field} (h : hasFieldValue f kvs = false) (o : Obj) : stepObj env n cd kvs f o = o := by
  simp [stepObj, writes, h]

/-! ### C90 -/

/-- **C90**: repeating a `set` with plain values does nothing: if `set` completed, the same `set`
on the same object - at once, or after it was saved and marked as unmodified, or after anything
else that kept the values of the object - completes and changes nothing at all: no value of any
object, no flag, no modified field, no previous value. Values that differ from themselves (NaN)
are left out (`RepeatDemo.nan_again`). -/
theorem set_again {n i : Nat} {w w₁ w₂ : World} {kvs : List (String × Val)} (hfuel : 2 ≤ env.fuel) (hd : Distinct (w.cdef env i))
    (hp : PlainValues (w.cdef env i) kvs) (h : apiSet env (n + 1) i kvs w = (.ok (), w₁))
    (hself : ∀ f ∈ (w.cdef env i).fields, Given f kvs → ∀ t, TransformOf env f (givenValue f kvs) t → pyEq t t = true)
    (hcls : (w₂.heap i).cls = (w₁.heap i).cls) (hattrs : (w₂.heap i).attrs = (w₁.heap i).attrs) :
    apiSet env (n + 1) i kvs w₂ = (.ok (), w₂) := by
  rcases set_run (n := n) hfuel hd hp with ⟨⟨hk, hR⟩, hrun⟩ | ⟨_, e, w', hrun⟩
  rotate_left
  · rw [hrun] at h; cases h
  rw [h] at hrun
  cases hrun
  rw [upd_heap_self] at hcls hattrs
  have hcd : w₂.cdef env i = w.cdef env i := by
    unfold World.cdef
    rw [hcls, setObj_cls]
  -- every field: not writable, or written already
  have key : ∀ f ∈ (w.cdef env i).fields, ¬ Refused env n kvs f (w₂.heap i) ∧ stepObj env n (w.cdef env i) kvs f (w₂.heap i) = w₂.heap i := by
    intro f hf
    cases hg : hasFieldValue f kvs with
    | false => exact ⟨fun h => by have := h.1; simp [writes, hg] at this, step_idle hg _⟩
    | true =>
      have hG := (hasFieldValue_iff f kvs).1 hg
      obtain ⟨⟨f', hf', hl, hr, hc⟩, hby⟩ := hp.field f hf hG
      have hff : f' = f := Option.some.inj (hf'.symm.trans (hd.field hf))
      subst hff
      have ha : (w₂.heap i).attrs f'.name = (stepObj env n (w.cdef env i) kvs f' (w.heap i)).attrs f'.name := by
        rw [hattrs, setObj_attr hd hf hr]
      cases hw : writes kvs f' (w.heap i) with
      | false =>
        have h0 : stepObj env n (w.cdef env i) kvs f' (w.heap i) = w.heap i := by simp [stepObj, hw]
        rw [h0] at ha
        have hw2 : writes kvs f' (w₂.heap i) = false := by rw [writes_congr ha]; exact hw
        exact ⟨fun h => absurd (hw2.symm.trans h.1) (by simp), by simp [stepObj, hw2]⟩
      | true =>
        rcases made_or (env := env) (n := n) hby (givenValue f' kvs) with ⟨t, ht, hm⟩ | ⟨hn, _⟩
        rotate_left
        · exact absurd ⟨hw, hn⟩ (hR f' hf)
        refine ⟨fun h => absurd (ht.symm.trans h.2) (by simp), ?_⟩
        have hts : pyEq t t = true := by
          refine hself f' hf hG t ⟨n, { val := givenValue f' kvs, owner := some i, cfg := { allFields := some false } }, w, w, rfl, ?_⟩
          exact hm _ w ⟨rfl, rfl⟩ rfl
        have hv : pyEq t ((w₂.heap i).attrs f'.name) = true := by
          rw [ha]
          simp only [stepObj, hw, if_true, ht, Option.getD_some, opObj]
          split
          · rename_i he; exact he
          · simp [setVal, hts]
        unfold stepObj
        split
        · simp only [opObj, ht, Option.getD_some, hv, if_true]
        · rfl
  have hfold : ∀ fs : List Field, (∀ f ∈ fs, f ∈ (w.cdef env i).fields) →
      fs.foldl (fun o f => stepObj env n (w.cdef env i) kvs f o) (w₂.heap i) = w₂.heap i := by
    intro fs
    induction fs with
    | nil => intro _; rfl
    | cons f fs ih =>
      intro hs
      rw [List.foldl_cons, (key f (hs f (by simp))).2]
      exact ih (fun g hg => hs g (by simp [hg]))
  have hobj : setObj env n (w.cdef env i) kvs (w₂.heap i) = w₂.heap i := by
    unfold setObj
    rw [hfold _ (fun f hf => hf), foldl_map_act _ fStep _ (fStep_act _)]
    refine fills_idle _ (fun f hf => ?_)
    rw [hattrs, setObj_acts, acts_append]
    exact fills_fill _ _ f hf
  rcases set_run (n := n) (w := w₂) (kvs := kvs) hfuel (by rw [hcd]; exact hd) (by rw [hcd]; exact hp) with ⟨_, hrun⟩ | ⟨hno, _⟩
  · rw [hrun, hcd, upd_congr w₂ i (g := fun o => o) hobj, upd_id]
  · refine absurd ?_ hno
    rw [hcd]
    exact ⟨hk, fun f hf => (key f hf).1⟩

theorem given_append {f : Field} {a b : List (String × Val)} : Given f (a ++ b) ↔ Given f a ∨ Given f b := by
  unfold Given
  simp only [List.map_append, List.mem_append]
  constructor
  · rintro ((h | h) | (h | h)) <;> simp [h]
  · rintro ((h | h) | (h | h)) <;> simp [h]

theorem wStep_left {n : Nat} {f : Field} {a b : List (String × Val)} (h : ¬ Given f b) : wStep env n (a ++ b) f = wStep env n a f := by
  have h1 : dictGet b f.jsonName = none := dictGet_none_iff.2 (fun h' => h (.inl h'))
  have h2 : dictGet b f.name = none := dictGet_none_iff.2 (fun h' => h (.inr h'))
  unfold wStep hasFieldValue givenValue
  simp only [dictGet_append, h1, h2, Option.or_none]

theorem wStep_right {n : Nat} {f : Field} {a b : List (String × Val)} (h : ¬ Given f a) : wStep env n (a ++ b) f = wStep env n b f := by
  have h1 : dictGet a f.jsonName = none := dictGet_none_iff.2 (fun h' => h (.inl h'))
  have h2 : dictGet a f.name = none := dictGet_none_iff.2 (fun h' => h (.inr h'))
  unfold wStep hasFieldValue givenValue
  simp only [dictGet_append, h1, h2, Option.none_or]

theorem refused_left {n : Nat} {f : Field} {a b : List (String × Val)} (h : ¬ Given f b) (o : Obj) : Refused env n (a ++ b) f o ↔ Refused env n a f o := by
  have h1 : dictGet b f.jsonName = none := dictGet_none_iff.2 (fun h' => h (.inl h'))
  have h2 : dictGet b f.name = none := dictGet_none_iff.2 (fun h' => h (.inr h'))
  unfold Refused writes hasFieldValue givenValue
  simp only [dictGet_append, h1, h2, Option.or_none]

theorem refused_right {n : Nat} {f : Field} {a b : List (String × Val)} (h : ¬ Given f a) (o : Obj) : Refused env n (a ++ b) f o ↔ Refused env n b f o := by
  have h1 : dictGet a f.jsonName = none := dictGet_none_iff.2 (fun h' => h (.inl h'))
  have h2 : dictGet a f.name = none := dictGet_none_iff.2 (fun h' => h (.inr h'))
  unfold Refused writes hasFieldValue givenValue
  simp only [dictGet_append, h1, h2, Option.none_or]

theorem plainValues_append {cd : ClassDef} {a b : List (String × Val)} (ha : PlainValues cd a) (hb : PlainValues cd b) : PlainValues cd (a ++ b) where
  field := fun f hf h => (given_append.1 h).elim (ha.field f hf) (hb.field f hf)
  noId := fun f hf h => by
    have h1 := ha.noId f hf h
    have h2 := hb.noId f hf h
    simp only [List.map_append, List.mem_append, not_or]
    exact ⟨⟨h1.1, h2.1⟩, h1.2, h2.2⟩

/-- the steps of the joint input, field by field -/
theorem both_steps {n : Nat} {cd : ClassDef} {a b : List (String × Val)} (fs : List Field) : ∀ (o : Obj), (∀ f ∈ fs, ¬ (Given f a ∧ Given f b)) →
    acts cd (fs.map (wStep env n (a ++ b))) o = acts cd (fs.flatMap (fun f => [wStep env n a f, wStep env n b f])) o := by
  induction fs with
  | nil => intro o _; rfl
  | cons f fs ih =>
    intro o hs
    rw [List.map_cons, List.flatMap_cons, acts_append]
    show acts cd (fs.map (wStep env n (a ++ b))) ((wStep env n (a ++ b) f).act cd o) = acts cd _ ((wStep env n b f).act cd ((wStep env n a f).act cd o))
    rw [ih _ (fun g hg => hs g (by simp [hg]))]
    congr 1
    by_cases h : Given f a
    · have hb : ¬ Given f b := fun h' => hs f (by simp) ⟨h, h'⟩
      rw [wStep_left hb, wStep_act (kvs := b), step_idle (not_given hb)]
    · rw [wStep_right h, wStep_act (kvs := a), step_idle (not_given h)]

theorem pairs_perm {α β : Type} (p q : α → β) (l : List α) : (l.flatMap (fun x => [p x, q x])).Perm (l.map p ++ l.map q) := by
  induction l with
  | nil => exact List.Perm.nil
  | cons x l ih =>
    rw [List.flatMap_cons, List.map_cons, List.map_cons]
    show (p x :: q x :: l.flatMap (fun x => [p x, q x])).Perm (p x :: (l.map p ++ q x :: l.map q))
    exact ((ih.cons (q x)).trans List.perm_middle.symm).cons (p x)

/-- the joint input and the two inputs one after the other -/
theorem setObj_append {n : Nat} {cd : ClassDef} {a b : List (String × Val)} (hd : Distinct cd) (ha : PlainValues cd a) (hb : PlainValues cd b)
    (hs : ∀ f ∈ cd.fields, ¬ (Given f a ∧ Given f b)) (o : Obj) :
    SameFacts (setObj env n cd (a ++ b) o) (setObj env n cd b (setObj env n cd a o)) := by
  rw [setObj_acts, setObj_acts (kvs := b), setObj_acts (kvs := a), fillList_eq hd (plainValues_append ha hb), fillList_eq hd ha, fillList_eq hd hb]
  rw [← acts_append, acts_append, both_steps _ _ hs, ← acts_append]
  have hidle : acts cd (cd.fields.flatMap (fun f => [wStep env n a f, wStep env n b f]) ++ (fillList cd []).map fStep) o =
      acts cd ((cd.fields.flatMap (fun f => [wStep env n a f, wStep env n b f]) ++ (fillList cd []).map fStep) ++ (fillList cd []).map fStep) o := by
    rw [acts_append _ (_ ++ _)]
    refine (fills_idle _ (fun f hf => ?_)).symm
    rw [acts_append]
    exact fills_fill _ _ f hf
  rw [hidle]
  refine acts_perm ?_ ?_ o
  · have h1 := pairs_perm (wStep env n a) (wStep env n b) cd.fields
    refine ((h1.append_right _).append_right _).trans ?_
    rw [List.append_assoc (cd.fields.map (wStep env n a)), List.append_assoc (cd.fields.map (wStep env n a)),
      List.append_assoc (cd.fields.map (wStep env n a))]
    refine List.Perm.append_left _ ?_
    rw [← List.append_assoc ((fillList cd []).map fStep)]
    exact (List.perm_append_comm (l₁ := cd.fields.map (wStep env n b))).append_right _
  · have mem : ∀ s ∈ (cd.fields.flatMap (fun f => [wStep env n a f, wStep env n b f]) ++ (fillList cd []).map fStep) ++ (fillList cd []).map fStep,
        s ∈ cd.fields.map (wStep env n a) ∨ s ∈ cd.fields.map (wStep env n b) ∨ s ∈ (fillList cd []).map fStep := by
      intro s h
      simp only [List.mem_append] at h
      rcases h with (h | h) | h
      · obtain ⟨f, hf, h⟩ := List.mem_flatMap.1 h
        rcases List.mem_cons.1 h with rfl | h
        · exact .inl (List.mem_map_of_mem hf)
        · rw [List.mem_singleton] at h
          exact .inr (.inl (h ▸ List.mem_map_of_mem hf))
      · exact .inr (.inr h)
      · exact .inr (.inr h)
    exact fun s h t h' => steps_apart hd ha hb hs (mem s h) (mem t h')

/-- the same objects: object `i` to a user, everything else exactly -/
def SameWorlds (i : Nat) (w w' : World) : Prop := SameFacts (w.heap i) (w'.heap i) ∧ w = w'.upd i (fun _ => w.heap i)

/-- **C90**: an input can be split: `set` with two inputs of plain values that are about different
fields completes exactly if `set` with the first and then with the second does, and the results
are the same: the same values, modified fields and previous values. -/
theorem set_split {n i : Nat} {w : World} {a b : List (String × Val)} (hfuel : 2 ≤ env.fuel) (hd : Distinct (w.cdef env i))
    (ha : PlainValues (w.cdef env i) a) (hb : PlainValues (w.cdef env i) b) (hs : ∀ f ∈ (w.cdef env i).fields, ¬ (Given f a ∧ Given f b)) :
    (∃ w' w₁ w₂, apiSet env (n + 1) i (a ++ b) w = (.ok (), w') ∧ apiSet env (n + 1) i a w = (.ok (), w₁) ∧
      apiSet env (n + 1) i b w₁ = (.ok (), w₂) ∧ SameWorlds i w' w₂) ∨
    ((∃ e w', apiSet env (n + 1) i (a ++ b) w = (.error e, w')) ∧ ∃ e w', (apiSet env (n + 1) i a >>= fun _ => apiSet env (n + 1) i b) w = (.error e, w')) := by
  have hab := plainValues_append ha hb
  have hcd : (w.upd i (setObj env n (w.cdef env i) a)).cdef env i = w.cdef env i := cdef_upd (setObj_cls _ _ _ _)
  have hkeys : KeysKnown (w.cdef env i) (a ++ b) ↔ KeysKnown (w.cdef env i) a ∧ KeysKnown (w.cdef env i) b := by
    unfold KeysKnown
    simp only [List.map_append, List.mem_append]
    exact ⟨fun h => ⟨fun hs k hk => h hs k (.inl hk), fun hs k hk => h hs k (.inr hk)⟩, fun h hs k hk => hk.elim (h.1 hs k) (h.2 hs k)⟩
  have hidle : ∀ {kvs : List (String × Val)} {f : Field} {o : Obj}, ¬ Given f kvs → ¬ Refused env n kvs f o := by
    intro kvs f o h hR
    have := hR.1
    simp [writes, not_given h] at this
  have hsecond : ∀ f ∈ (w.cdef env i).fields, Refused env n b f ((w.upd i (setObj env n (w.cdef env i) a)).heap i) ↔ Refused env n b f (w.heap i) := by
    intro f hf
    by_cases hg : Given f b
    · have hna : ¬ Given f a := fun h => hs f hf ⟨h, hg⟩
      obtain ⟨⟨f', hf', _, hr, _⟩, _⟩ := hb.field f hf hg
      have hff : f' = f := Option.some.inj (hf'.symm.trans (hd.field hf))
      subst hff
      unfold Refused
      rw [upd_heap_self, writes_congr (o' := w.heap i)]
      rw [setObj_attr hd hf hr, step_idle (not_given hna)]
    · exact ⟨fun h => absurd h (hidle hg), fun h => absurd h (hidle hg)⟩
  have hiff : (KeysKnown (w.cdef env i) (a ++ b) ∧ ∀ f ∈ (w.cdef env i).fields, ¬ Refused env n (a ++ b) f (w.heap i)) ↔
      (KeysKnown (w.cdef env i) a ∧ ∀ f ∈ (w.cdef env i).fields, ¬ Refused env n a f (w.heap i)) ∧
      (KeysKnown (w.cdef env i) b ∧ ∀ f ∈ (w.cdef env i).fields, ¬ Refused env n b f (w.heap i)) := by
    rw [hkeys]
    constructor
    · rintro ⟨⟨h1, h2⟩, h3⟩
      refine ⟨⟨h1, fun f hf => ?_⟩, h2, fun f hf => ?_⟩
      · by_cases hg : Given f b
        · exact hidle (fun h => hs f hf ⟨h, hg⟩)
        · rw [← refused_left hg]; exact h3 f hf
      · by_cases hg : Given f a
        · exact hidle (fun h => hs f hf ⟨hg, h⟩)
        · rw [← refused_right hg]; exact h3 f hf
    · rintro ⟨⟨h1, h2⟩, h3, h4⟩
      refine ⟨⟨h1, h3⟩, fun f hf => ?_⟩
      by_cases hg : Given f b
      · rw [refused_right (fun h => hs f hf ⟨h, hg⟩)]; exact h4 f hf
      · rw [refused_left hg]; exact h2 f hf
  rcases set_run (n := n) hfuel hd ha with ⟨ca, ra⟩ | ⟨ca, e, w', ra⟩
  · rcases set_run (n := n) (w := w.upd i (setObj env n (w.cdef env i) a)) (kvs := b) hfuel (by rw [hcd]; exact hd) (by rw [hcd]; exact hb) with
      ⟨cb, rb⟩ | ⟨cb, e, w', rb⟩
    · rw [hcd] at cb rb
      have cb' : KeysKnown (w.cdef env i) b ∧ ∀ f ∈ (w.cdef env i).fields, ¬ Refused env n b f (w.heap i) :=
        ⟨cb.1, fun f hf h => cb.2 f hf ((hsecond f hf).2 h)⟩
      rcases set_run (n := n) hfuel hd hab with ⟨_, rab⟩ | ⟨cab, _⟩
      · refine .inl ⟨_, _, _, rab, ra, rb, ?_⟩
        constructor
        · rw [upd_heap_self, upd_heap_self, upd_heap_self]
          exact setObj_append hd ha hb hs _
        · rw [upd_upd, upd_upd]
          exact upd_congr w i (by rw [upd_heap_self])
      · exact absurd (hiff.2 ⟨ca, cb'⟩) cab
    · rw [hcd] at cb
      refine .inr ⟨?_, e, w', by rw [Py.bind_run, ra]; exact rb⟩
      rcases set_run (n := n) hfuel hd hab with ⟨cab, _⟩ | ⟨_, h⟩
      · refine absurd ?_ cb
        exact ⟨(hiff.1 cab).2.1, fun f hf h => (hiff.1 cab).2.2 f hf ((hsecond f hf).1 h)⟩
      · exact h
  · refine .inr ⟨?_, e, w', by rw [Py.bind_run, ra]⟩
    rcases set_run (n := n) hfuel hd hab with ⟨cab, _⟩ | ⟨_, h⟩
    · exact absurd (hiff.1 cab).1 ca
    · exact h
end JC

/-! ### A concrete program -/

namespace JC.RepeatDemo
open JC
open JC.Demo (fId optStr attrsOf)

/-- a transform that is not idempotent: `lambda x: x + '!'` -/
def shout : Leaf where
  transform := fun _ c => match c.val with
    | .str s => .ok (.str (s ++ "!"))
    | v => .ok v

def fTitle : Field := { name := "title", jsonName := "title", chain := [.leaf optStr, .eager, .leaf shout] }
def fPen : Field := { name := "pen_name", jsonName := "penName", writeRule := .writeOnce, chain := [.leaf optStr] }
def fTags : Field := { name := "tags", jsonName := "tags", ftype := .list, chain := [.listOf false .no [.leaf optStr, .leaf shout]] }
def fSize : Field := { name := "size", jsonName := "size", chain := [.leaf {}] }
def fPart : Field := { name := "part", jsonName := "part", ftype := .inst, isInst := true, chain := [.instOf "Note" none] }
def fLinks : Field := { name := "links", jsonName := "links", store := .foreignKey, ftype := .list, collNonnull := true,
                        chain := [.listOf true .no [.instOf "Note" none]] }

def note : ClassDef where
  name := "Note"
  primary := some "id"
  fields := [fId, fTitle, fPen, fTags, fSize, fPart, fLinks]
  resetAllFields := true

def env : Env where
  cls := fun n => if n = "Note" then note else {}
  pystr := fun v => match v with
    | .str s => s
    | _ => ""

/-- a saved note -/
def world : World where
  heap := fun i => match i with
    | 0 => { cls := "Note", isNew := false, attrs := attrsOf [("id", .str "n0"), ("title", .str "t")] }
    | _ => {}
  next := 1

def first : List (String × Val) := [("title", .str "a"), ("penName", .str "p")]
def second : List (String × Val) := [("tags", .list [.str "x", .str "y"])]

theorem fields_eq : (world.cdef env 0).fields = [fId, fTitle, fPen, fTags, fSize, fPart, fLinks] := by
  simp [World.cdef, world, env, note]

theorem optStr_byValue : optStr.ByValue := by
  intro h h' c c' he
  unfold optStr
  simp only [he]
  exact ⟨rfl, by cases c'.val <;> simp [AlikeRes, Ctx.vexc]⟩

theorem shout_byValue : shout.ByValue := by
  intro h h' c c' he
  unfold shout
  simp only [he]
  exact ⟨by cases c'.val <;> rfl, rfl⟩

theorem distinct : Distinct (world.cdef env 0) where
  names := by rw [fields_eq]; decide
  noKey := by
    intro f _
    unfold ClassDef.localKey?
    rw [fields_eq]
    simp [fId, fTitle, fPen, fTags, fSize, fPart, fLinks]

theorem noKeys : ∀ f ∈ (world.cdef env 0).fields, f.store ≠ .localKey := by
  rw [fields_eq]
  simp [fId, fTitle, fPen, fTags, fSize, fPart, fLinks]

theorem field_title : (world.cdef env 0).field? "title" = some fTitle := by
  unfold ClassDef.field?
  rw [fields_eq]
  rfl
theorem field_pen : (world.cdef env 0).field? "pen_name" = some fPen := by
  unfold ClassDef.field?
  rw [fields_eq]
  rfl
theorem field_tags : (world.cdef env 0).field? "tags" = some fTags := by
  unfold ClassDef.field?
  rw [fields_eq]
  rfl

theorem noLocal (n : String) : (world.cdef env 0).localKey? n = none := by
  unfold ClassDef.localKey?
  rw [fields_eq]
  simp [fId, fTitle, fPen, fTags, fSize, fPart, fLinks]

theorem plain_first : PlainValues (world.cdef env 0) first where
  field := by
    rw [fields_eq]
    intro f hf hg
    simp only [List.mem_cons, List.not_mem_nil, or_false] at hf
    rcases hf with rfl | rfl | rfl | rfl | rfl | rfl | rfl
    · exact absurd hg (by simp [Given, first, fId])
    · exact ⟨⟨fTitle, field_title, noLocal _, rfl, by decide⟩, optStr_byValue, trivial, shout_byValue, trivial⟩
    · exact ⟨⟨fPen, field_pen, noLocal _, rfl, by decide⟩, optStr_byValue, trivial⟩
    · exact absurd hg (by simp [Given, first, fTags])
    · exact absurd hg (by simp [Given, first, fSize])
    · exact absurd hg (by simp [Given, first, fPart])
    · exact absurd hg (by simp [Given, first, fLinks])
  noId := fun f hf h => absurd h (noKeys f hf)

theorem plain_second : PlainValues (world.cdef env 0) second where
  field := by
    rw [fields_eq]
    intro f hf hg
    simp only [List.mem_cons, List.not_mem_nil, or_false] at hf
    rcases hf with rfl | rfl | rfl | rfl | rfl | rfl | rfl
    · exact absurd hg (by simp [Given, second, fId])
    · exact absurd hg (by simp [Given, second, fTitle])
    · exact absurd hg (by simp [Given, second, fPen])
    · exact ⟨⟨fTags, field_tags, noLocal _, rfl, by decide⟩, ⟨rfl, optStr_byValue, shout_byValue, trivial⟩, trivial⟩
    · exact absurd hg (by simp [Given, second, fSize])
    · exact absurd hg (by simp [Given, second, fPart])
    · exact absurd hg (by simp [Given, second, fLinks])
  noId := fun f hf h => absurd h (noKeys f hf)

theorem apart : ∀ f ∈ (world.cdef env 0).fields, ¬ (Given f first ∧ Given f second) := by
  rw [fields_eq]
  simp [Given, first, second, fId, fTitle, fPen, fTags, fSize, fPart, fLinks]

/-- the first call completes and changes the object: two values and a list that was None -/
theorem first_run : (apiSet env 5 0 first world).1 = .ok () ∧ (apiSet env 5 0 first world).2.attr 0 "title" = .str "a!" ∧
    (apiSet env 5 0 first world).2.attr 0 "pen_name" = .str "p" ∧
    ((apiSet env 5 0 first world).2.heap 0).modFields = ["title", "pen_name", "links"] ∧
    ((apiSet env 5 0 first world).2.heap 0).prev.length = 3 := ⟨rfl, rfl, rfl, rfl, rfl⟩

/-- what the two pipelines make is equal to itself -/
theorem first_self : ∀ f ∈ (world.cdef env 0).fields, Given f first → ∀ t, TransformOf env f (givenValue f first) t → pyEq t t = true := by
  rw [fields_eq]
  intro f hf hg t ht
  simp only [List.mem_cons, List.not_mem_nil, or_false] at hf
  obtain ⟨n, c, w, w', hc, hr⟩ := ht
  rcases hf with rfl | rfl | rfl | rfl | rfl | rfl | rfl
  · exact absurd hg (by simp [Given, first, fId])
  · have hv : givenValue fTitle first = .str "a" := rfl
    rw [hv] at hc
    have : (fTitle.ops env (instOps env n)).transform c w = (.ok (.str "a!"), w) := by
      show chainTransform _ c w = _
      simp only [chainTransform, fTitle, denL, Mod.den, leafOps, tvs, nvs, lastIdx, uptoPre, firstIdx, Option.map, vt, Py.bind_run, optStr, shout, hc,
        Ctx.nval]
      rfl
    rw [this] at hr
    cases hr
    rfl
  · have hv : givenValue fPen first = .str "p" := rfl
    rw [hv] at hc
    have : (fPen.ops env (instOps env n)).transform c w = (.ok (.str "p"), w) := by
      show chainTransform _ c w = _
      simp only [chainTransform, fPen, denL, Mod.den, leafOps, tvs, nvs, lastIdx, uptoPre, firstIdx, Option.map, vt, Py.bind_run, optStr, hc,
        Ctx.nval]
      rfl
    rw [this] at hr
    cases hr
    rfl
  · exact absurd hg (by simp [Given, first, fTags])
  · exact absurd hg (by simp [Given, first, fSize])
  · exact absurd hg (by simp [Given, first, fPart])
  · exact absurd hg (by simp [Given, first, fLinks])

/-- after the first call the object is saved (marked as unmodified); the same call again does nothing -/
theorem again_run : apiSet env 5 0 first (markUnmodified 0 (apiSet env 5 0 first world).2).2 =
    (.ok (), (markUnmodified 0 (apiSet env 5 0 first world).2).2) :=
  set_again (by decide) distinct plain_first (w₁ := (apiSet env 5 0 first world).2) (Prod.ext first_run.1 rfl) first_self rfl rfl

/-- both inputs at once or one after the other -/
example : ∃ w' w₁ w₂, apiSet env 5 0 (first ++ second) world = (.ok (), w') ∧ apiSet env 5 0 first world = (.ok (), w₁) ∧
    apiSet env 5 0 second w₁ = (.ok (), w₂) ∧ SameWorlds 0 w' w₂ := by
  rcases set_split (n := 4) (by decide) distinct plain_first plain_second apart with h | ⟨⟨e, w', h⟩, _⟩
  · exact h
  · have : (apiSet env 5 0 (first ++ second) world).1 = .ok () := rfl
    rw [h] at this
    cases this

/-- the two orders do record the changes in different orders -/
example : ((apiSet env 5 0 (first ++ second) world).2.heap 0).modFields = ["title", "pen_name", "tags", "links"] ∧
    ((apiSet env 5 0 second (apiSet env 5 0 first world).2).2.heap 0).modFields = ["title", "pen_name", "links", "tags"] := ⟨rfl, rfl⟩

/-- a number that differs from itself is a change each time -/
theorem nan_again : ((apiSet env 5 0 [("size", .flt .nan)] (markUnmodified 0 (apiSet env 5 0 [("size", .flt .nan)] world).2).2).2.heap 0).isModified = true := rfl

/-- an object given as a dict is made anew each time -/
theorem nested_again : (apiSet env 5 0 [("part", .dict [("title", .str "a")])] world).2.attr 0 "part" = .obj 1 ∧
    (apiSet env 5 0 [("part", .dict [("title", .str "a")])] (apiSet env 5 0 [("part", .dict [("title", .str "a")])] world).2).2.attr 0 "part" = .obj 2 := ⟨rfl, rfl⟩

end JC.RepeatDemo
