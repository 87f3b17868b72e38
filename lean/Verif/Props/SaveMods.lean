import Verif.Model.SaveMods
import Verif.Props.Assign
import Verif.Props.Construct
import Verif.Props.InputFrame
import Verif.Props.Demo

/-
C64: what saving does to the fields: `setonsave`, `fsetonsave`, `onsave`, `onupdate`, `onwrite`.
-/
namespace JC
variable {env : Env}

/-! ### Specification -/

/-- The object `j` is the value `v`, or an item of the (nested) list `v`. -/
inductive Occurs (j : Nat) : Val → Prop
  | obj : Occurs j (.obj j)
  | item {x : Val} {xs : List Val} : x ∈ xs → Occurs j x → Occurs j (.list xs)

/-- The modifier hands the value on when it is saved, or raises. -/
def Leaf.HandsOn (l : Leaf) : Prop := ∀ h c r, l.serialize h c = .ok r → r = c.val

mutual
/-- Saving does not change values of this modifier: no preserialize mark, nothing but
modifiers that hand the value on, instances, and lists of such. -/
def Mod.Mute : Mod → Prop
  | .eager => True
  | .pre => False
  | .leaf l => l.HandsOn
  | .listOf _ _ item => Mod.MuteL item
  | .dictOf _ _ => False
  | .instOf _ _ => True
  | .union _ => False
/-- all modifiers of the list -/
def Mod.MuteL : List Mod → Prop
  | [] => True
  | m :: ms => m.Mute ∧ Mod.MuteL ms
end

/-- A field whose value saving does not change: its modifiers are mute, the value is equal to
itself (it contains no NaN), and all objects in it satisfy `S`. -/
structure MuteField (S : Nat → Prop) (h : Heap) (j : Nat) (f : Field) : Prop where
  mute : Mod.MuteL f.chain
  same : pyEq ((h j).attrs f.name) ((h j).attrs f.name) = true
  within : ∀ b, Occurs b ((h j).attrs f.name) → S b

/-- The field is a relation of which only the reference ids are known. -/
structure Unloaded (h : Heap) (j : Nat) (f : Field) : Prop where
  byKey : f.store = .localKey
  absent : (h j).attrs f.name = .none
  known : (h j).attrs f.refName ≠ .none

/-- The object `j` is persisted and unmodified, has no forced setters, and its relations are not
loaded, or hold objects satisfying `S` only. -/
structure AtRest (env : Env) (S : Nat → Prop) (h : Heap) (j : Nat) : Prop where
  old : (h j).isNew = false
  unmodified : (h j).isModified = false
  unforced : ∀ f ∈ (env.cls (h j).cls).fields, f.forceSetOnSave = false
  rel : ∀ f ∈ (env.cls (h j).cls).fields, f.isRef = true ∨ f.isInst = true → MuteField S h j f ∨ Unloaded h j f

/-! ### Helpers -/

theorem Mod.MuteL_iff {ms : List Mod} : Mod.MuteL ms ↔ ∀ m ∈ ms, m.Mute := by
  induction ms with
  | nil => simp [Mod.MuteL]
  | cons m ms ih => simp [Mod.MuteL, ih]

theorem mute_noPre {ms : List Mod} (h : Mod.MuteL ms) : pvsM ms = [] := by
  have hf : firstIdx Mod.isPreM ms = none := by
    induction ms with
    | nil => rfl
    | cons m ms ih =>
      have hm : m.isPreM = false := by
        have := h.1
        cases m <;> simp_all [Mod.Mute, Mod.isPreM]
      simp [firstIdx, hm, ih h.2]
  unfold pvsM pvsG
  rw [hf]

/-- The world up to the mark graph, in which the objects `R` are marked. -/
def RestInv (env : Env) (R : Nat → Prop) (w₀ w : World) : Prop :=
  (∃ ms, w = { w₀ with marks := ms }) ∧ ∀ j, R j → (w.markGet env j).isSome = true

theorem mLookup_cons_isSome {k k' : String × MarkKey} {o : Nat} {l : List ((String × MarkKey) × Nat)}
    (h : (mLookup k l).isSome = true) : (mLookup k ((k', o) :: l)).isSome = true := by
  unfold mLookup
  split
  · rfl
  · exact h

theorem markGet_push {w : World} {e : (String × MarkKey) × Nat} {j : Nat} (h : (w.markGet env j).isSome = true) :
    (({ w with marks := e :: w.marks } : World).markGet env j).isSome = true := by
  have hid : ({ w with marks := e :: w.marks } : World).id env j = w.id env j := rfl
  unfold World.markGet at h ⊢
  rw [hid]
  cases hk : w.id env j with
  | none =>
    rw [hk] at h
    exact mLookup_cons_isSome h
  | _ =>
    rw [hk] at h
    simp only [] at h ⊢
    split
    · rfl
    · rename_i hn
      split at h
      · rename_i o ho
        have := mLookup_cons_isSome (k' := e.1) (o := e.2) (by rw [ho]; rfl : (mLookup _ w.marks).isSome = true)
        rw [hn] at this
        cases this
      · exact mLookup_cons_isSome h

theorem restInv_push {R : Nat → Prop} {w₀ w : World} (h : RestInv env R w₀ w) (e : (String × MarkKey) × Nat) :
    RestInv env R w₀ { w with marks := e :: w.marks } := by
  obtain ⟨⟨ms, rfl⟩, h2⟩ := h
  exact ⟨⟨e :: ms, rfl⟩, fun j hj => markGet_push (h2 j hj)⟩

/-- putting an equal value back changes nothing -/
theorem setAttr_same {w : World} {i : Nat} {n : String} (h : pyEq (w.attr i n) (w.attr i n) = true) :
    (setAttr env i n (w.attr i n) w).2 = w := by
  unfold setAttr
  simp only [Py.bind_run, Py.get_run]
  cases hl : (w.cdef env i).localKey? n with
  | some f =>
    have hn : f.refName = n := by
      have := List.find?_some hl
      simp only [Bool.and_eq_true, decide_eq_true_eq] at this
      exact this.2
    simp only [setLocalKey, Py.bind_run, Py.get_run, hn, h, if_true]
    rfl
  | none =>
    simp only [setField]
    cases env.fuel with
    | zero => rfl
    | succ k =>
      simp only [runL, setBody, Py.bind_run, Py.get_run]
      cases hf : (w.cdef env i).field? n with
      | none =>
        simp only [rawSet, updObj, Py.modify_run]
        rw [upd_congr (g := fun o => o) w i, upd_id]
        show ({ w.heap i with attrs := _ } : Obj) = w.heap i
        have : (fun m => if m = n then w.attr i n else (w.heap i).attrs m) = (w.heap i).attrs := by
          funext m
          by_cases hm : m = n
          · rw [if_pos hm, hm]; rfl
          · rw [if_neg hm]
        rw [this]
      | some f =>
        simp only [h, if_true]
        split <;> rfl

/-! ### Objects at rest -/

section rest
variable {R S : Nat → Prop} {w₀ : World} {vis : Visitor}

/-- instance modifiers hand on the objects they are given, and change nothing but marks -/
structure VisRest (env : Env) (R T : Nat → Prop) (w₀ : World) (vis : Visitor) : Prop where
  noMarks : NoMarks vis
  serialize : ∀ cls st c, (∀ b, Occurs b c.val → T b) → Kp (RestInv env R w₀) ((vis cls st).serialize c) (fun r => r = c.val)

theorem kp_reduce_same {J : World → Prop} {c : Ctx} {v : Val} (ms : List (Ops World))
    (h : ∀ m ∈ ms, Kp J (m.serialize (c.nval v)) (fun r => r = v)) :
    Kp J (reduceM (fun m v => m.serialize (c.nval v)) ms v) (fun r => r = v) := by
  induction ms with
  | nil => exact Kp.pure rfl
  | cons m ms ih =>
    refine (h m (by simp)).bind (fun v' hv => ?_)
    subst hv
    exact ih (fun m' h' => h m' (by simp [h']))

theorem kp_colMap_same {J : World → Prop} {ce : ColEnv World} {f : Ctx → Py World Val} {c : Ctx} (hc : Kp' J (ce.ownerConf c)) (es : List (Key × Val))
    (hf : ∀ k v, (k, v) ∈ es → Kp J (f (c.colval v k)) (fun r => r = v)) : Kp J (colMapLoop ce false f c es) (fun r => r = es) := by
  induction es with
  | nil => exact Kp.pure rfl
  | cons e es ih =>
    obtain ⟨k, v⟩ := e
    unfold colMapLoop
    simp only [Bool.false_eq_true, if_false]
    refine (hf k v (by simp)).bind (fun x hx => hc.bind' (fun _ => (ih (fun k' v' h' => hf k' v' (by simp [h']))).bind (fun xs hxs => Kp.pure ?_)))
    rw [hx, hxs]

theorem mem_enumVals {k : Key} {v : Val} (xs : List Val) : ∀ n, (k, v) ∈ enumVals n xs → v ∈ xs := by
  induction xs with
  | nil => intro n h; cases h
  | cons x xs ih =>
    intro n h
    rcases List.mem_cons.1 h with h | h
    · cases h; simp
    · exact List.mem_cons_of_mem _ (ih _ h)

theorem enumVals_vals (xs : List Val) : ∀ n, (enumVals n xs).map Prod.snd = xs := by
  induction xs with
  | nil => intro; rfl
  | cons x xs ih => intro n; simp [enumVals, ih]

mutual
theorem rest_mod {T : Nat → Prop} (hv : VisRest env R T w₀ vis) : ∀ (m : Mod), m.Mute → ∀ c, (∀ b, Occurs b c.val → T b) →
    Kp (RestInv env R w₀) ((m.den env vis).serialize c) (fun r => r = c.val)
  | .eager, _, c, _ => Kp.pure rfl
  | .pre, h, _, _ => h.elim
  | .leaf l, h, c, _ => Kp.read.mono (fun r ⟨w, _, hr⟩ => h _ _ _ hr)
  | .listOf nn sp item, h, c, hc => by
    simp only [Mod.den, listOps]
    cases hx : c.val with
    | none => exact Kp.pure rfl
    | list xs =>
      refine (kp_colMap_same (kp_ownerConf sp c) (enumVals 0 xs) (fun k v hm => ?_)).bind (fun r hr => Kp.pure ?_)
      · refine rest_chain hv item h (c.colval v k) (fun b hb => hc b ?_)
        rw [hx]
        exact .item (mem_enumVals xs 0 hm) hb
      · rw [hr, toListVal, enumVals_vals]
    | _ => exact Kp.pure rfl
  | .dictOf _ _, h, _, _ => h.elim
  | .instOf cls st, _, c, hc => hv.serialize cls st c hc
  | .union _, h, _, _ => h.elim
theorem rest_chain {T : Nat → Prop} (hv : VisRest env R T w₀ vis) : ∀ (ms : List Mod), Mod.MuteL ms → ∀ c, (∀ b, Occurs b c.val → T b) →
    Kp (RestInv env R w₀) ((chainOps (setParent env) (denL env vis ms)).serialize c) (fun r => r = c.val)
  | ms, h, c, hc => by
    simp only [chainOps, chainSerialize]
    rw [tvs_denL env vis hv.noMarks, nvs_denL env vis hv.noMarks, pvs_denL env vis hv.noMarks, mute_noPre h]
    refine (kp_reduce_same (c := c) (v := c.val) _ ?_).bind (fun v hv1 => ?_)
    · intro m hm
      obtain ⟨m', h1, rfl⟩ := List.mem_map.1 hm
      exact rest_list hv ms h m' (mem_tvsM h1) (c.nval c.val) hc
    · subst hv1
      refine (kp_reduce_same (c := c) (v := c.val) _ ?_).bind (fun v hv2 => ?_)
      · intro m hm
        obtain ⟨m', h1, rfl⟩ := List.mem_map.1 hm
        exact rest_list hv ms h m' (mem_nvsM h1) (c.nval c.val) hc
      · subst hv2
        exact Kp.pure rfl
theorem rest_list {T : Nat → Prop} (hv : VisRest env R T w₀ vis) : ∀ (ms : List Mod), Mod.MuteL ms → ∀ m ∈ ms, ∀ c, (∀ b, Occurs b c.val → T b) →
    Kp (RestInv env R w₀) ((m.den env vis).serialize c) (fun r => r = c.val)
  | m' :: ms, h, m, hm, c, hc => by
    by_cases he : m = m'
    · rw [he]
      exact rest_mod hv m' h.1 c hc
    · refine rest_list hv ms h.2 m ?_ c hc
      rcases List.mem_cons.1 hm with h' | h'
      · exact absurd h' he
      · exact h'
end

/-- one field whose value saving does not change -/
theorem rest_field {T : Nat → Prop} (hv : VisRest env R T w₀ vis) {c : Ctx} {j : Nat} {f : Field} (hf : MuteField T w₀.heap j f) :
    Kp' (RestInv env R w₀) (serializeField env (Field.ops env vis) c j f) := by
  unfold serializeField
  split
  · exact Kp.pure' ()
  · refine Kp.get.bind (fun w hw => ?_)
    have hheap : w.heap = w₀.heap := by obtain ⟨⟨ms, rfl⟩, _⟩ := hw; rfl
    refine Kp.read'.bind' (fun ek => ?_)
    refine (rest_chain hv f.chain hf.mute (c.nextv (w.attr j f.name) f.name ek ((w.heap j).cls, f.name)) ?_).bind (fun t ht => ?_)
    · intro b hb
      refine hf.within b ?_
      have : (w₀.heap j).attrs f.name = w.attr j f.name := by rw [← hheap]; rfl
      rw [this]
      exact hb
    · intro w' hw'
      have hheap' : w'.heap = w₀.heap := by obtain ⟨⟨ms, rfl⟩, _⟩ := hw'; rfl
      have hta : t = w'.attr j f.name := by
        rw [ht]
        show w.attr j f.name = w'.attr j f.name
        unfold World.attr
        rw [hheap, hheap']
      have hs : pyEq (w'.attr j f.name) (w'.attr j f.name) = true := by
        unfold World.attr
        rw [hheap']
        exact hf.same
      rw [hta, setAttr_same hs]
      exact ⟨hw', fun _ _ => trivial⟩

theorem Unloaded.keyOnly {w : World} {j : Nat} {f : Field} (h : Unloaded w.heap j f) : keyOnly w j f = true := by
  have h2 : (w.attr j f.name).isNone = true := by unfold World.attr; rw [h.absent]; rfl
  have h3 : (w.attr j f.refName).isNone = false := by
    have := h.known
    unfold World.attr
    cases hk : (w.heap j).attrs f.refName <;> simp_all [Val.isNone]
  simp [JC.keyOnly, h.byKey, h2, h3]

/-- the loop over the fields of an object at rest -/
theorem rest_fields {T : Nat → Prop} (hv : VisRest env R T w₀ vis) {c : Ctx} {j : Nat} (hd : dirty (w₀.heap j) = false) (fs : List Field)
    (hfs : ∀ f ∈ fs, f.forceSetOnSave = false ∧ (f.isRef = true ∨ f.isInst = true → MuteField T w₀.heap j f ∨ Unloaded w₀.heap j f)) :
    Kp' (RestInv env R w₀) (serializeFields env (Field.ops env vis) c j false fs) := by
  induction fs with
  | nil => exact Kp.pure' ()
  | cons f fs ih =>
    have ih' := ih (fun g hg => hfs g (by simp [hg]))
    unfold serializeFields
    simp only [Bool.or_false, (hfs f (by simp)).1]
    split
    · rename_i hr
      refine Kp.get.bind (fun w hw => ?_)
      split
      · exact ih'
      · rename_i hko
        have hf : MuteField T w₀.heap j f := by
          refine ((hfs f (by simp)).2 (by simpa using hr)).resolve_right (fun hu => hko ?_)
          obtain ⟨⟨ms, rfl⟩, _⟩ := hw
          exact hu.keyOnly
        refine (rest_field hv hf).bind' (fun _ => Kp.get.bind (fun w' hw' => ?_))
        have hheap' : w'.heap = w₀.heap := by obtain ⟨⟨ms, rfl⟩, _⟩ := hw'; rfl
        rw [hheap', hd]
        exact ih'
    · exact ih'

/-- saving visits objects at rest without changing anything -/
theorem rest_visit (hS : ∀ j, S j → AtRest env (fun b => S b ∨ R b) w₀.heap j) (n : Nat) :
    VisRest env R (fun b => S b ∨ R b) w₀ (instOps env n) := by
  induction n with
  | zero => exact ⟨instOps_noMarks env 0, fun _ _ _ _ => Kp.raise _⟩
  | succ n ih =>
    refine ⟨instOps_noMarks env _, fun cls st c hc => ?_⟩
    show Kp _ (instSerialize env (Field.ops env (instOps env n)) c) _
    unfold instSerialize
    cases hx : c.val with
    | none => exact Kp.pure rfl
    | obj i =>
      have hi : S i ∨ R i := hc i (by rw [hx]; exact .obj)
      intro w hw
      simp only []
      by_cases hm : (w.markGet env i).isSome = true
      · rw [if_pos hm]
        exact ⟨hw, fun a ha => by cases ha; rfl⟩
      · rw [if_neg hm]
        have hSi : S i := hi.resolve_right (fun hR => hm (hw.2 i hR))
        have hr := hS i hSi
        obtain ⟨k, hk⟩ := markPut_cons env i w
        rw [hk]
        have hw' := restInv_push hw (k, i)
        have hheap : ({ w with marks := (k, i) :: w.marks } : World).heap = w₀.heap := by
          obtain ⟨⟨ms, rfl⟩, _⟩ := hw; rfl
        have hd : dirty (w₀.heap i) = false := by simp [dirty, hr.old, hr.unmodified]
        have hcd : ({ w with marks := (k, i) :: w.marks } : World).cdef env i = env.cls (w₀.heap i).cls := by
          unfold World.cdef
          rw [hheap]
        have hdd : dirty (({ w with marks := (k, i) :: w.marks } : World).heap i) = false := by rw [hheap, hd]
        rw [hcd, hdd]
        exact Kp.bind' (R := fun a => a = Val.obj i) (rest_fields (c := c) ih hd _ (fun f hf => ⟨hr.unforced f hf, hr.rel f hf⟩)) (fun _ => Kp.pure rfl) _ hw'
    | _ => exact Kp.raise _

end rest

/-- C64: saving an object whose whole graph of related objects is persisted and unmodified changes
nothing at all: no setter runs. -/
theorem save_at_rest (se : SaveEnv) {S : Nat → Prop} {w : World} {i : Nat}
    (hS : ∀ j, S j → AtRest se.env S w.heap j) (hi : S i) : (setOnSave se i w).2 = w := by
  have hS' : ∀ j, S j → AtRest se.env (fun b => S b ∨ False) { w with marks := [] }.heap j := by
    simpa using hS
  have hv := rest_visit (R := fun _ => False) (w₀ := { w with marks := [] }) hS' se.depth
  have h1 := hv.serialize (w.heap i).cls none (rootCtx w i {} (.obj i)) (by
    intro b hb
    cases hb
    exact .inl hi)
  have h2 : Kp' (RestInv se.env (fun _ => False) { w with marks := [] }) (do
    let _ ← (instOps se.env se.depth (w.heap i).cls none).serialize (rootCtx w i {} (.obj i))
    pure ()) := h1.weaken.bind' (fun _ => Kp.pure' ())
  obtain ⟨⟨⟨ms, hms⟩, _⟩, _⟩ := h2 { w with marks := [] } ⟨⟨[], rfl⟩, fun _ h => h.elim⟩
  unfold setOnSave withFreshMarks
  simp only []
  rw [hms]

/-! ### A modified object

Saving goes through the fields of the object in order. -/

/-- a mark, or a modifier without effects on objects -/
def Mod.Simple : Mod → Prop
  | .eager => True
  | .pre => True
  | .leaf _ => True
  | _ => False

/-- A field that saving may give a new value: a stored field that is no relation and not the
primary key, with simple modifiers. -/
structure OpenField (cd : ClassDef) (f : Field) : Prop where
  plain : PlainField cd f.name
  simple : ∀ m ∈ f.chain, m.Simple
  notKey : cd.primary ≠ some f.name
  notInst : f.isInst = false

/-- The object `i` with related objects `S` that are at rest: every field is calculated, or one
whose value saving does not change, or a relation that is not loaded, or one that saving may
give a new value. -/
structure SaveReady (env : Env) (S : Nat → Prop) (i : Nat) (fs : List Field) (w : World) : Prop where
  rest : ∀ j, S j → j ≠ i ∧ AtRest env (fun b => S b ∨ b = i) w.heap j
  kinds : ∀ f ∈ fs, f.store = .calculated ∨ MuteField (fun b => S b ∨ b = i) w.heap i f ∨ OpenField (w.cdef env i) f ∨
    (Unloaded w.heap i f ∧ ∀ g ∈ (w.cdef env i).fields, g.name ≠ f.refName)
  own : ∀ f ∈ fs, f ∈ (w.cdef env i).fields
  names : (fs.map Field.name).Nodup

/-- Between two states, the object `i` changed in the fields `ns` only, and no other object
changed. -/
structure Touched (env : Env) (i : Nat) (ns : List String) (w w₁ : World) : Prop where
  others : ∀ j, j ≠ i → w₁.heap j = w.heap j
  cls : (w₁.heap i).cls = (w.heap i).cls
  isNew : (w₁.heap i).isNew = (w.heap i).isNew
  operator : (w₁.heap i).operator = (w.heap i).operator
  attrs : ∀ n, n ∉ ns → (w₁.heap i).attrs n = (w.heap i).attrs n
  prev : ∀ n, n ∉ ns → dictGet (w₁.heap i).prev n = dictGet (w.heap i).prev n
  mods : ∀ n, n ∉ ns → (n ∈ (w₁.heap i).modFields ↔ n ∈ (w.heap i).modFields)
  modified : (w.heap i).isModified = true → (w₁.heap i).isModified = true
  key : w₁.id env i = w.id env i
  marked : (w.markGet env i).isSome = true → (w₁.markGet env i).isSome = true

theorem Touched.refl (env : Env) (i : Nat) (ns : List String) (w : World) : Touched env i ns w w :=
  ⟨fun _ _ => rfl, rfl, rfl, rfl, fun _ _ => rfl, fun _ _ => rfl, fun _ _ => Iff.rfl, fun h => h, rfl, fun h => h⟩

theorem Touched.trans {i : Nat} {ns ms : List String} {w w₁ w₂ : World} (h : Touched env i ns w w₁) (h' : Touched env i ms w₁ w₂) :
    Touched env i (ns ++ ms) w w₂ where
  others := fun j hj => (h'.others j hj).trans (h.others j hj)
  cls := h'.cls.trans h.cls
  isNew := h'.isNew.trans h.isNew
  operator := h'.operator.trans h.operator
  attrs := fun n hn => by
    rw [List.mem_append, not_or] at hn
    exact (h'.attrs n hn.2).trans (h.attrs n hn.1)
  prev := fun n hn => by
    rw [List.mem_append, not_or] at hn
    exact (h'.prev n hn.2).trans (h.prev n hn.1)
  mods := fun n hn => by
    rw [List.mem_append, not_or] at hn
    exact (h'.mods n hn.2).trans (h.mods n hn.1)
  modified := fun hm => h'.modified (h.modified hm)
  key := h'.key.trans h.key
  marked := fun hm => h'.marked (h.marked hm)

theorem Touched.mono {i : Nat} {ns ms : List String} {w w₁ : World} (h : Touched env i ns w w₁) (hs : ∀ n, n ∈ ns → n ∈ ms) : Touched env i ms w w₁ :=
  ⟨h.others, h.cls, h.isNew, h.operator, fun n hn => h.attrs n (fun h' => hn (hs n h')), fun n hn => h.prev n (fun h' => hn (hs n h')),
    fun n hn => h.mods n (fun h' => hn (hs n h')), h.modified, h.key, h.marked⟩

theorem Touched.cdef {i : Nat} {ns : List String} {w w₁ : World} (h : Touched env i ns w w₁) : w₁.cdef env i = w.cdef env i := by
  unfold World.cdef
  rw [h.cls]

theorem touched_marks (env : Env) (i : Nat) (ns : List String) {w : World} {ms : List ((String × MarkKey) × Nat)}
    (h : (({ w with marks := ms } : World).markGet env i).isSome = true) : Touched env i ns w { w with marks := ms } :=
  ⟨fun _ _ => rfl, rfl, rfl, rfl, fun _ _ => rfl, fun _ _ => rfl, fun _ _ => Iff.rfl, fun h => h, rfl, fun _ => h⟩

/-- assignment to a plain field -/
theorem touched_set {i : Nat} {n : String} {v : Val} {w : World} (hfuel : env.fuel ≠ 0) (hp : PlainField (w.cdef env i) n)
    (hk : (w.cdef env i).primary ≠ some n) :
    (setAttr env i n v w).1 = .ok () ∧ Touched env i [n] w (setAttr env i n v w).2 ∧
      ((setAttr env i n v w).2.heap i).attrs n = if pyEq v ((w.heap i).attrs n) = true then (w.heap i).attrs n else v := by
  obtain ⟨f, hf, hrun⟩ := plain_set_run (v := v) hfuel hp
  have hname : f.name = n := by
    have := List.find?_some hf
    simpa using this
  rw [hrun]
  refine ⟨rfl, ?_, ?_⟩
  · have hat : ∀ m, m ≠ n → (opObj (w.cdef env i) f (w.heap i) (.set n v)).attrs m = (w.heap i).attrs m := by
      intro m hm
      simp only [opObj]
      split
      · rfl
      · simp only [setVal, trackObj, if_neg hm]
        split <;> rfl
    have hcls : (opObj (w.cdef env i) f (w.heap i) (.set n v)).cls = (w.heap i).cls := (opObj_cls _ _ _ _).1
    have hid : (w.upd i (fun o => opObj (w.cdef env i) f o (.set n v))).id env i = w.id env i := by
      unfold World.id
      rw [cdef_upd hcls]
      cases hpk : (w.cdef env i).primary with
      | none => rfl
      | some p =>
        simp only [World.attr, upd_heap_self]
        exact hat p (fun he => hk (by rw [hpk, he]))
    constructor
    · intro j hj
      exact upd_heap_other w (fun o => opObj (w.cdef env i) f o (.set n v)) hj
    · rw [upd_heap_self]; exact hcls
    · rw [upd_heap_self]; exact (opObj_cls _ _ _ _).2
    · rw [upd_heap_self]
      simp only [opObj]
      split
      · rfl
      · simp only [setVal, trackObj]
        split <;> rfl
    · intro m hm
      rw [upd_heap_self]
      exact hat m (by simpa using hm)
    · intro m hm
      rw [upd_heap_self]
      simp only [opObj]
      split
      · rfl
      · simp only [setVal, trackObj]
        split
        · rfl
        · simp only []
          split
          · rename_i hr
            rw [hname] at hr ⊢
            simp only [Bool.and_eq_true, Option.isNone_iff_eq_none] at hr
            rw [dictGet_snoc _ _ _ _ hr.2, if_neg (by simpa using fun h : n = m => hm (by simp [h]))]
          · rfl
    · intro m hm
      rw [upd_heap_self]
      simp only [opObj]
      split
      · exact Iff.rfl
      · simp only [setVal, trackObj]
        split
        · exact Iff.rfl
        · simp only [mem_setAdd, hname]
          constructor
          · intro h
            exact h.resolve_right (fun h : n = m => hm (by simp [h]))
          · exact Or.inl
    · intro hm
      rw [upd_heap_self]
      simp only [opObj]
      split
      · exact hm
      · simp only [setVal, trackObj]
        split
        · exact hm
        · rfl
    · exact hid
    · intro hm
      unfold World.markGet at hm ⊢
      rw [hid]
      simp only [upd_heap_self, hcls]
      exact hm
  · simp only [upd_heap_self, opObj]
    split
    · rfl
    · simp [setVal]

/-- what user code is told when a field of the saved object is saved -/
structure SaveCtx (w : World) (i : Nat) (n : String) (v : Val) (c : Ctx) : Prop where
  val : c.val = v
  root : c.root = i
  owner : c.owner = some i
  parent : c.parent = some i
  path : c.keypathp = [.s n]
  operator : c.operator = (w.heap i).operator

theorem SaveCtx.nval {w : World} {i : Nat} {n : String} {v : Val} {c : Ctx} (h : SaveCtx w i n v c) (v' : Val) : SaveCtx w i n v' (c.nval v') :=
  ⟨rfl, h.root, h.owner, h.parent, h.path, h.operator⟩

section loop
variable {S : Nat → Prop} {i : Nat} {vis : Visitor}

/-- a simple modifier looks at objects only -/
theorem simple_kp {J : World → Prop} {m : Mod} (h : m.Simple) (c : Ctx) : Kp' J ((m.den env vis).serialize c) ∧ Kp' J ((m.den env vis).validate c) := by
  cases m with
  | eager => exact ⟨Kp.pure' _, Kp.pure' _⟩
  | pre => exact ⟨Kp.pure' _, Kp.pure' _⟩
  | leaf l => exact ⟨Kp.read', Kp.read'⟩
  | _ => exact h.elim

/-- a field that may get a new value: nothing else changes -/
theorem touched_chain {f : Field} {w : World} (hfuel : env.fuel ≠ 0) (hv : NoMarks vis) (ho : OpenField (w.cdef env i) f) {c : Ctx}
    (hp : c.parent = some i) (hk : c.keypathp = [.s f.name]) :
    Kp' (Touched env i [f.name] w) ((Field.ops env vis f).serialize c) := by
  have hset : ∀ v, Kp' (Touched env i [f.name] w) (setAttr env i f.name v) := by
    intro v w₁ h₁
    refine ⟨?_, fun _ _ => trivial⟩
    have hpl : PlainField (w₁.cdef env i) f.name := by rw [h₁.cdef]; exact ho.plain
    exact (h₁.trans (touched_set (v := v) hfuel hpl (by rw [h₁.cdef]; exact ho.notKey)).2.1).mono (by simp)
  simp only [Field.ops, chainOps, chainSerialize]
  rw [tvs_denL env vis hv, nvs_denL env vis hv, pvs_denL env vis hv]
  refine Kp.bind' (kp_reduceM _ ?_ _) (fun v => Kp.bind' (kp_reduceM _ ?_ _) (fun v => kp_reduceM _ ?_ _))
  · intro m hm v
    obtain ⟨m', h1, rfl⟩ := List.mem_map.1 hm
    exact (simple_kp (ho.simple m' (mem_tvsM h1)) _).1
  · intro m hm v
    obtain ⟨m', h1, rfl⟩ := List.mem_map.1 hm
    exact (simple_kp (ho.simple m' (mem_nvsM h1)) _).1
  · intro m hm v
    obtain ⟨m', h1, rfl⟩ := List.mem_map.1 hm
    have hs := ho.simple m' (mem_pvsM h1)
    unfold sv
    refine (simple_kp hs _).1.bind' (fun r => (simple_kp hs _).2.bind' (fun _ => Kp.bind' ?_ (fun _ => Kp.pure' _)))
    simp only [setParent, Ctx.nval, hp, hk]
    exact hset r

/-- one field -/
theorem touched_field {f : Field} {fs : List Field} {w : World} {n : Nat} {c : Ctx} (hfuel : env.fuel ≠ 0)
    (hr : SaveReady env S i (f :: fs) w) (hm : (w.markGet env i).isSome = true) (hp : c.parent = some i) (hk : c.keypathp = [])
    (hko : keyOnly w i f = false) : Touched env i [f.name] w (serializeField env (Field.ops env (instOps env n)) c i f w).2 := by
  rcases hr.kinds f (by simp) with h | h | h | h
  · unfold serializeField
    rw [if_pos h]
    exact Touched.refl env i _ w
  · have hv : VisRest env (fun b => b = i) (fun b => S b ∨ b = i) w (instOps env n) := rest_visit (fun j hj => (hr.rest j hj).2) n
    obtain ⟨⟨⟨ms, hms⟩, h2⟩, _⟩ := rest_field (c := c) hv h w ⟨⟨w.marks, rfl⟩, fun j hj => by rw [hj]; exact hm⟩
    have := h2 i rfl
    rw [hms] at this ⊢
    exact touched_marks env i _ this
  · unfold serializeField
    obtain ⟨_, _, _, _, hc⟩ := h.plain
    split
    · exact Touched.refl env i _ w
    · have hk' : Kp' (Touched env i [f.name] w) (do
          let w ← Py.get
          let ek ← readW (fun w => c.ekey env w f.name)
          let t ← (Field.ops env (instOps env n) f).serialize (c.nextv (w.attr i f.name) f.name ek ((w.heap i).cls, f.name))
          setAttr env i f.name t) := by
        refine Kp.get.bind (fun w₁ hw₁ => Kp.read'.bind' (fun ek => (touched_chain
          (c := c.nextv (w₁.attr i f.name) f.name ek ((w₁.heap i).cls, f.name)) hfuel (instOps_noMarks env n) h hp (by simp [Ctx.nextv, hk])).bind' (fun t => ?_)))
        intro w₂ h₂
        refine ⟨?_, fun _ _ => trivial⟩
        have hpl : PlainField (w₂.cdef env i) f.name := by rw [h₂.cdef]; exact h.plain
        exact (h₂.trans (touched_set (v := t) hfuel hpl (by rw [h₂.cdef]; exact h.notKey)).2.1).mono (by simp)
      exact (hk' w (Touched.refl env i _ w)).1
  · rw [h.1.keyOnly] at hko
    cases hko

theorem atRest_congr {T : Nat → Prop} {h h' : Heap} {j : Nat} (he : h' j = h j) (hr : AtRest env T h j) : AtRest env T h' j := by
  refine ⟨by rw [he]; exact hr.old, by rw [he]; exact hr.unmodified, by rw [he]; exact hr.unforced, ?_⟩
  rw [he]
  intro f hf hrel
  rcases hr.rel f hf hrel with this | this
  · exact .inl ⟨this.mute, by rw [he]; exact this.same, by rw [he]; exact this.within⟩
  · exact .inr ⟨this.byKey, by rw [he]; exact this.absent, by rw [he]; exact this.known⟩

/-- after some fields, the others are as before -/
theorem SaveReady.next {ns : List String} {fs : List Field} {w w₁ : World} (hr : SaveReady env S i fs w) (ht : Touched env i ns w w₁)
    (hd : ∀ f ∈ fs, f.name ∉ ns) (hns : ∀ n ∈ ns, ∃ g ∈ (w.cdef env i).fields, g.name = n) : SaveReady env S i fs w₁ where
  rest := fun j hj => ⟨(hr.rest j hj).1, atRest_congr (ht.others j (hr.rest j hj).1) (hr.rest j hj).2⟩
  kinds := fun f hf => by
    rcases hr.kinds f hf with h | h | h | h
    · exact .inl h
    · refine .inr (.inl ?_)
      have ha := ht.attrs f.name (hd f hf)
      exact ⟨h.mute, by rw [ha]; exact h.same, by rw [ha]; exact h.within⟩
    · refine .inr (.inr (.inl ?_))
      rw [ht.cdef]
      exact h
    · refine .inr (.inr (.inr ⟨⟨h.1.byKey, by rw [ht.attrs f.name (hd f hf)]; exact h.1.absent, ?_⟩, by rw [ht.cdef]; exact h.2⟩))
      rw [ht.attrs f.refName (fun hm => by obtain ⟨g, hg, he⟩ := hns _ hm; exact h.2 g hg he)]
      exact h.1.known
  own := by rw [ht.cdef]; exact hr.own
  names := hr.names

theorem SaveReady.tail {f : Field} {fs : List Field} {w : World} (hr : SaveReady env S i (f :: fs) w) : SaveReady env S i fs w :=
  ⟨hr.rest, fun g hg => hr.kinds g (by simp [hg]), fun g hg => hr.own g (by simp [hg]), (List.nodup_cons.1 hr.names).2⟩

/-- the loop over the fields -/
theorem touched_fields {n : Nat} {c : Ctx} (hfuel : env.fuel ≠ 0) (hp : c.parent = some i) (hk : c.keypathp = []) (fs : List Field) :
    ∀ (u : Bool) (w : World), SaveReady env S i fs w → (w.markGet env i).isSome = true →
      Touched env i (fs.map Field.name) w (serializeFields env (Field.ops env (instOps env n)) c i u fs w).2 := by
  induction fs with
  | nil => intro u w _ _; exact Touched.refl env i _ w
  | cons f fs ih =>
    intro u w hr hm
    have hskip : ∀ u, Touched env i ((f :: fs).map Field.name) w (serializeFields env (Field.ops env (instOps env n)) c i u fs w).2 :=
      fun u => (ih u w hr.tail hm).mono (fun _ h => List.mem_cons_of_mem _ h)
    unfold serializeFields
    split
    · simp only [Py.bind_run, Py.get_run]
      split
      · exact hskip u
      · rename_i hko
        have ht := touched_field (n := n) (c := c) hfuel hr hm hp hk (by simpa using hko)
        rcases hs : serializeField env (Field.ops env (instOps env n)) c i f w with ⟨e | a, w₁⟩
        · rw [hs] at ht
          simp only [Py.bind_run, hs]
          exact ht.mono (by simp)
        · rw [hs] at ht
          simp only [Py.bind_run, hs, Py.get_run]
          have hd : ∀ g ∈ fs, g.name ∉ [f.name] := by
            intro g hg h
            have := (List.nodup_cons.1 hr.names).1
            simp only [List.mem_singleton] at h
            exact this (List.mem_map.2 ⟨g, hg, h⟩)
          exact ht.trans (ih _ w₁ (hr.tail.next ht hd (fun n hn => ⟨f, hr.own f (by simp), (List.mem_singleton.1 hn).symm⟩)) (ht.marked hm))
    · exact hskip u

theorem serializeFields_cons {ops : Field → Ops World} {c : Ctx} (u : Bool) (f : Field) (fs : List Field) (w : World) :
    serializeFields env ops c i u (f :: fs) w = if f.isRef || f.isInst || u || f.forceSetOnSave then
      (if keyOnly w i f then serializeFields env ops c i u fs w
       else match serializeField env ops c i f w with
        | (.ok _, w₁) => serializeFields env ops c i (u || dirty (w₁.heap i)) fs w₁
        | (.error e, w₁) => (.error e, w₁))
      else serializeFields env ops c i u fs w := by
  rw [serializeFields]
  split
  · simp only [Py.bind_run, Py.get_run]
    split
    · rfl
    · rcases hs : serializeField env ops c i f w with ⟨e | a, w₁⟩ <;> simp only [Py.bind_run, Py.get_run, hs]
  · rfl

/-- the loop, cut in two -/
theorem serializeFields_append {ops : Field → Ops World} {c : Ctx} (pre post : List Field) : ∀ (u : Bool) (w w' : World),
    serializeFields env ops c i u (pre ++ post) w = (.ok (), w') →
    ∃ u₁ w₁, serializeFields env ops c i u pre w = (.ok (), w₁) ∧ serializeFields env ops c i u₁ post w₁ = (.ok (), w') ∧ (u = true → u₁ = true) := by
  induction pre with
  | nil => intro u w w' h; exact ⟨u, w, rfl, h, fun h => h⟩
  | cons f pre ih =>
    intro u w w' h
    rw [List.cons_append, serializeFields_cons] at h
    rw [serializeFields_cons]
    split
    · rename_i hc
      rw [if_pos hc] at h
      split
      · rename_i hk
        rw [if_pos hk] at h
        exact ih u w w' h
      · rename_i hk
        rw [if_neg hk] at h
        rcases hs : serializeField env ops c i f w with ⟨e | a, w₁⟩
        · rw [hs] at h
          cases h
        · rw [hs] at h
          obtain ⟨u₁, w₂, h1, h2, h3⟩ := ih _ w₁ w' h
          exact ⟨u₁, w₂, h1, h2, fun hu => h3 (by simp [hu])⟩
    · rename_i hc
      rw [if_neg hc] at h
      exact ih u w w' h

end loop

/-- The objects when the field after `pre` is saved: no other object has changed, the fields `pre`
have the values they have in the end, all other attributes the values they had before. -/
structure SavingAt (w w' : World) (i : Nat) (pre : List Field) (h : Heap) : Prop where
  others : ∀ j, j ≠ i → h j = w.heap j
  isNew : (h i).isNew = (w.heap i).isNew
  earlier : ∀ g ∈ pre, (h i).attrs g.name = (w'.heap i).attrs g.name
  later : ∀ n, (∀ g ∈ pre, g.name ≠ n) → (h i).attrs n = (w.heap i).attrs n

theorem find_of_nodup {fs : List Field} (hn : (fs.map Field.name).Nodup) {f : Field} (hf : f ∈ fs) : fs.find? (fun g => g.name = f.name) = some f := by
  induction fs with
  | nil => cases hf
  | cons g fs ih =>
    rw [List.map_cons, List.nodup_cons] at hn
    rcases List.mem_cons.1 hf with h | h
    · subst h
      simp
    · have hne : g.name ≠ f.name := fun he => hn.1 (he ▸ List.mem_map.2 ⟨f, h, rfl⟩)
      rw [List.find?_cons_of_neg (by simpa using hne)]
      exact ih hn.2 h

theorem openField_facts {cd : ClassDef} (hn : (cd.fields.map Field.name).Nodup) {f : Field} (hf : f ∈ cd.fields) (ho : OpenField cd f) :
    f.isRef = false ∧ f.store ≠ .calculated := by
  obtain ⟨g, hg, _, hr, hc⟩ := ho.plain
  have := find_of_nodup hn hf
  unfold ClassDef.field? at hg
  rw [this] at hg
  cases hg
  exact ⟨hr, hc⟩

/-- an object just marked is found -/
theorem markPut_get (w : World) (i : Nat) : ((w.markPut env i).markGet env i).isSome = true := by
  have hid : (w.markPut env i).id env i = w.id env i := by
    obtain ⟨k, hk⟩ := markPut_cons env i w
    rw [hk]
    rfl
  have hcls : ((w.markPut env i).heap i).cls = (w.heap i).cls := by
    obtain ⟨k, hk⟩ := markPut_cons env i w
    rw [hk]
  unfold World.markGet
  rw [hid, hcls]
  unfold World.markPut
  cases w.id env i <;> simp [mLookup]

/-- a completed save went through the fields -/
theorem setOnSave_run {se : SaveEnv} {i : Nat} {w w' : World} (h : setOnSave se i w = (.ok (), w')) :
    ∃ (m : Nat) (w'' : World), serializeFields se.env (Field.ops se.env (instOps se.env m)) (rootCtx w i {} (.obj i)) i (dirty (w.heap i))
        (w.cdef se.env i).fields (({ w with marks := [] } : World).markPut se.env i) = (.ok (), w'') ∧ w'.heap = w''.heap := by
  cases hdep : se.depth with
  | zero =>
    unfold setOnSave withFreshMarks at h
    rw [hdep] at h
    simp [instOps, Py.bind_run] at h
  | succ m =>
    refine ⟨m, ?_⟩
    unfold setOnSave withFreshMarks at h
    rw [hdep] at h
    have hser : (instOps se.env (m + 1) (w.heap i).cls none).serialize (rootCtx w i {} (.obj i)) =
        instSerialize se.env (Field.ops se.env (instOps se.env m)) (rootCtx w i {} (.obj i)) := rfl
    simp only [Py.bind_run, hser] at h
    have hval : (rootCtx w i {} (.obj i)).val = .obj i := rfl
    unfold instSerialize at h
    simp only [hval] at h
    have hmk : (({ w with marks := [] } : World).markGet se.env i).isSome = false := by
      unfold World.markGet
      cases ({ w with marks := [] } : World).id se.env i <;> rfl
    simp only [hmk, Bool.false_eq_true, if_false] at h
    obtain ⟨k, hk⟩ := markPut_cons se.env i { w with marks := [] }
    have hcd : (({ w with marks := [] } : World).markPut se.env i).cdef se.env i = w.cdef se.env i := by rw [hk]; rfl
    have hhp : (({ w with marks := [] } : World).markPut se.env i).heap = w.heap := by rw [hk]
    rw [hcd, hhp] at h
    rcases hs : serializeFields se.env (Field.ops se.env (instOps se.env m)) (rootCtx w i {} (.obj i)) i (dirty (w.heap i)) (w.cdef se.env i).fields
      (({ w with marks := [] } : World).markPut se.env i) with ⟨e | a, w''⟩
    · rw [Py.andThen, hs] at h
      simp at h
    · rw [Py.andThen, hs] at h
      simp only [Py.pure_run, Prod.mk.injEq, true_and] at h
      refine ⟨w'', rfl, ?_⟩
      rw [← h]

/-- what a completed save did with one field -/
theorem save_step {se : SaveEnv} {S : Nat → Prop} {i : Nat} {w w' : World} {pre post : List Field} {f : Field} (hfuel : se.env.fuel ≠ 0)
    (hr : SaveReady se.env S i (w.cdef se.env i).fields w) (hfs : (w.cdef se.env i).fields = pre ++ f :: post) (ho : OpenField (w.cdef se.env i) f)
    (hrun : dirty (w.heap i) = true ∨ f.forceSetOnSave = true) (h : setOnSave se i w = (.ok (), w')) :
    ∃ (m : Nat) (w₁ w₂ w₃ : World) (c : Ctx) (t : Val), SaveCtx w i f.name ((w.heap i).attrs f.name) c ∧
      (Field.ops se.env (instOps se.env m) f).serialize c w₁ = (.ok t, w₂) ∧ setAttr se.env i f.name t w₂ = (.ok (), w₃) ∧
      OpenField (w₁.cdef se.env i) f ∧
      SavingAt w w' i pre w₁.heap ∧ dictGet (w₁.heap i).prev f.name = dictGet (w.heap i).prev f.name ∧
      (f.name ∈ (w₁.heap i).modFields ↔ f.name ∈ (w.heap i).modFields) ∧ (w'.heap i).attrs f.name = (w₃.heap i).attrs f.name := by
  have hmem : f ∈ (w.cdef se.env i).fields := by rw [hfs]; simp
  obtain ⟨hnr, hnc⟩ := openField_facts hr.names hmem ho
  obtain ⟨m, w'', hser, hheap⟩ := setOnSave_run h
  rw [hfs] at hser
  obtain ⟨k, hk⟩ := markPut_cons se.env i { w with marks := [] }
  generalize hwb : ({ w with marks := [] } : World).markPut se.env i = wb at hser hk
  have hmarked : (wb.markGet se.env i).isSome = true := by rw [← hwb]; exact markPut_get _ i
  have hbheap : wb.heap = w.heap := by rw [hk]
  have hbcd : wb.cdef se.env i = w.cdef se.env i := by unfold World.cdef; rw [hbheap]
  have hrb : SaveReady se.env S i (pre ++ f :: post) wb := by
    rw [← hfs]
    exact ⟨fun j hj => by rw [hbheap]; exact hr.rest j hj, fun g hg => by rw [hbheap, hbcd]; exact hr.kinds g hg,
      by rw [hbcd]; exact hr.own, hr.names⟩
  obtain ⟨u₁, w₁, h1, h2, hu⟩ := serializeFields_append pre (f :: post) _ _ _ hser
  have hnd := hrb.names
  rw [List.map_append, List.map_cons, List.nodup_append] at hnd
  obtain ⟨hnd1, hnd2, hnd3⟩ := hnd
  rw [List.nodup_cons] at hnd2
  have hrpre : SaveReady se.env S i pre wb := ⟨hrb.rest, fun g hg => hrb.kinds g (by simp [hg]), fun g hg => hrb.own g (by simp [hg]), hnd1⟩
  have ht1 := touched_fields (n := m) (c := rootCtx w i {} (.obj i)) hfuel rfl rfl pre (dirty (w.heap i)) wb hrpre hmarked
  rw [h1] at ht1
  have hrf : SaveReady se.env S i (f :: post) w₁ := by
    refine SaveReady.next ⟨hrb.rest, fun g hg => hrb.kinds g (List.mem_append_right _ hg), fun g hg => hrb.own g (List.mem_append_right _ hg), ?_⟩ ht1 ?_
      (fun n hn => by obtain ⟨g, hg, he⟩ := List.mem_map.1 hn; exact ⟨g, hrb.own g (List.mem_append_left _ hg), he⟩)
    · rw [List.map_cons, List.nodup_cons]; exact hnd2
    · intro g hg hgn
      exact hnd3 _ hgn _ (List.mem_map.2 ⟨g, hg, rfl⟩) rfl
  have hmk1 := ht1.marked hmarked
  rw [serializeFields_cons] at h2
  have hcond : (f.isRef || f.isInst || u₁ || f.forceSetOnSave) = true := by
    rcases hrun with hd | hd
    · rw [hd] at hu
      simp [hu rfl]
    · simp [hd]
  have hko : keyOnly w₁ i f = false := by
    unfold keyOnly
    have : f.store ≠ .localKey := by
      intro he
      unfold Field.isRef at hnr
      simp [he] at hnr
    simp [this]
  rw [if_pos hcond, if_neg (by simp [hko])] at h2
  rcases hs : serializeField se.env (Field.ops se.env (instOps se.env m)) (rootCtx w i {} (.obj i)) i f w₁ with ⟨e | a, w₃⟩
  · rw [hs] at h2; cases h2
  · rw [hs] at h2
    simp only [] at h2
    have htf := touched_field (n := m) (c := rootCtx w i {} (.obj i)) hfuel hrf hmk1 rfl rfl hko
    rw [hs] at htf
    have hrpost : SaveReady se.env S i post w₃ := by
      refine hrf.tail.next htf ?_ (fun n hn => ⟨f, hrf.own f (by simp), (List.mem_singleton.1 hn).symm⟩)
      intro g hg hgn
      simp only [List.mem_singleton] at hgn
      exact hnd2.1 (hgn ▸ List.mem_map.2 ⟨g, hg, rfl⟩)
    have htp := touched_fields (n := m) (c := rootCtx w i {} (.obj i)) hfuel rfl rfl post (u₁ || dirty (w₃.heap i)) w₃ hrpost (htf.marked hmk1)
    rw [h2] at htp
    -- inside the field
    unfold serializeField at hs
    rw [if_neg hnc] at hs
    have hek : (rootCtx w i {} (.obj i)).ekey se.env w₁ f.name = .ok ((w₁.cdef se.env i).outKey f.name) := rfl
    simp only [Py.bind_run, Py.get_run, readW, hek] at hs
    have hfn : f.name ∉ pre.map Field.name := by
      intro hm
      exact hnd3 _ hm f.name (by simp) rfl
    have hat : w₁.attr i f.name = (w.heap i).attrs f.name := by
      have := ht1.attrs f.name hfn
      rw [hbheap] at this
      exact this
    generalize hc : (rootCtx w i {} (.obj i)).nextv (w₁.attr i f.name) f.name ((w₁.cdef se.env i).outKey f.name) ((w₁.heap i).cls, f.name) = c at hs
    rcases ho' : (Field.ops se.env (instOps se.env m) f).serialize c w₁ with ⟨e | t, w₂⟩
    · rw [ho'] at hs; cases hs
    · rw [ho'] at hs
      simp only [] at hs
      refine ⟨m, w₁, w₂, w₃, c, t, ?_, ho', hs, ?_, ⟨?_, ?_, ?_, ?_⟩, ?_, ?_, ?_⟩
      · rw [← hc]
        exact ⟨hat, rfl, rfl, rfl, rfl, rfl⟩
      · rw [ht1.cdef, hbcd]; exact ho
      · intro j hj
        rw [ht1.others j hj, hbheap]
      · rw [ht1.isNew, hbheap]
      · intro g hg
        have hgn : g.name ∈ pre.map Field.name := List.mem_map.2 ⟨g, hg, rfl⟩
        rw [hheap, htp.attrs g.name ?_, htf.attrs g.name ?_]
        · intro he
          simp only [List.mem_singleton] at he
          exact hfn (he ▸ hgn)
        · intro he
          exact hnd3 _ hgn _ (List.mem_cons_of_mem _ he) rfl
      · intro n hn
        rw [ht1.attrs n, hbheap]
        intro hm
        obtain ⟨g, hg, he⟩ := List.mem_map.1 hm
        exact hn g hg he
      · rw [ht1.prev f.name hfn, hbheap]
      · rw [ht1.mods f.name hfn, hbheap]
      · rw [hheap]
        exact htp.attrs f.name hnd2.1

/-! ### Pipelines -/

/-- a modifier before the setter or callback looked at: a mark that is no preserialize mark, or one
that hands the value on -/
def Mod.Quiet (m : Mod) : Prop := m = .eager ∨ ∃ l, m = .leaf l ∧ l.HandsOn

theorem quiet_notPre {m : Mod} (h : m.Quiet) : m.isPreM = false := by
  rcases h with rfl | ⟨l, rfl, _⟩ <;> rfl

section pipe
variable {vis : Visitor}

theorem quiet_run {m : Mod} (h : m.Quiet) {c : Ctx} {w w' : World} {r : Val} (hs : (m.den env vis).serialize c w = (.ok r, w')) : r = c.val ∧ w' = w := by
  rcases h with rfl | ⟨l, rfl, hl⟩
  · cases hs; exact ⟨rfl, rfl⟩
  · simp only [Mod.den, leafOps, readW, Prod.mk.injEq] at hs
    exact ⟨hl _ _ _ hs.1, hs.2.symm⟩

theorem reduceM_app {σ : Type} {f : Ops σ → Val → Py σ Val} (a b : List (Ops σ)) : ∀ v, reduceM f (a ++ b) v = (reduceM f a v >>= reduceM f b) := by
  induction a with
  | nil => intro v; rfl
  | cons m a ih =>
    intro v
    simp only [List.cons_append, reduceM, bind_assoc]
    congr 1
    funext v'
    exact ih v'

theorem quiet_reduce {c : Ctx} (ms : List Mod) (h : ∀ m ∈ ms, m.Quiet) : ∀ {v r : Val} {w w' : World},
    reduceM (fun m v => m.serialize (c.nval v)) (ms.map (fun m => m.den env vis)) v w = (.ok r, w') → r = v ∧ w' = w := by
  induction ms with
  | nil => intro v r w w' hs; cases hs; exact ⟨rfl, rfl⟩
  | cons m ms ih =>
    intro v r w w' hs
    simp only [List.map_cons, reduceM, Py.bind_run] at hs
    rcases h1 : (m.den env vis).serialize (c.nval v) w with ⟨e | a, w₁⟩
    · rw [h1] at hs; cases hs
    · rw [h1] at hs
      obtain ⟨ha, hw⟩ := quiet_run (h m (by simp)) h1
      subst hw
      have := ih (fun m' h' => h m' (by simp [h'])) hs
      rw [ha] at this
      exact this

theorem firstIdx_app {α : Type} {p : α → Bool} {a b : List α} (h : ∀ x ∈ a, p x = false) :
    firstIdx p (a ++ b) = (firstIdx p b).map (· + a.length) := by
  induction a with
  | nil => cases hb : firstIdx p b <;> simp [hb]
  | cons x a ih =>
    rw [List.cons_append]
    simp only [firstIdx, h x (by simp), Bool.false_eq_true, if_false, ih (fun y hy => h y (by simp [hy]))]
    cases firstIdx p b <;> simp [Nat.add_assoc]

theorem lastIdx_lt {α : Type} {p : α → Bool} {l : List α} : ∀ {k : Nat}, lastIdx p l = some k → k < l.length := by
  induction l with
  | nil => intro k h; cases h
  | cons x l ih =>
    intro k h
    unfold lastIdx at h
    split at h
    · rename_i j hj
      cases h
      have := ih hj
      simp; omega
    · split at h
      · cases h; simp
      · cases h

theorem lastIdx_app_none {α : Type} {p : α → Bool} {a b : List α} (h : ∀ x ∈ b, p x = false) : lastIdx p (a ++ b) = lastIdx p a := by
  have hb : lastIdx p b = none := by
    induction b with
    | nil => rfl
    | cons x b ih => simp [lastIdx, h x (by simp), ih (fun y hy => h y (by simp [hy]))]
  induction a with
  | nil => simpa [lastIdx] using hb
  | cons x a ih => simp only [List.cons_append, lastIdx, ih]

/-- the modifiers run before the preserialize stage start with those before the first
preserialize mark -/
theorem stages_start (ms : List Mod) : ∃ R, tvsM ms ++ nvsM ms = uptoG Mod.isPreM ms ++ R := by
  unfold tvsM nvsM tvsG nvsG
  cases hl : lastIdx Mod.isEagerM ms with
  | none => exact ⟨[], by simp⟩
  | some k =>
    simp only []
    unfold uptoG
    cases hp : firstIdx Mod.isPreM ms with
    | none => exact ⟨[], by simp⟩
    | some j =>
      simp only []
      by_cases hkj : k ≤ j
      · refine ⟨[], ?_⟩
        rw [List.append_nil, List.drop_take]
        have : ms.take j = ms.take (k + (j - k)) := by congr 1; omega
        rw [this, List.take_add]
      · refine ⟨(ms.take k).drop j, ?_⟩
        have h1 : (ms.take j).drop k = [] := by
          rw [List.drop_eq_nil_iff]
          simp
          omega
        have h2 : ms.take j = (ms.take k).take j := by
          rw [List.take_take]
          congr 1
          omega
        rw [h1, List.append_nil]
        conv => rhs; rw [h2]
        exact (List.take_append_drop j (ms.take k)).symm

/-- the modifiers before the first preserialize mark run first, in order, in the state the field
is found in -/
theorem callback_run {f : Field} (hv : NoMarks vis) {A B : List Mod} {l : Leaf} (hch : f.chain = A ++ .leaf l :: B) (hA : ∀ m ∈ A, m.Quiet)
    {c : Ctx} {w w' : World} {t : Val} (hs : (Field.ops env vis f).serialize c w = (.ok t, w')) :
    ∃ r, l.serialize w.heap c = .ok r := by
  simp only [Field.ops, chainOps, chainSerialize] at hs
  rw [tvs_denL env vis hv, nvs_denL env vis hv, pvs_denL env vis hv] at hs
  obtain ⟨R, hR⟩ := stages_start f.chain
  have hup : ∃ B', uptoG Mod.isPreM f.chain = A ++ .leaf l :: B' := by
    rw [hch]
    unfold uptoG
    have : firstIdx Mod.isPreM (A ++ .leaf l :: B) = (firstIdx Mod.isPreM (.leaf l :: B)).map (· + A.length) :=
      firstIdx_app (fun x hx => quiet_notPre (hA x hx))
    rw [this]
    simp only [firstIdx, Mod.isPreM, Bool.false_eq_true, if_false]
    cases firstIdx Mod.isPreM B with
    | none => exact ⟨B, rfl⟩
    | some j =>
      refine ⟨B.take j, ?_⟩
      simp only [Option.map_some]
      rw [List.take_append]
      have : j + 1 + A.length - A.length = j + 1 := by omega
      rw [this, List.take_of_length_le (by omega)]
      rfl
  obtain ⟨B', hB'⟩ := hup
  rw [hB'] at hR
  obtain ⟨v₁, w₁, h1, tmp⟩ := bind_inv hs
  clear hs
  have hs := tmp
  clear tmp
  obtain ⟨v₂, w₂, h2, tmp⟩ := bind_inv hs
  clear hs
  have hs := tmp
  clear tmp
  have h12 : reduceM (fun m v => m.serialize (c.nval v)) ((A ++ .leaf l :: B' ++ R).map (fun m => m.den env vis)) c.val w = (.ok v₂, w₂) := by
    rw [← hR, List.map_append, reduceM_app, Py.bind_run, h1]
    exact h2
  rw [List.append_assoc, List.map_append, reduceM_app] at h12
  obtain ⟨v₃, w₃, h3, tmp⟩ := bind_inv h12
  clear h12
  have h12 := tmp
  clear tmp
  obtain ⟨rfl, rfl⟩ := quiet_reduce A hA h3
  simp only [List.cons_append, List.map_cons, reduceM] at h12
  obtain ⟨v₄, w₄, h4, tmp⟩ := bind_inv h12
  clear h12
  have h12 := tmp
  clear tmp
  simp only [Mod.den, leafOps, readW, Prod.mk.injEq] at h4
  exact ⟨v₄, h4.1⟩

/-- a modifier that hands None on -/
def Mod.HandsNone (m : Mod) : Prop := m.Quiet ∨ (∃ C st, m = .instOf C st) ∨ ∃ nn sp item, m = .listOf nn sp item

theorem handsNone_run {n : Nat} {m : Mod} (h : m.HandsNone) {c : Ctx} (hc : c.val = .none) {w w' : World} {r : Val}
    (hs : (m.den env (instOps env n)).serialize c w = (.ok r, w')) : r = .none ∧ w' = w := by
  rcases h with h | ⟨C, st, rfl⟩ | ⟨nn, sp, item, rfl⟩
  · rw [← hc]; exact quiet_run h hs
  · cases n with
    | zero => cases hs
    | succ n =>
      have : (Mod.den env (instOps env (n + 1)) (.instOf C st)).serialize c = instSerialize env (Field.ops env (instOps env n)) c := rfl
      rw [this] at hs
      unfold instSerialize at hs
      rw [hc] at hs
      cases hs
      exact ⟨rfl, rfl⟩
  · simp only [Mod.den, listOps, hc] at hs
    cases hs
    exact ⟨rfl, rfl⟩

theorem handsNone_reduce {n : Nat} {c : Ctx} (ms : List Mod) (h : ∀ m ∈ ms, m.HandsNone) : ∀ {r : Val} {w w' : World},
    reduceM (fun m v => m.serialize (c.nval v)) (ms.map (fun m => m.den env (instOps env n))) .none w = (.ok r, w') → r = .none ∧ w' = w := by
  induction ms with
  | nil => intro r w w' hs; cases hs; exact ⟨rfl, rfl⟩
  | cons m ms ih =>
    intro r w w' hs
    simp only [List.map_cons, reduceM, Py.bind_run] at hs
    rcases h1 : (m.den env (instOps env n)).serialize (c.nval .none) w with ⟨e | a, w₁⟩
    · rw [h1] at hs; cases hs
    · rw [h1] at hs
      obtain ⟨rfl, rfl⟩ := handsNone_run (h m (by simp)) rfl h1
      exact ih (fun m' h' => h m' (by simp [h'])) hs

theorem handsNone_notPre {m : Mod} (h : m.HandsNone) : m.isPreM = false := by
  rcases h with h | ⟨C, st, rfl⟩ | ⟨nn, sp, item, rfl⟩
  · exact quiet_notPre h
  · rfl
  · rfl

theorem callback_none {f : Field} {n : Nat} {A B : List Mod} {l : Leaf} (hch : f.chain = A ++ .leaf l :: B) (hA : ∀ m ∈ A, m.HandsNone)
    {c : Ctx} (hc : c.val = .none) {w w' : World} {t : Val} (hs : (Field.ops env (instOps env n) f).serialize c w = (.ok t, w')) :
    ∃ r, l.serialize w.heap c = .ok r := by
  simp only [Field.ops, chainOps, chainSerialize] at hs
  rw [tvs_denL env _ (instOps_noMarks env n), nvs_denL env _ (instOps_noMarks env n), pvs_denL env _ (instOps_noMarks env n)] at hs
  obtain ⟨R, hR⟩ := stages_start f.chain
  have hup : ∃ B', uptoG Mod.isPreM f.chain = A ++ .leaf l :: B' := by
    rw [hch]
    unfold uptoG
    have : firstIdx Mod.isPreM (A ++ .leaf l :: B) = (firstIdx Mod.isPreM (.leaf l :: B)).map (· + A.length) :=
      firstIdx_app (fun x hx => handsNone_notPre (hA x hx))
    rw [this]
    simp only [firstIdx, Mod.isPreM, Bool.false_eq_true, if_false]
    cases firstIdx Mod.isPreM B with
    | none => exact ⟨B, rfl⟩
    | some j =>
      refine ⟨B.take j, ?_⟩
      simp only [Option.map_some]
      rw [List.take_append]
      have : j + 1 + A.length - A.length = j + 1 := by omega
      rw [this, List.take_of_length_le (by omega)]
      rfl
  obtain ⟨B', hB'⟩ := hup
  rw [hB'] at hR
  obtain ⟨v₁, w₁, h1, tmp⟩ := bind_inv hs
  clear hs
  have hs := tmp
  clear tmp
  obtain ⟨v₂, w₂, h2, tmp⟩ := bind_inv hs
  clear hs
  have hs := tmp
  clear tmp
  have h12 : reduceM (fun m v => m.serialize (c.nval v)) ((A ++ .leaf l :: B' ++ R).map (fun m => m.den env (instOps env n))) c.val w = (.ok v₂, w₂) := by
    rw [← hR, List.map_append, reduceM_app, Py.bind_run, h1]
    exact h2
  rw [List.append_assoc, List.map_append, reduceM_app] at h12
  obtain ⟨v₃, w₃, h3, tmp⟩ := bind_inv h12
  clear h12
  have h12 := tmp
  clear tmp
  rw [hc] at h3
  obtain ⟨rfl, rfl⟩ := handsNone_reduce A hA h3
  simp only [List.cons_append, List.map_cons, reduceM] at h12
  obtain ⟨v₄, w₄, h4, tmp⟩ := bind_inv h12
  clear h12
  have h12 := tmp
  clear tmp
  simp only [Mod.den, leafOps, readW, Prod.mk.injEq] at h4
  have hcc : c.nval .none = c := by
    cases c
    simp only [Ctx.nval] at hc ⊢
    rw [hc]
  rw [hcc] at h4
  exact ⟨v₄, h4.1⟩

/-- a modifier after a setter: a preserialize mark, or one that hands the value on -/
def Mod.After (m : Mod) : Prop := m = .pre ∨ ∃ l, m = .leaf l ∧ l.HandsOn

/-- the assignment after each step of the preserialize stage -/
theorem setParent_run {i : Nat} {n : String} {c : Ctx} (hp : c.parent = some i) (hk : c.keypathp = [.s n]) (v : Val) : setParent env c v = setAttr env i n v := by
  simp only [setParent, hp, hk]

/-- the steps after a setter leave its result -/
theorem after_run {f : Field} {i : Nat} {c : Ctx} {r x : Val} (hfuel : env.fuel ≠ 0) (hp : c.parent = some i) (hk : c.keypathp = [.s f.name])
    (hx : (if pyEq r x = true then x else r) = x) (B : List Mod) (hB : ∀ m ∈ B, m.After) : ∀ {w w' : World} {t : Val},
      OpenField (w.cdef env i) f → (w.heap i).attrs f.name = x →
      reduceM (fun m v => sv (setParent env) m (c.nval v)) (B.map (fun m => m.den env vis)) r w = (.ok t, w') →
      t = r ∧ (w'.heap i).attrs f.name = x ∧ Touched env i [f.name] w w' ∧
      ∀ l, Mod.leaf l ∈ B → ∃ h : Heap, (h i).attrs f.name = x ∧ l.serialize h (c.nval r) = .ok r ∧ l.validate h (c.nval r) = .ok () := by
  induction B with
  | nil =>
    intro w w' t ho ha hs
    cases hs
    exact ⟨rfl, ha, Touched.refl env i _ w, fun l hl => by cases hl⟩
  | cons m B ih =>
    intro w w' t ho ha hs
    simp only [List.map_cons, reduceM] at hs
    obtain ⟨v₁, w₁, h1, tmp⟩ := bind_inv hs
    clear hs
    have hs := tmp
    clear tmp
    unfold sv at h1
    obtain ⟨r', wa, h2, tmp⟩ := bind_inv h1
    clear h1
    have h1 := tmp
    clear tmp
    obtain ⟨_, wb, h3, tmp⟩ := bind_inv h1
    clear h1
    have h1 := tmp
    clear tmp
    obtain ⟨_, wc, h4, tmp⟩ := bind_inv h1
    clear h1
    have h1 := tmp
    clear tmp
    cases h1
    have hm := hB m (by simp)
    have hq : v₁ = r ∧ wa = w ∧ wb = wa := by
      rcases hm with rfl | ⟨l, rfl, hl⟩
      · cases h2; cases h3; exact ⟨rfl, rfl, rfl⟩
      · simp only [Mod.den, leafOps, readW, Prod.mk.injEq] at h2 h3
        exact ⟨hl _ _ _ h2.1, h2.2.symm, h3.2.symm⟩
    obtain ⟨rfl, rfl, rfl⟩ := hq
    rw [setParent_run (c := c.nval v₁) (i := i) (n := f.name) hp hk] at h4
    obtain ⟨_, ht, hat⟩ := touched_set (v := v₁) hfuel ho.plain ho.notKey
    rw [h4] at ht hat
    rw [ha, hx] at hat
    obtain ⟨i1, i2, i3, i4⟩ := ih (fun m' h' => hB m' (by simp [h'])) (by rw [ht.cdef]; exact ho) hat hs
    refine ⟨i1, i2, (ht.trans i3).mono (by simp), ?_⟩
    intro l hl
    rcases List.mem_cons.1 hl with rfl | hl
    · simp only [Mod.den, leafOps, readW, Prod.mk.injEq] at h2 h3
      exact ⟨_, ha, h2.1, h3.1⟩
    · exact i4 l hl

theorem setter_stages {A B : List Mod} {s : Setter} (hA : ∀ m ∈ A, m.Quiet) (hB : ∀ m ∈ B, m.After) :
    (∀ m ∈ tvsM (A ++ setOnSaveMods s ++ B), m.Quiet) ∧ (∀ m ∈ nvsM (A ++ setOnSaveMods s ++ B), m.Quiet) ∧
      pvsM (A ++ setOnSaveMods s ++ B) = setOnSaveMods s ++ B := by
  have hf : firstIdx Mod.isPreM (A ++ setOnSaveMods s ++ B) = some A.length := by
    rw [List.append_assoc, firstIdx_app (fun x hx => quiet_notPre (hA x hx))]
    simp [setOnSaveMods, firstIdx, Mod.isPreM]
  have hl : lastIdx Mod.isEagerM (A ++ setOnSaveMods s ++ B) = lastIdx Mod.isEagerM A := by
    rw [List.append_assoc]
    apply lastIdx_app_none
    intro x hx
    rcases List.mem_append.1 hx with h | h
    · simp only [setOnSaveMods, List.mem_cons, List.not_mem_nil, or_false] at h
      rcases h with rfl | rfl <;> rfl
    · rcases hB x h with rfl | ⟨l, rfl, _⟩ <;> rfl
  have hup : uptoG Mod.isPreM (A ++ setOnSaveMods s ++ B) = A := by
    unfold uptoG
    rw [hf]
    simp
  refine ⟨?_, ?_, ?_⟩
  · unfold tvsM tvsG
    rw [hl]
    cases hk : lastIdx Mod.isEagerM A with
    | none => intro m hm; cases hm
    | some k =>
      have := lastIdx_lt hk
      intro m hm
      simp only [] at hm
      rw [List.append_assoc, List.take_append_of_le_length (by omega)] at hm
      exact hA m (List.mem_of_mem_take hm)
  · unfold nvsM nvsG
    rw [hl, hup]
    intro m hm
    split at hm
    · exact hA m (List.mem_of_mem_drop hm)
    · exact hA m hm
  · unfold pvsM pvsG
    rw [hf]
    simp

/-- a setter: what it is given, and what is left -/
theorem setter_run {f : Field} {i : Nat} (hv : NoMarks vis) (hfuel : env.fuel ≠ 0) {A B : List Mod} {s : Setter} (hch : f.chain = A ++ setOnSaveMods s ++ B)
    (hA : ∀ m ∈ A, m.Quiet) (hB : ∀ m ∈ B, m.After) {c : Ctx} {w w' : World} {t : Val} (ho : OpenField (w.cdef env i) f)
    (hp : c.parent = some i) (hk : c.keypathp = [.s f.name]) (hcv : c.val = (w.heap i).attrs f.name)
    (hs : (Field.ops env vis f).serialize c w = (.ok t, w')) :
    ∃ wa : World, Touched env i [f.name] w wa ∧ (wa.heap i).attrs f.name = (w.heap i).attrs f.name ∧ s.run wa.heap c = .ok t ∧
      Touched env i [f.name] w w' ∧ (w'.heap i).attrs f.name = (if pyEq t c.val = true then c.val else t) ∧
      ∀ l, Mod.leaf l ∈ B → ∃ h : Heap, (h i).attrs f.name = (if pyEq t c.val = true then c.val else t) ∧
        l.serialize h (c.nval t) = .ok t ∧ l.validate h (c.nval t) = .ok () := by
  simp only [Field.ops, chainOps, chainSerialize] at hs
  rw [tvs_denL env vis hv, nvs_denL env vis hv, pvs_denL env vis hv, hch] at hs
  obtain ⟨q1, q2, q3⟩ := setter_stages (s := s) hA hB
  rw [q3] at hs
  obtain ⟨v₁, w₁, h1, tmp⟩ := bind_inv hs
  clear hs
  have hs := tmp
  clear tmp
  obtain ⟨rfl, rfl⟩ := quiet_reduce _ q1 h1
  obtain ⟨v₂, w₂, h2, tmp⟩ := bind_inv hs
  clear hs
  have hs := tmp
  clear tmp
  obtain ⟨rfl, rfl⟩ := quiet_reduce _ q2 h2
  simp only [setOnSaveMods, List.cons_append, List.nil_append, List.map_cons, reduceM] at hs
  obtain ⟨v₃, w₃, h3, tmp⟩ := bind_inv hs
  clear hs
  have hs := tmp
  clear tmp
  -- the mark
  have hpre : v₃ = c.val ∧ setAttr env i f.name c.val w₂ = (.ok (), w₃) := by
    unfold sv at h3
    obtain ⟨a, wa, e1, tmp⟩ := bind_inv h3
    clear h3
    have h3 := tmp
    clear tmp
    cases e1
    obtain ⟨_, wb, e2, tmp⟩ := bind_inv h3
    clear h3
    have h3 := tmp
    clear tmp
    cases e2
    obtain ⟨_, wc, e3, tmp⟩ := bind_inv h3
    clear h3
    have h3 := tmp
    clear tmp
    cases h3
    rw [setParent_run (c := c.nval c.val) (i := i) (n := f.name) hp hk] at e3
    exact ⟨rfl, e3⟩
  obtain ⟨rfl, hset⟩ := hpre
  obtain ⟨_, ht3, hat3⟩ := touched_set (v := c.val) hfuel ho.plain ho.notKey
  rw [hset] at ht3 hat3
  have hat3' : (w₃.heap i).attrs f.name = c.val := by
    rw [hat3, ← hcv, ite_self]
  obtain ⟨r, w₄, h4, tmp⟩ := bind_inv hs
  clear hs
  have hs := tmp
  clear tmp
  have hleaf : s.run w₃.heap c = .ok r ∧ setAttr env i f.name r w₃ = (.ok (), w₄) := by
    unfold sv at h4
    obtain ⟨a, wa, e1, tmp⟩ := bind_inv h4
    clear h4
    have h4 := tmp
    clear tmp
    obtain ⟨_, wb, e2, tmp⟩ := bind_inv h4
    clear h4
    have h4 := tmp
    clear tmp
    obtain ⟨_, wc, e3, tmp⟩ := bind_inv h4
    clear h4
    have h4 := tmp
    clear tmp
    cases h4
    simp only [Mod.den, leafOps, readW, Prod.mk.injEq] at e1 e2
    have hw1 := e1.2
    have hw2 := e2.2
    subst hw1 hw2
    rw [setParent_run (c := c.nval c.val) (i := i) (n := f.name) hp hk] at e3
    exact ⟨e1.1, e3⟩
  obtain ⟨hrun, hset4⟩ := hleaf
  have ho3 : OpenField (w₃.cdef env i) f := by rw [ht3.cdef]; exact ho
  obtain ⟨_, ht4, hat4⟩ := touched_set (v := r) hfuel ho3.plain ho3.notKey
  rw [hset4] at ht4 hat4
  rw [hat3'] at hat4
  obtain ⟨i1, i2, i3, i4⟩ := after_run (vis := vis) hfuel hp hk (by split <;> simp_all) B hB (by rw [ht4.cdef]; exact ho3) hat4 hs
  subst i1
  refine ⟨w₃, ht3, by rw [hat3', hcv], hrun, ((ht3.trans ht4).trans i3).mono (by simp), i2, i4⟩

end pipe

/-! ### What saving does -/

/-- What a setter returns for the value `v`: the function's result, the constant's, or what the
types make of the value. -/
inductive Setter.Returns (h : Heap) (c : Ctx) (v : Val) : Setter → Val → Prop
  | const {f : Heap → Except Exc Val} {r : Val} : f h = .ok r → Setter.Returns h c v (.const f) r
  | fn {f : Heap → Val → Except Exc Val} {r : Val} : f h v = .ok r → Setter.Returns h c v (.fn f) r
  | types {p : Pipe} {r : Val} : p.transform h { c with val := v } = .ok r → Setter.Returns h c v (.types p) r

theorem Setter.returns_of_run {s : Setter} {h : Heap} {c : Ctx} {r : Val} (hr : s.run h c = .ok r) : s.Returns h c c.val r := by
  cases s with
  | const f => exact .const hr
  | fn f => exact .fn hr
  | types p => exact .types hr

/-- new or modified -/
def Changed (o : Obj) : Prop := o.isNew = true ∨ o.isModified = true

theorem changed_dirty {o : Obj} (h : Changed o) : dirty o = true := by
  unfold dirty
  rcases h with h | h <;> simp [h]

theorem unchanged_dirty {o : Obj} (h1 : o.isNew = false) (h2 : o.isModified = false) : dirty o = false := by
  unfold dirty
  simp [h1, h2]

section saving
variable {se : SaveEnv} {S : Nat → Prop} {i : Nat} {w w' : World} {pre post : List Field} {f : Field} {A B : List Mod}

/-- Saving a new or modified object, or any object for a forced setter, gives a field the value
its setter returns for the value the field had. The setter sees the fields before it with their
final values and everything else as it was. All modifiers behind the setter have accepted the
result. A result that equals the old value leaves the old value. -/
theorem setonsave_value {s : Setter} (hfuel : se.env.fuel ≠ 0) (hr : SaveReady se.env S i (w.cdef se.env i).fields w)
    (hfs : (w.cdef se.env i).fields = pre ++ f :: post) (ho : OpenField (w.cdef se.env i) f)
    (hch : f.chain = A ++ setOnSaveMods s ++ B) (hA : ∀ m ∈ A, m.Quiet) (hB : ∀ m ∈ B, m.After)
    (hrun : Changed (w.heap i) ∨ f.forceSetOnSave = true) (h : setOnSave se i w = (.ok (), w')) :
    ∃ (c : Ctx) (hp : Heap) (r : Val), SavingAt w w' i pre hp ∧ SaveCtx w i f.name ((w.heap i).attrs f.name) c ∧
      s.Returns hp c ((w.heap i).attrs f.name) r ∧
      (w'.heap i).attrs f.name = (if pyEq r ((w.heap i).attrs f.name) = true then (w.heap i).attrs f.name else r) ∧
      ∀ l, Mod.leaf l ∈ B → ∃ (h' : Heap) (c' : Ctx), (h' i).attrs f.name = (w'.heap i).attrs f.name ∧ SaveCtx w i f.name r c' ∧
        l.serialize h' c' = .ok r ∧ l.validate h' c' = .ok () := by
  obtain ⟨m, w₁, w₂, w₃, c, t, hc, hser, hset, ho₁, hat, _, _, hfin⟩ := save_step hfuel hr hfs ho (hrun.imp_left changed_dirty) h
  have hfn : ∀ g ∈ pre, g.name ≠ f.name := by
    intro g hg he
    have := hr.names
    rw [hfs, List.map_append, List.map_cons, List.nodup_append] at this
    exact this.2.2 _ (List.mem_map.2 ⟨g, hg, rfl⟩) f.name (by simp) he
  obtain ⟨wa, ta, aa, ra, t2, a2, b2⟩ := setter_run (instOps_noMarks se.env m) hfuel hch hA hB ho₁ hc.parent hc.path
    (by rw [hc.val, hat.later _ hfn]) hser
  have ho₂ : OpenField (w₂.cdef se.env i) f := by rw [t2.cdef]; exact ho₁
  obtain ⟨_, t3, a3⟩ := touched_set (v := t) hfuel ho₂.plain ho₂.notKey
  rw [hset] at t3 a3
  rw [a2, hc.val] at a3
  have a3' : (w₃.heap i).attrs f.name = (if pyEq t ((w.heap i).attrs f.name) = true then (w.heap i).attrs f.name else t) := by
    rw [a3]
    split <;> simp_all
  refine ⟨c, wa.heap, t, ⟨?_, ?_, ?_, ?_⟩, hc, by rw [← hc.val]; exact Setter.returns_of_run ra, by rw [hfin, a3'], ?_⟩
  · intro j hj
    rw [ta.others j hj, hat.others j hj]
  · rw [ta.isNew, hat.isNew]
  · intro g hg
    rw [ta.attrs g.name (by simpa using hfn g hg), hat.earlier g hg]
  · intro n hn
    by_cases he : n = f.name
    · subst he
      rw [aa, hat.later _ hn]
    · rw [ta.attrs n (by simpa using he), hat.later n hn]
  · intro l hl
    obtain ⟨h', e1, e2, e3⟩ := b2 l hl
    refine ⟨h', c.nval t, ?_, hc.nval t, e2, e3⟩
    rw [e1, hfin, a3', hc.val]

/-- A completed save of a new or modified object has called the `onsave` callback with the
value. -/
theorem onsave_called {cb : Heap → Val → Except Exc Unit} (hfuel : se.env.fuel ≠ 0) (hr : SaveReady se.env S i (w.cdef se.env i).fields w)
    (hfs : (w.cdef se.env i).fields = pre ++ f :: post) (ho : OpenField (w.cdef se.env i) f)
    (hch : f.chain = A ++ .leaf (onSaveLeaf cb) :: B) (hA : ∀ m ∈ A, m.Quiet)
    (hrun : Changed (w.heap i)) (h : setOnSave se i w = (.ok (), w')) :
    ∃ hp : Heap, SavingAt w w' i pre hp ∧ cb hp ((w.heap i).attrs f.name) = .ok () := by
  obtain ⟨m, w₁, w₂, w₃, c, t, hc, hser, _, _, hat, _, _, _⟩ := save_step hfuel hr hfs ho (.inl (changed_dirty hrun)) h
  obtain ⟨r, hl⟩ := callback_run (instOps_noMarks se.env m) hch hA hser
  refine ⟨w₁.heap, hat, ?_⟩
  simp only [onSaveLeaf, thenVal, hc.val] at hl
  split at hl
  · cases hl
  · assumption

/-- A completed save of a new or modified object has called the `onupdate` callback of a field
with a recorded previous value, with that value and the current one. -/
theorem onupdate_called {cb : Heap → Val → Val → Ctx → Except Exc Unit} {p : Val} (hfuel : se.env.fuel ≠ 0)
    (hr : SaveReady se.env S i (w.cdef se.env i).fields w)
    (hfs : (w.cdef se.env i).fields = pre ++ f :: post) (ho : OpenField (w.cdef se.env i) f)
    (hch : f.chain = A ++ .leaf (onUpdateLeaf cb) :: B) (hA : ∀ m ∈ A, m.Quiet)
    (hrun : Changed (w.heap i)) (hprev : dictGet (w.heap i).prev f.name = some p) (h : setOnSave se i w = (.ok (), w')) :
    ∃ (hp : Heap) (c : Ctx), SavingAt w w' i pre hp ∧ SaveCtx w i f.name ((w.heap i).attrs f.name) c ∧
      cb hp p ((w.heap i).attrs f.name) c = .ok () := by
  obtain ⟨m, w₁, w₂, w₃, c, t, hc, hser, _, _, hat, hpr, _, _⟩ := save_step hfuel hr hfs ho (.inl (changed_dirty hrun)) h
  obtain ⟨r, hl⟩ := callback_run (instOps_noMarks se.env m) hch hA hser
  refine ⟨w₁.heap, c, hat, hc, ?_⟩
  simp only [onUpdateLeaf, askedOf, hc.path, hc.parent, List.getLast?_singleton, hpr, hprev, thenVal, hc.val] at hl
  split at hl
  · cases hl
  · assumption

/-- A completed save of a new object has called the `onwrite` callback; a completed save of a
modified object has called it if the field is one of the modified ones. -/
theorem onwrite_called {cb : Heap → Val → Ctx → Except Exc Unit} (hfuel : se.env.fuel ≠ 0)
    (hr : SaveReady se.env S i (w.cdef se.env i).fields w)
    (hfs : (w.cdef se.env i).fields = pre ++ f :: post) (ho : OpenField (w.cdef se.env i) f)
    (hch : f.chain = A ++ .leaf (onWriteLeaf cb) :: B) (hA : ∀ m ∈ A, m.Quiet)
    (hrun : Changed (w.heap i)) (hw : (w.heap i).isNew = true ∨ f.name ∈ (w.heap i).modFields) (h : setOnSave se i w = (.ok (), w')) :
    ∃ (hp : Heap) (c : Ctx), SavingAt w w' i pre hp ∧ SaveCtx w i f.name ((w.heap i).attrs f.name) c ∧
      cb hp ((w.heap i).attrs f.name) c = .ok () := by
  obtain ⟨m, w₁, w₂, w₃, c, t, hc, hser, _, _, hat, _, hmo, _⟩ := save_step hfuel hr hfs ho (.inl (changed_dirty hrun)) h
  obtain ⟨r, hl⟩ := callback_run (instOps_noMarks se.env m) hch hA hser
  refine ⟨w₁.heap, c, hat, hc, ?_⟩
  have hcond : (!(w₁.heap i).isNew && !(w₁.heap i).modFields.contains f.name) = false := by
    rcases hw with hw | hw
    · rw [hat.isNew, hw]; rfl
    · have := hmo.2 hw
      simp [this]
  simp only [onWriteLeaf, askedOf, hc.path, hc.parent, List.getLast?_singleton, hcond, Bool.false_eq_true, if_false, thenVal, hc.val] at hl
  split at hl
  · cases hl
  · assumption

/-- Without a recorded previous value the `onupdate` callback plays no part. -/
theorem onupdate_skips (cb : Heap → Val → Val → Ctx → Except Exc Unit) {v : Val} {c : Ctx} (hc : SaveCtx w i f.name v c) {h : Heap}
    (hp : dictGet (h i).prev f.name = none) : (onUpdateLeaf cb).serialize h c = .ok v := by
  simp only [onUpdateLeaf, askedOf, hc.path, hc.parent, List.getLast?_singleton, hp, hc.val]

/-- For a stored object and a field that is not one of the modified ones the `onwrite` callback
plays no part. -/
theorem onwrite_skips (cb : Heap → Val → Ctx → Except Exc Unit) {v : Val} {c : Ctx} (hc : SaveCtx w i f.name v c) {h : Heap}
    (hn : (h i).isNew = false) (hm : f.name ∉ (h i).modFields) : (onWriteLeaf cb).serialize h c = .ok v := by
  simp only [onWriteLeaf, askedOf, hc.path, hc.parent, List.getLast?_singleton, hc.val]
  rw [if_pos (by simp [hn, hm])]

/-- a clean object, no forced setter so far: nothing has changed -/
theorem clean_prefix {env : Env} {m : Nat} {c : Ctx} (fs : List Field) : ∀ (w w' : World), SaveReady env S i fs w →
    (∀ g ∈ fs, OpenField (w.cdef env i) g → g.isRef = false) →
    (w.markGet env i).isSome = true → dirty (w.heap i) = false → (∀ g ∈ fs, g.forceSetOnSave = false) →
    serializeFields env (Field.ops env (instOps env m)) c i false fs w = (.ok (), w') → w'.heap = w.heap := by
  induction fs with
  | nil => intro w w' _ _ _ _ _ h; cases h; rfl
  | cons f fs ih =>
    intro w w' hr hor hm hd hf h
    rw [serializeFields_cons] at h
    have hf1 := hf f (by simp)
    have hf2 : ∀ g ∈ fs, g.forceSetOnSave = false := fun g hg => hf g (by simp [hg])
    have hor2 : ∀ g ∈ fs, OpenField (w.cdef env i) g → g.isRef = false := fun g hg => hor g (by simp [hg])
    split at h
    · rename_i hcond
      split at h
      · exact ih w w' hr.tail hor2 hm hd hf2 h
      · rcases hs : serializeField env (Field.ops env (instOps env m)) c i f w with ⟨e | a, w₁⟩
        · rw [hs] at h; cases h
        · rw [hs] at h
          simp only [] at h
          have hw₁ : w₁.heap = w.heap ∧ (w₁.markGet env i).isSome = true := by
            rcases hr.kinds f (by simp) with hk | hk | hk | hk
            · unfold serializeField at hs
              rw [if_pos hk] at hs
              cases hs
              exact ⟨rfl, hm⟩
            · have hv : VisRest env (fun b => b = i) (fun b => S b ∨ b = i) w (instOps env m) := rest_visit (fun j hj => (hr.rest j hj).2) m
              obtain ⟨⟨⟨ms, hms⟩, h2⟩, _⟩ := rest_field (c := c) hv hk w ⟨⟨w.marks, rfl⟩, fun j hj => by rw [hj]; exact hm⟩
              rw [hs] at hms h2
              refine ⟨?_, h2 i rfl⟩
              change w₁ = _ at hms
              rw [hms]
            · exfalso
              have := hor f (by simp) hk
              simp [this, hk.notInst, hf1] at hcond
            · rename_i hko
              exact absurd hk.1.keyOnly hko
          obtain ⟨hh, hm₁⟩ := hw₁
          have hcd : w₁.cdef env i = w.cdef env i := by unfold World.cdef; rw [hh]
          rw [hh, hd] at h
          rw [ih w₁ w' ⟨fun j hj => by rw [hh]; exact hr.tail.rest j hj, fun g hg => by rw [hh, hcd]; exact hr.tail.kinds g hg, by rw [hcd]; exact hr.tail.own, hr.tail.names⟩
            (by rw [hcd]; exact hor2) hm₁ (by rw [hh]; exact hd) hf2 h, hh]
    · exact ih w w' hr.tail hor2 hm hd hf2 h

/-- Saving an unmodified object leaves a field without forced setter as it is, if no field
declared before it has a forced setter. -/
theorem unforced_kept (hfuel : se.env.fuel ≠ 0) (hr : SaveReady se.env S i (w.cdef se.env i).fields w)
    (hfs : (w.cdef se.env i).fields = pre ++ f :: post) (hold : (w.heap i).isNew = false) (hclean : (w.heap i).isModified = false)
    (hforce : f.forceSetOnSave = false) (hpre : ∀ g ∈ pre, g.forceSetOnSave = false) (h : setOnSave se i w = (.ok (), w')) :
    (w'.heap i).attrs f.name = (w.heap i).attrs f.name := by
  have hclean := unchanged_dirty hold hclean
  have hor : ∀ g ∈ (w.cdef se.env i).fields, OpenField (w.cdef se.env i) g → g.isRef = false := fun g hg hog => (openField_facts hr.names hg hog).1
  obtain ⟨m, w'', hser, hheap⟩ := setOnSave_run h
  rw [hfs] at hser
  obtain ⟨k, hk⟩ := markPut_cons se.env i { w with marks := [] }
  generalize hwb : ({ w with marks := [] } : World).markPut se.env i = wb at hser hk
  have hmarked : (wb.markGet se.env i).isSome = true := by rw [← hwb]; exact markPut_get _ i
  have hbheap : wb.heap = w.heap := by rw [hk]
  have hbcd : wb.cdef se.env i = w.cdef se.env i := by unfold World.cdef; rw [hbheap]
  have hrb : SaveReady se.env S i (pre ++ f :: post) wb := by
    rw [← hfs]
    exact ⟨fun j hj => by rw [hbheap]; exact hr.rest j hj, fun g hg => by rw [hbheap, hbcd]; exact hr.kinds g hg,
      by rw [hbcd]; exact hr.own, hr.names⟩
  rw [hclean] at hser
  have hnd := hrb.names
  rw [List.map_append, List.map_cons, List.nodup_append] at hnd
  obtain ⟨hnd1, hnd2, hnd3⟩ := hnd
  rw [List.nodup_cons] at hnd2
  -- take the field with the ones before it
  have hsplit : pre ++ f :: post = (pre ++ [f]) ++ post := by simp
  rw [hsplit] at hser hrb
  obtain ⟨u₁, w₁, h1, h2, _⟩ := serializeFields_append (pre ++ [f]) post _ _ _ hser
  have hnd' : ((pre ++ [f]).map Field.name).Nodup := by
    have := hrb.names
    rw [List.map_append, List.nodup_append] at this
    exact this.1
  have hrpre : SaveReady se.env S i (pre ++ [f]) wb := ⟨hrb.rest, fun g hg => hrb.kinds g (List.mem_append_left _ hg), fun g hg => hrb.own g (List.mem_append_left _ hg), hnd'⟩
  have hh1 := clean_prefix (c := rootCtx w i {} (.obj i)) (pre ++ [f]) wb w₁ hrpre
    (by
      rw [hbcd]
      intro g hg
      refine hor g ?_
      rw [hfs, hsplit]
      exact List.mem_append_left _ hg) hmarked (by rw [hbheap]; exact hclean)
    (by
      intro g hg
      rcases List.mem_append.1 hg with hg | hg
      · exact hpre g hg
      · simp only [List.mem_singleton] at hg
        rw [hg]; exact hforce) h1
  have ht1 := touched_fields (n := m) (c := rootCtx w i {} (.obj i)) hfuel rfl rfl (pre ++ [f]) false wb hrpre hmarked
  rw [h1] at ht1
  have hrpost : SaveReady se.env S i post w₁ := by
    refine SaveReady.next ⟨hrb.rest, fun g hg => hrb.kinds g (List.mem_append_right _ hg), fun g hg => hrb.own g (List.mem_append_right _ hg), hnd2.2⟩ ht1 ?_
      (fun n hn => by obtain ⟨g, hg, he⟩ := List.mem_map.1 hn; exact ⟨g, hrb.own g (List.mem_append_left _ hg), he⟩)
    intro g hg hgn
    rw [List.map_append, List.map_singleton, List.mem_append, List.mem_singleton] at hgn
    rcases hgn with hgn | hgn
    · exact hnd3 _ hgn _ (List.mem_cons_of_mem _ (List.mem_map.2 ⟨g, hg, rfl⟩)) rfl
    · exact hnd2.1 (hgn ▸ List.mem_map.2 ⟨g, hg, rfl⟩)
  have htp := touched_fields (n := m) (c := rootCtx w i {} (.obj i)) hfuel rfl rfl post u₁ w₁ hrpost (ht1.marked hmarked)
  rw [h2] at htp
  have := htp.attrs f.name hnd2.1
  rw [hheap]
  change (w''.heap i).attrs f.name = _ at this
  rw [this, hh1, hbheap]

/-- Saving leaves a relation that is not loaded as it is, whatever its modifiers and whatever
the other setters do: it stays unset, and its reference ids are kept. -/
theorem unloaded_kept (hfuel : se.env.fuel ≠ 0) (hr : SaveReady se.env S i (w.cdef se.env i).fields w)
    (hf : f ∈ (w.cdef se.env i).fields) (hu : Unloaded w.heap i f) (hname : ∀ g ∈ (w.cdef se.env i).fields, g.name ≠ f.refName)
    (h : setOnSave se i w = (.ok (), w')) :
    (w'.heap i).attrs f.name = .none ∧ (w'.heap i).attrs f.refName = (w.heap i).attrs f.refName := by
  obtain ⟨pre, post, hfs⟩ := List.append_of_mem hf
  obtain ⟨m, w'', hser, hheap⟩ := setOnSave_run h
  rw [hfs] at hser
  obtain ⟨k, hk⟩ := markPut_cons se.env i { w with marks := [] }
  generalize hwb : ({ w with marks := [] } : World).markPut se.env i = wb at hser hk
  have hmarked : (wb.markGet se.env i).isSome = true := by rw [← hwb]; exact markPut_get _ i
  have hbheap : wb.heap = w.heap := by rw [hk]
  have hbcd : wb.cdef se.env i = w.cdef se.env i := by unfold World.cdef; rw [hbheap]
  have hrb : SaveReady se.env S i (pre ++ f :: post) wb := by
    rw [← hfs]
    exact ⟨fun j hj => by rw [hbheap]; exact hr.rest j hj, fun g hg => by rw [hbheap, hbcd]; exact hr.kinds g hg,
      by rw [hbcd]; exact hr.own, hr.names⟩
  have hnd := hrb.names
  rw [List.map_append, List.map_cons, List.nodup_append] at hnd
  obtain ⟨hnd1, hnd2, hnd3⟩ := hnd
  rw [List.nodup_cons] at hnd2
  obtain ⟨u₁, w₁, h1, h2, _⟩ := serializeFields_append pre (f :: post) _ _ _ hser
  have hrpre : SaveReady se.env S i pre wb := ⟨hrb.rest, fun g hg => hrb.kinds g (by simp [hg]), fun g hg => hrb.own g (by simp [hg]), hnd1⟩
  have ht1 := touched_fields (n := m) (c := rootCtx w i {} (.obj i)) hfuel rfl rfl pre (dirty (w.heap i)) wb hrpre hmarked
  rw [h1] at ht1
  have hown : ∀ n ∈ pre.map Field.name, ∃ g ∈ (wb.cdef se.env i).fields, g.name = n := fun n hn => by
    obtain ⟨g, hg, he⟩ := List.mem_map.1 hn
    exact ⟨g, hrb.own g (List.mem_append_left _ hg), he⟩
  have hrpost : SaveReady se.env S i post w₁ := by
    refine SaveReady.next ⟨hrb.rest, fun g hg => hrb.kinds g (List.mem_append_right _ (List.mem_cons_of_mem _ hg)),
      fun g hg => hrb.own g (List.mem_append_right _ (List.mem_cons_of_mem _ hg)), hnd2.2⟩ ht1 ?_ hown
    intro g hg hgn
    exact hnd3 _ hgn _ (List.mem_cons_of_mem _ (List.mem_map.2 ⟨g, hg, rfl⟩)) rfl
  have hne : ∀ fs : List Field, (∀ g ∈ fs, g ∈ (w.cdef se.env i).fields) → f.refName ∉ fs.map Field.name := by
    intro fs hsub hm
    obtain ⟨g, hg, he⟩ := List.mem_map.1 hm
    exact hname g (hsub g hg) he
  have ha1 := ht1.attrs f.name (fun hm => hnd3 _ hm f.name (by simp) rfl)
  have hb1 := ht1.attrs f.refName (hne pre (fun g hg => by rw [hfs]; simp [hg]))
  rw [hbheap] at ha1 hb1
  have hu₁ : Unloaded w₁.heap i f := ⟨hu.byKey, ha1.trans hu.absent, by rw [hb1]; exact hu.known⟩
  rw [serializeFields_cons, if_pos hu₁.keyOnly] at h2
  have h3 : serializeFields se.env (Field.ops se.env (instOps se.env m)) (rootCtx w i {} (.obj i)) i u₁ post w₁ = (.ok (), w'') := by
    split at h2 <;> exact h2
  have htp := touched_fields (n := m) (c := rootCtx w i {} (.obj i)) hfuel rfl rfl post u₁ w₁ hrpost (ht1.marked hmarked)
  rw [h3] at htp
  have ha2 := htp.attrs f.name hnd2.1
  have hb2 := htp.attrs f.refName (hne post (fun g hg => by rw [hfs]; simp [hg]))
  rw [hheap]
  exact ⟨ha2.trans (ha1.trans hu.absent), hb2.trans hb1⟩

/-- A completed save of any object, modified or not, has called the `onsave` callback of a relation
by key for which there is neither an object nor a reference id. Only relations known by id are
passed over. -/
theorem onsave_empty_relation {cb : Heap → Val → Except Exc Unit} (hfuel : se.env.fuel ≠ 0) (hr : SaveReady se.env S i (w.cdef se.env i).fields w)
    (hfs : (w.cdef se.env i).fields = pre ++ f :: post) (hs : f.store = .localKey) (h1 : (w.heap i).attrs f.name = .none)
    (h2 : (w.heap i).attrs f.refName = .none) (hname : ∀ g ∈ (w.cdef se.env i).fields, g.name ≠ f.refName)
    (hch : f.chain = A ++ .leaf (onSaveLeaf cb) :: B) (hA : ∀ m ∈ A, m.HandsNone) (h : setOnSave se i w = (.ok (), w')) :
    ∃ hp : Heap, (∀ j, j ≠ i → hp j = w.heap j) ∧ cb hp .none = .ok () := by
  obtain ⟨m, w'', hser, hheap⟩ := setOnSave_run h
  rw [hfs] at hser
  obtain ⟨k, hk⟩ := markPut_cons se.env i { w with marks := [] }
  generalize hwb : ({ w with marks := [] } : World).markPut se.env i = wb at hser hk
  have hmarked : (wb.markGet se.env i).isSome = true := by rw [← hwb]; exact markPut_get _ i
  have hbheap : wb.heap = w.heap := by rw [hk]
  have hbcd : wb.cdef se.env i = w.cdef se.env i := by unfold World.cdef; rw [hbheap]
  have hrb : SaveReady se.env S i (pre ++ f :: post) wb := by
    rw [← hfs]
    exact ⟨fun j hj => by rw [hbheap]; exact hr.rest j hj, fun g hg => by rw [hbheap, hbcd]; exact hr.kinds g hg,
      by rw [hbcd]; exact hr.own, hr.names⟩
  have hnd := hrb.names
  rw [List.map_append, List.map_cons, List.nodup_append] at hnd
  obtain ⟨hnd1, hnd2, hnd3⟩ := hnd
  obtain ⟨u₁, w₁, r1, r2, _⟩ := serializeFields_append pre (f :: post) _ _ _ hser
  have hrpre : SaveReady se.env S i pre wb := ⟨hrb.rest, fun g hg => hrb.kinds g (by simp [hg]), fun g hg => hrb.own g (by simp [hg]), hnd1⟩
  have ht1 := touched_fields (n := m) (c := rootCtx w i {} (.obj i)) hfuel rfl rfl pre (dirty (w.heap i)) wb hrpre hmarked
  rw [r1] at ht1
  have ha1 := ht1.attrs f.name (fun hm => hnd3 _ hm f.name (by simp) rfl)
  have hb1 := ht1.attrs f.refName (fun hm => by
    obtain ⟨g, hg, he⟩ := List.mem_map.1 hm
    exact hname g (by rw [hfs]; simp [hg]) he)
  rw [hbheap, h1] at ha1
  rw [hbheap, h2] at hb1
  have hko : keyOnly w₁ i f = false := by
    have : w₁.attr i f.refName = .none := hb1
    unfold keyOnly
    rw [this]
    simp [Val.isNone]
  have href : f.isRef = true := by unfold Field.isRef; simp [hs]
  rw [serializeFields_cons, if_pos (by simp [href]), if_neg (by simp [hko])] at r2
  rcases hsf : serializeField se.env (Field.ops se.env (instOps se.env m)) (rootCtx w i {} (.obj i)) i f w₁ with ⟨e | a, w₃⟩
  · rw [hsf] at r2; cases r2
  · unfold serializeField at hsf
    rw [if_neg (by rw [hs]; decide)] at hsf
    have hek : (rootCtx w i {} (.obj i)).ekey se.env w₁ f.name = .ok ((w₁.cdef se.env i).outKey f.name) := rfl
    simp only [Py.bind_run, Py.get_run, readW, hek] at hsf
    have hat : w₁.attr i f.name = .none := ha1
    rw [hat] at hsf
    generalize hc : (rootCtx w i {} (.obj i)).nextv .none f.name ((w₁.cdef se.env i).outKey f.name) ((w₁.heap i).cls, f.name) = c at hsf
    have hcv : c.val = .none := by rw [← hc]; rfl
    rcases ho' : (Field.ops se.env (instOps se.env m) f).serialize c w₁ with ⟨e | t, w₂⟩
    · rw [ho'] at hsf; cases hsf
    · obtain ⟨r, hl⟩ := callback_none hch hA hcv ho'
      refine ⟨w₁.heap, fun j hj => by rw [ht1.others j hj, hbheap], ?_⟩
      simp only [onSaveLeaf, thenVal, hcv] at hl
      split at hl
      · cases hl
      · assumption

end saving

end JC

namespace JC.SaveModsDemo
open JC

/-- `lambda v: v + '!'` -/
def bang : Setter := .fn (fun _ v => match v with
  | .str s => .ok (.str (s ++ "!"))
  | _ => .error .typeError)
/-- `lambda: 'seen'` -/
def seen : Setter := .const (fun _ => .ok (.str "seen"))
/-- a callback that raises unless the values differ -/
def changed : Heap → Val → Val → Ctx → Except Exc Unit := fun _ p v _ => if pyEq p v then .error .keyError else .ok ()
/-- a callback that always raises -/
def boom : Heap → Val → Except Exc Unit := fun _ _ => .error .keyError
/-- `types.str.required` -/
def reqd : Leaf where
  validate := fun _ c => match c.val with
    | .str _ => .ok ()
    | _ => .error (c.vexc "value required")

def fId : Field := { name := "id", chain := [.leaf {}] }
/-- `title: types.str.onupdate(changed)` -/
def fTitle : Field := { name := "title", hasReset := true, chain := [.leaf {}, .leaf (onUpdateLeaf changed)] }
/-- `stamp: types.str.setonsave(bang).required` -/
def fStamp : Field := { name := "stamp", chain := [.leaf {}] ++ setOnSaveMods bang ++ [.leaf reqd] }
/-- `last: types.str.fsetonsave(seen)` -/
def fLast : Field := { name := "last", chain := [.leaf {}] ++ setOnSaveMods seen ++ [], forceSetOnSave := true }
/-- `watch: types.str.onsave(boom)` -/
def fWatch : Field := { name := "watch", chain := [.leaf {}, .leaf (onSaveLeaf boom)] }
/-- `doc: Doc` -/
def fDoc (cls : String) : Field := { name := "doc", ftype := .inst, isInst := true, chain := [.instOf cls none] }
/-- `docs: list[Doc]` -/
def fDocs : Field := { name := "docs", ftype := .list, chain := [.listOf false .no [.instOf "Doc" none]] }

def denv : Env where
  cls := fun n =>
    if n = "Doc" then { name := n, primary := some "id", fields := [fId, fTitle, fStamp, fLast] }
    else if n = "Bad" then { name := n, primary := some "id", fields := [fId, fStamp, fWatch] }
    else if n = "Box" then { name := n, primary := some "id", fields := [fId, fDoc "Doc"] }
    else if n = "BadBox" then { name := n, primary := some "id", fields := [fId, fDoc "Bad"] }
    else if n = "Shelf" then { name := n, primary := some "id", fields := [fId, fDocs] }
    else {}
def dse : SaveEnv := { env := denv }

/-- attributes from a table -/
def attrsOf (kvs : List (String × Val)) : String → Val := fun n => (dictGet kvs n).getD .none

/-- a stored document with a changed title -/
def doc : Obj where
  cls := "Doc"
  isNew := false
  isModified := true
  modFields := ["title"]
  prev := [("title", .str "old")]
  attrs := attrsOf [("id", .str "d"), ("title", .str "new"), ("stamp", .str "s"), ("last", .str "l")]
/-- the same, unmodified -/
def cleanDoc : Obj := { doc with isModified := false, modFields := [], prev := [] }

def w1 : World := { heap := fun i => if i = 1 then doc else {}, next := 2 }
def w2 : World := { heap := fun i => if i = 1 then cleanDoc else {}, next := 2 }

theorem openTitle : OpenField (denv.cls "Doc") fTitle :=
  ⟨⟨fTitle, rfl, rfl, rfl, by decide⟩, by intro m hm; simp [fTitle] at hm; rcases hm with rfl | rfl <;> trivial, by decide, rfl⟩
theorem openStamp : OpenField (denv.cls "Doc") fStamp :=
  ⟨⟨fStamp, rfl, rfl, rfl, by decide⟩, by intro m hm; simp [fStamp, setOnSaveMods] at hm; rcases hm with rfl | rfl | rfl | rfl <;> trivial, by decide, rfl⟩
theorem openLast : OpenField (denv.cls "Doc") fLast :=
  ⟨⟨fLast, rfl, rfl, rfl, by decide⟩, by intro m hm; simp [fLast, setOnSaveMods] at hm; rcases hm with rfl | rfl | rfl <;> trivial, by decide, rfl⟩

theorem ready (o : Obj) (ho : o.cls = "Doc") (hid : o.attrs "id" = .str "d") :
    SaveReady denv (fun _ => False) 1 (denv.cls "Doc").fields { heap := fun i => if i = 1 then o else {}, next := 2 } where
  rest := fun _ h => h.elim
  kinds := by
    have hcd : World.cdef denv { heap := fun i => if i = 1 then o else {}, next := 2 } 1 = denv.cls "Doc" := by
      unfold World.cdef
      simp [ho]
    rw [hcd]
    intro f hf
    have : f = fId ∨ f = fTitle ∨ f = fStamp ∨ f = fLast := by simpa [denv] using hf
    rcases this with rfl | rfl | rfl | rfl
    · refine .inr (.inl ⟨⟨fun h c r hr => ?_, trivial⟩, ?_, ?_⟩)
      · cases hr; rfl
      · simp [fId, hid]; rfl
      · intro b hb
        simp [fId, hid] at hb
        cases hb
    · exact .inr (.inr (.inl openTitle))
    · exact .inr (.inr (.inl openStamp))
    · exact .inr (.inr (.inl openLast))
  own := by
    have hcd : World.cdef denv { heap := fun i => if i = 1 then o else {}, next := 2 } 1 = denv.cls "Doc" := by
      unfold World.cdef
      simp [ho]
    rw [hcd]
    exact fun _ h => h
  names := by decide

/-- the hypotheses of the theorems are met: the save completes and the setters have run -/
example : ∃ w', setOnSave dse 1 w1 = (.ok (), w') ∧ (w'.heap 1).attrs "stamp" = .str "s!" ∧ (w'.heap 1).attrs "last" = .str "seen" ∧
    (w'.heap 1).attrs "title" = .str "new" := ⟨_, rfl, rfl, rfl, rfl⟩

example : ∃ (c : Ctx) (hp : Heap) (r : Val), SavingAt w1 (setOnSave dse 1 w1).2 1 [fId, fTitle] hp ∧ SaveCtx w1 1 "stamp" (.str "s") c ∧
    bang.Returns hp c (.str "s") r := by
  obtain ⟨c, hp, r, h1, h2, h3, _⟩ := setonsave_value (se := dse) (w := w1) (w' := (setOnSave dse 1 w1).2) (pre := [fId, fTitle]) (post := [fLast]) (f := fStamp)
    (A := [.leaf {}]) (B := [.leaf reqd]) (s := bang) (S := fun _ => False) (by decide) (ready doc rfl rfl) rfl openStamp rfl
    (by intro m hm; simp at hm; exact .inr ⟨_, hm, fun _ _ _ h => by cases h; rfl⟩)
    (by intro m hm; simp at hm; exact .inr ⟨_, hm, fun _ _ _ h => by cases h; rfl⟩) (.inl (.inr rfl)) rfl
  exact ⟨c, hp, r, h1, h2, h3⟩

example : ∃ (hp : Heap) (c : Ctx), changed hp (.str "old") (.str "new") c = .ok () := by
  obtain ⟨hp, c, _, _, h⟩ := onupdate_called (se := dse) (w := w1) (w' := (setOnSave dse 1 w1).2) (pre := [fId]) (post := [fStamp, fLast]) (f := fTitle)
    (A := [.leaf {}]) (B := []) (cb := changed) (S := fun _ => False) (p := .str "old") (by decide) (ready doc rfl rfl) rfl openTitle rfl
    (by intro m hm; simp at hm; exact .inr ⟨_, hm, fun _ _ _ h => by cases h; rfl⟩) (.inr rfl) rfl rfl
  exact ⟨hp, c, h⟩

/-- an unmodified document: the forced setter runs, the field before it is left alone -/
example : ((setOnSave dse 1 w2).2.heap 1).attrs "stamp" = .str "s" :=
  unforced_kept (se := dse) (w := w2) (pre := [fId, fTitle]) (post := [fLast]) (f := fStamp) (S := fun _ => False) (by decide) (ready cleanDoc rfl rfl) rfl rfl rfl rfl
    (by intro g hg; simp at hg; rcases hg with rfl | rfl <;> rfl) rfl
example : ((setOnSave dse 1 w2).2.heap 1).attrs "last" = .str "seen" := rfl

/-- two stored, unmodified users who are each other's friend -/
def w5 : World := { heap := fun i => if i = 0 then { cls := "User", isNew := false, attrs := attrsOf [("id", .str "a"), ("friend", .obj 1)] }
    else { cls := "User", isNew := false, attrs := attrsOf [("id", .str "b"), ("friend", .obj 0)] }, next := 2 }
def use : SaveEnv := { env := Demo.env }

example : (setOnSave use 0 w5).2 = w5 := by
  refine save_at_rest use (S := fun _ => True) (fun j _ => ?_) trivial
  have hcls : (w5.heap j).cls = "User" := by unfold w5; simp only []; split <;> rfl
  refine ⟨?_, ?_, ?_, ?_⟩
  · unfold w5; simp only []; split <;> rfl
  · unfold w5; simp only []; split <;> rfl
  · rw [hcls]
    intro f hf
    have : f = Demo.fId ∨ f = Demo.fName ∨ f = Demo.fSecret ∨ f = Demo.fTmp ∨ f = Demo.fFriend ∨ f = Demo.fPosts := by
      simpa [use, Demo.env, Demo.user] using hf
    rcases this with rfl | rfl | rfl | rfl | rfl | rfl <;> rfl
  · rw [hcls]
    intro f hf hrel
    have : f = Demo.fId ∨ f = Demo.fName ∨ f = Demo.fSecret ∨ f = Demo.fTmp ∨ f = Demo.fFriend ∨ f = Demo.fPosts := by
      simpa [use, Demo.env, Demo.user] using hf
    have hf' : f = Demo.fFriend ∨ f = Demo.fPosts := by
      rcases this with rfl | rfl | rfl | rfl | h | h
      · simp [Demo.fId, Field.isRef] at hrel
      · simp [Demo.fName, Field.isRef] at hrel
      · simp [Demo.fSecret, Field.isRef] at hrel
      · simp [Demo.fTmp, Field.isRef] at hrel
      · exact .inl h
      · exact .inr h
    refine .inl ⟨?_, ?_, fun _ _ => trivial⟩
    · rcases hf' with rfl | rfl <;> simp [Demo.fFriend, Demo.fPosts, Mod.MuteL, Mod.Mute]
    · unfold w5; simp only []
      rcases hf' with rfl | rfl <;> split <;> rfl

/-- `types.str.onwrite(cb)` and `types.str.onsave(cb)` with a callback that wants text -/
def wantText : Heap → Val → Except Exc Unit := fun _ v => match v with
  | .str _ => .ok ()
  | _ => .error .typeError
def fNote : Field := { name := "note", chain := [.leaf (onWriteLeaf (fun h v _ => wantText h v))] }
def fBody : Field := { name := "body", chain := [.eager, .leaf (onSaveLeaf wantText)] }
def nse : SaveEnv := { env := { cls := fun _ => { fields := [fNote, fBody] } } }
def w6 : World := { heap := fun _ => { isNew := false, isModified := true, modFields := ["note"], attrs := fun _ => .str "t" } }

theorem ready6 : SaveReady nse.env (fun _ => False) 0 [fNote, fBody] w6 ∧ OpenField (w6.cdef nse.env 0) fNote ∧ OpenField (w6.cdef nse.env 0) fBody := by
  have h1 : OpenField (w6.cdef nse.env 0) fNote :=
    ⟨⟨fNote, rfl, rfl, rfl, by decide⟩, by intro m hm; simp [fNote] at hm; subst hm; trivial, by simp [nse, World.cdef], rfl⟩
  have h2 : OpenField (w6.cdef nse.env 0) fBody :=
    ⟨⟨fBody, rfl, rfl, rfl, by decide⟩, by intro m hm; simp [fBody] at hm; rcases hm with rfl | rfl <;> trivial, by simp [nse, World.cdef], rfl⟩
  refine ⟨⟨fun _ h => h.elim, ?_, fun _ h => h, by decide⟩, h1, h2⟩
  intro f hf
  simp at hf
  rcases hf with rfl | rfl
  · exact .inr (.inr (.inl h1))
  · exact .inr (.inr (.inl h2))

example : ∃ hp : Heap, wantText hp (.str "t") = .ok () := by
  obtain ⟨hp, _, _, _, h⟩ := onwrite_called (se := nse) (w := w6) (w' := (setOnSave nse 0 w6).2) (pre := []) (post := [fBody]) (f := fNote) (A := []) (B := [])
    (cb := fun h v _ => wantText h v) (by decide) ready6.1 rfl ready6.2.1 rfl (by intro m hm; cases hm) (.inr rfl) (.inr (by simp [w6, fNote])) rfl
  exact ⟨hp, h⟩
example : ∃ hp : Heap, SavingAt w6 (setOnSave nse 0 w6).2 0 [fNote] hp ∧ wantText hp (.str "t") = .ok () :=
  onsave_called (se := nse) (w := w6) (pre := [fNote]) (post := []) (f := fBody) (A := [.eager]) (B := [])
    (by decide) ready6.1 rfl ready6.2.2 rfl (by intro m hm; simp at hm; exact .inl hm) (.inr rfl) rfl

/-! ### Where the code does something else -/

/-- a stored, unmodified box with a changed document -/
def w3 (box : String) (o : Obj) : World := { heap := fun i => if i = 0 then
    { cls := box, isNew := false, attrs := attrsOf [("id", .str "b"), ("doc", .obj 1)] } else if i = 1 then o else {}, next := 2 }

/-- Saving a box whose document has a save-time setter marks the box as modified, although
nothing about it has changed: the setter's result was assigned to the box's field on the way. -/
theorem nested_setter_marks_outer : ((w3 "Box" doc).heap 0).isModified = false ∧
    ∃ w', setOnSave dse 0 (w3 "Box" doc) = (.ok (), w') ∧ (w'.heap 0).isModified = true ∧ (w'.heap 0).modFields = ["doc"] ∧
      (w'.heap 0).attrs "doc" = .obj 1 ∧ (w'.heap 1).attrs "stamp" = .str "s!" := ⟨rfl, _, rfl, rfl, rfl, rfl, rfl⟩

/-- If the save fails behind such a setter, the box is left with the setter's result in place
of its document. -/
theorem nested_setter_replaces_instance : ∃ w', setOnSave dse 0 (w3 "BadBox" { doc with cls := "Bad" }) = (.error .keyError, w') ∧
    (w'.heap 0).attrs "doc" = .str "s!" := ⟨_, rfl, rfl⟩

/-- a document whose title was set and set back: its update callback raises -/
def doc2 : Obj where
  cls := "Doc"
  isNew := false
  isModified := true
  modFields := ["title"]
  prev := [("title", .str "new")]
  attrs := attrsOf [("id", .str "d"), ("title", .str "new"), ("stamp", .str "s"), ("last", .str "l")]

/-- The update callback of a nested object is not called: the previous values looked up are
those of the outer object. Saving the document itself calls it. -/
theorem nested_onupdate_missed : (∃ w', setOnSave dse 0 (w3 "Box" doc2) = (.ok (), w')) ∧
    ∃ w', setOnSave dse 1 (w3 "Box" doc2) = (.error .keyError, w') := ⟨⟨_, rfl⟩, _, rfl⟩

/-- a new shelf with a document -/
def w4 : World := { heap := fun i => if i = 0 then
    { cls := "Shelf", attrs := attrsOf [("id", .str "s"), ("docs", .list [.obj 1])] } else if i = 1 then doc else {}, next := 2 }

/-- A new shelf with a list of documents that have an update callback cannot be saved. -/
theorem listed_onupdate_raises : (setOnSave dse 0 w4).1 = .error .attributeError := rfl

/-- An unmodified object: the save callback is not called. -/
theorem clean_onsave_skipped : (setOnSave dse 1 { heap := fun i => if i = 1 then { cleanDoc with cls := "Bad" } else {}, next := 2 }).1 = .ok () ∧
    (setOnSave dse 1 { heap := fun i => if i = 1 then { doc with cls := "Bad" } else {}, next := 2 }).1 = .error .keyError := ⟨rfl, rfl⟩

/-- A value set and set back counts as updated: the callback gets the same value twice. -/
theorem set_back_is_update :
    ((do setAttr denv 1 "title" (.str "x"); setAttr denv 1 "title" (.str "new"); setOnSave dse 1 : Py World Unit) w2).1 = .error .keyError := rfl

/-- A book with an author who is not loaded; the relation has a save-time setter. -/
def fAuthor : Field := { name := "author", store := .localKey, ftype := .inst, isInst := true, refName := "author_id",
                         chain := [.instOf "User" none] ++ setOnSaveMods seen }
def bse : SaveEnv := { env := { cls := fun _ => { fields := [fNote, fAuthor] } } }
def w7 : World := { heap := fun _ => { isNew := false, isModified := true, modFields := ["note"],
                                       attrs := attrsOf [("note", .str "t"), ("author_id", .str "u")] } }

theorem ready7 : SaveReady bse.env (fun _ => False) 0 (w7.cdef bse.env 0).fields w7 ∧ Unloaded w7.heap 0 fAuthor ∧
    ∀ g ∈ (w7.cdef bse.env 0).fields, g.name ≠ fAuthor.refName := by
  have h1 : OpenField (w7.cdef bse.env 0) fNote :=
    ⟨⟨fNote, rfl, rfl, rfl, by decide⟩, by intro m hm; simp [fNote] at hm; subst hm; trivial, by simp [bse, World.cdef], rfl⟩
  have h2 : Unloaded w7.heap 0 fAuthor := ⟨rfl, rfl, by simp [w7, attrsOf, dictGet, fAuthor]⟩
  have h3 : ∀ g ∈ (w7.cdef bse.env 0).fields, g.name ≠ fAuthor.refName := by
    intro g hg
    have : g = fNote ∨ g = fAuthor := by simpa [bse, World.cdef] using hg
    rcases this with rfl | rfl <;> decide
  refine ⟨⟨fun _ h => h.elim, ?_, fun _ h => h, by decide⟩, h2, h3⟩
  intro f hf
  have : f = fNote ∨ f = fAuthor := by simpa [bse, World.cdef] using hf
  rcases this with rfl | rfl
  · exact .inr (.inr (.inl h1))
  · exact .inr (.inr (.inr ⟨h2, h3⟩))

/-- The hypotheses of `unloaded_kept` are met; without the reference id the setter runs. -/
example : ∃ w', setOnSave bse 0 w7 = (.ok (), w') ∧ (w'.heap 0).attrs "author" = .none ∧ (w'.heap 0).attrs "author_id" = .str "u" :=
  ⟨_, rfl, unloaded_kept (f := fAuthor) (by decide) ready7.1 (by simp [bse, World.cdef]) ready7.2.1 ready7.2.2 rfl⟩

/-- `author: types.instanceof('User').onsave(nonnull)`, with a callback that refuses None -/
def fWriter : Field := { name := "author", store := .localKey, ftype := .inst, isInst := true, refName := "author_id",
                         chain := [.instOf "User" none, .leaf (onSaveLeaf (fun _ v => match v with | .none => .error .keyError | _ => .ok ()))] }
def wse : SaveEnv := { env := { cls := fun _ => { fields := [fNote, fWriter] } } }

theorem ready8 (o : Obj) (ho : o.attrs "author" = .none) : SaveReady wse.env (fun _ => False) 0 [fNote, fWriter] { heap := fun _ => o } := by
  refine ⟨fun _ h => h.elim, ?_, fun _ h => h, by decide⟩
  intro f hf
  have : f = fNote ∨ f = fWriter := by simpa using hf
  rcases this with rfl | rfl
  · exact .inr (.inr (.inl ⟨⟨fNote, rfl, rfl, rfl, by decide⟩, by intro m hm; simp [fNote] at hm; subst hm; trivial, by simp [wse, World.cdef], rfl⟩))
  · refine .inr (.inl ⟨⟨trivial, ?_, trivial⟩, ?_, ?_⟩)
    · intro h c r hr
      simp only [onSaveLeaf, thenVal] at hr
      split at hr
      · cases hr
      · cases hr; rfl
    · show pyEq (o.attrs "author") (o.attrs "author") = true
      rw [ho]; rfl
    · intro b hb
      change Occurs b (o.attrs "author") at hb
      rw [ho] at hb
      cases hb

/-- The hypotheses of `onsave_empty_relation` are met by an unmodified book without author: its
save does not complete, because the callback refuses None. With a reference id it does. -/
example : ∀ w', setOnSave wse 0 { heap := fun _ => { isNew := false } } ≠ (.ok (), w') := by
  intro w' h
  obtain ⟨hp, -, hc⟩ := onsave_empty_relation (pre := [fNote]) (post := []) (f := fWriter) (A := [.instOf "User" none]) (B := []) (by decide)
    (ready8 _ rfl) rfl rfl rfl rfl (by
      intro g hg
      have : g = fNote ∨ g = fWriter := by simpa [wse, World.cdef] using hg
      rcases this with rfl | rfl <;> decide) rfl (fun m hm => by
      simp only [List.mem_singleton] at hm
      exact .inr (.inl ⟨_, _, hm⟩)) h
  cases hc
example : (setOnSave wse 0 { heap := fun _ => { isNew := false, attrs := attrsOf [("author_id", .str "u")] } }).1 = .ok () := rfl

end JC.SaveModsDemo
