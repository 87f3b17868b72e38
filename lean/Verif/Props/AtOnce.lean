import Verif.Props.Repeat

/-
Creating an object from a joint input, or creating it from one part and setting the other (C91).
-/
namespace JC
variable {env : Env}

/-! ### Specification -/

/-- the pipeline leaves a missing value missing (`n` bounds the recursion) -/
def MissingStays (env : Env) (n : Nat) (f : Field) : Prop :=
  ∀ c w, SetCtx c → c.val = .none → c.original = none → (f.ops env (instOps env n)).transform c w = (.ok .none, w)

/-- a blank is filled in the same way each time: with the default, or with what the pipeline
computes from a missing value alone, or the value stays missing (objects) -/
def Steady (env : Env) (n : Nat) (f : Field) : Prop :=
  f.default.isSome = true ∨ Mod.ByValueL f.chain ∨ MissingStays env n f

/-- fields with values of their own: neither relations nor calculated -/
def OwnValue (f : Field) : Prop := f.isRef = false ∧ f.store ≠ .calculated

/-! ### What the constructor does with a plain input -/

open Classical in
/-- what a blank is filled with -/
noncomputable def blankOf (env : Env) (n : Nat) (f : Field) : Option Val :=
  match f.default with
  | some d => some d
  | none => if MissingStays env n f then some .none else madeOf env n f .none

/-- what a new object gets -/
noncomputable def newVal (env : Env) (n : Nat) (kvs : List (String × Val)) (f : Field) : Option Val :=
  if hasFieldValue f kvs && allowWrite f .none (givenValue f kvs) then madeOf env n f (givenValue f kvs) else blankOf env n f

open Classical in
/-- one field of a new object -/
noncomputable def buildStep (env : Env) (n : Nat) (kvs : List (String × Val)) (f : Field) (o : Obj) : Obj :=
  if OwnValue f then setVal f.name ((newVal env n kvs f).getD .none) o else o

theorem own_plain {cd : ClassDef} (hd : Distinct cd) {f : Field} (hf : f ∈ cd.fields) (ho : OwnValue f) : PlainField cd f.name :=
  ⟨f, hd.field hf, hd.noKey f hf, ho.1, ho.2⟩

theorem setVal_same {m : String} {v : Val} {o : Obj} (h : o.attrs m = v) : setVal m v o = o := by
  subst h
  unfold setVal
  congr 1
  funext k
  split
  · rename_i h; rw [h]
  · rfl

/-- assigning to a blank of a new object -/
theorem assign_new {i : Nat} {w : World} {f : Field} {v : Val} (hfuel : env.fuel ≠ 0) (hd : Distinct (w.cdef env i)) (hf : f ∈ (w.cdef env i).fields)
    (ho : OwnValue f) (hnew : (w.heap i).isNew = true) (hv : w.attr i f.name = .none) : setAttr env i f.name v w = (.ok (), w.upd i (setVal f.name v)) := by
  obtain ⟨g, hg, hrun⟩ := plain_set_run (v := v) hfuel (own_plain hd hf ho)
  have : g = f := Option.some.inj (hg.symm.trans (hd.field hf))
  subst this
  rw [hrun]
  congr 1
  refine upd_congr w i ?_
  have hv' : (w.heap i).attrs g.name = .none := hv
  simp only [opObj, hv']
  split
  · rename_i he
    have := pyEq_none he
    subst this
    exact (setVal_same hv').symm
  · simp [trackObj, hnew]

/-- an object that is not given stays missing -/
theorem missing_object {n : Nat} {f : Field} {cls : String} {st : Option Bool} (hf : f.chain = [.instOf cls st]) : MissingStays env (n + 1) f := by
  intro c w hc hv ho
  unfold Field.ops
  rw [hf]
  show chainTransform [instOps env (n + 1) cls st] c w = _
  cases c
  cases hv
  cases ho
  rfl

/-- filling a blank -/
theorem blank_run {n i : Nat} {w : World} {f : Field} {c : Ctx} (hfuel : env.fuel ≠ 0) (hd : Distinct (w.cdef env i)) (hf : f ∈ (w.cdef env i).fields)
    (ho : OwnValue f) (hnew : (w.heap i).isNew = true) (hv : w.attr i f.name = .none) (hs : Steady env n f) (hc : SetCtx c) (hor : c.original.isSome = true) :
    (blankOf env n f = none ∧ ∃ e, fillDefault env (Field.ops env (instOps env n)) c i f w = (.error e, w)) ∨
    (∃ d, blankOf env n f = some d ∧ fillDefault env (Field.ops env (instOps env n)) c i f w = (.ok (), w.upd i (setVal f.name d))) := by
  unfold blankOf fillDefault
  cases hdef : f.default with
  | some d => exact .inr ⟨d, rfl, assign_new hfuel hd hf ho hnew hv⟩
  | none =>
    obtain ⟨ow, how⟩ := Option.isSome_iff_exists.1 hc.1
    have hek : readW (fun w => c.ekey env w f.name) w = (.ok ((w.cdef env ow).outKey f.name), w) := by
      simp [readW, Ctx.ekey, how]
    simp only []
    rw [Py.bind_run, Py.get_run]
    simp only []
    rw [Py.bind_run, hek]
    simp only []
    rw [Py.bind_run]
    have hsc : SetCtx (c.dflt c.original f.name ((w.cdef env ow).outKey f.name) ((w.heap i).cls, f.name)) := ⟨hor, hc.2⟩
    by_cases hm : MissingStays env n f
    · simp only [if_pos hm]
      refine .inr ⟨.none, rfl, ?_⟩
      rw [hm _ w hsc rfl rfl]
      exact assign_new hfuel hd hf ho hnew hv
    · simp only [if_neg hm]
      have hby : Mod.ByValueL f.chain := by
        rcases hs with h | h | h
        · rw [hdef] at h; cases h
        · exact h
        · exact absurd h hm
      rcases made_or (env := env) (n := n) hby .none with ⟨t, ht, hmk⟩ | ⟨hn, he⟩
      · refine .inr ⟨t, ht, ?_⟩
        rw [hmk _ w hsc rfl]
        exact assign_new hfuel hd hf ho hnew hv
      · obtain ⟨e, he⟩ := he _ w hsc rfl
        exact .inl ⟨hn, e, by rw [he]⟩

/-- the value of the field is given to the constructor, which uses it -/
def Taken (f : Field) (kvs : List (String × Val)) : Prop := Given f kvs ∧ WritableNew f kvs

theorem taken_iff {f : Field} {kvs : List (String × Val)} : Taken f kvs ↔ (hasFieldValue f kvs && allowWrite f .none (givenValue f kvs)) = true := by
  rw [Bool.and_eq_true, hasFieldValue_iff]
  refine and_congr_right (fun _ => ?_)
  unfold WritableNew allowWrite
  cases f.writeRule with
  | unlimited => simp
  | noWrite => simp
  | writeOnce => simp [Val.isNone]
  | writeNonnull =>
    cases h : givenValue f kvs <;> simp [Val.isNone]

/-- one field -/
theorem new_field_run {n i : Nat} {w : World} {kvs : List (String × Val)} {f : Field} {c : Ctx} (hfuel : env.fuel ≠ 0) (hd : Distinct (w.cdef env i))
    (hp : PlainValues (w.cdef env i) kvs) (hf : f ∈ (w.cdef env i).fields) (hc : SetCtx c) (hor : c.original.isSome = true) (hb : c.cfg.fillBlanks = true)
    (hnew : (w.heap i).isNew = true) (hv : w.attr i f.name = .none) (hs : OwnValue f → Taken f kvs ∨ Steady env n f) :
    ((OwnValue f ∧ newVal env n kvs f = none) ∧ ∃ e, transformField env (Field.ops env (instOps env n)) c i false kvs f w = (.error e, w)) ∨
    ((OwnValue f → newVal env n kvs f ≠ none) ∧ transformField env (Field.ops env (instOps env n)) c i false kvs f w =
      (.ok (), w.upd i (buildStep env n kvs f))) := by
  by_cases ho : OwnValue f
  rotate_left
  · -- relations and calculated fields
    refine .inr ⟨fun h => absurd h ho, ?_⟩
    have hb' : buildStep env n kvs f = fun o => o := by funext o; simp [buildStep, ho]
    rw [hb', upd_id]
    have hg : hasFieldValue f kvs = false := by
      cases hg : hasFieldValue f kvs with
      | false => rfl
      | true =>
        obtain ⟨⟨f', hf', _, hr, hcalc⟩, _⟩ := hp.field f hf ((hasFieldValue_iff f kvs).1 hg)
        have hff : f' = f := Option.some.inj (hf'.symm.trans (hd.field hf))
        subst hff
        exact absurd ⟨hr, hcalc⟩ ho
    unfold transformField
    rw [hg]
    simp only [Bool.false_eq_true, if_false, absentField]
    split
    · split
      · rename_i hl
        have := hp.noId f hf hl
        simp only [setRefKey, getD_notin this.1, getD_notin this.2, Val.isNone, if_true]
        rfl
      · rfl
    · rename_i hr
      have hcalc : f.store = .calculated := by
        refine Classical.byContradiction (fun h => ho ⟨by simpa using hr, h⟩)
      simp [hcalc]
  · have hbs : ∀ {d}, newVal env n kvs f = some d → w.upd i (buildStep env n kvs f) = w.upd i (setVal f.name d) := by
      intro d h
      refine upd_congr w i ?_
      simp [buildStep, ho, h]
    have hblank : ¬ Taken f kvs →
        ((OwnValue f ∧ newVal env n kvs f = none) ∧ ∃ e, fillDefault env (Field.ops env (instOps env n)) c i f w = (.error e, w)) ∨
        ((OwnValue f → newVal env n kvs f ≠ none) ∧ fillDefault env (Field.ops env (instOps env n)) c i f w = (.ok (), w.upd i (buildStep env n kvs f))) := by
      intro ht
      have hst : Steady env n f := (hs ho).resolve_left ht
      have hnv : newVal env n kvs f = blankOf env n f := by
        unfold newVal
        rw [if_neg (fun h => ht (taken_iff.2 h))]
      rcases blank_run (n := n) hfuel hd hf ho hnew hv hst hc hor with ⟨h1, h2⟩ | ⟨d, h1, h2⟩
      · exact .inl ⟨⟨ho, hnv.trans h1⟩, h2⟩
      · exact .inr ⟨fun _ => by rw [hnv, h1]; simp, by rw [hbs (hnv.trans h1)]; exact h2⟩
    have hcs : decide (f.store ≠ .calculated) = true := by simp [ho.2]
    cases hg : hasFieldValue f kvs with
    | false =>
      have ht : ¬ Taken f kvs := fun h => by have := (hasFieldValue_iff f kvs).2 h.1; rw [hg] at this; cases this
      unfold transformField
      simp only [hg, Bool.false_eq_true, if_false, absentField, ho.1, hb, Bool.not_false, Bool.true_and, hcs, if_true]
      exact hblank ht
    | true =>
      obtain ⟨_, hby⟩ := hp.field f hf ((hasFieldValue_iff f kvs).1 hg)
      have hcur : w.getattr env i f.name = .ok .none := by
        unfold World.getattr
        rw [hd.field hf]
        simp [ho.2, hv]
      have hread : readW (fun w => if f.writeRule = .writeOnce then w.getattr env i f.name else .ok .none) w = (.ok .none, w) := by
        unfold readW
        split
        · show (World.getattr env w i f.name, w) = _
          rw [hcur]
        · rfl
      unfold transformField
      simp only [hg, if_true, presentField]
      rw [Py.bind_run, hread]
      simp only []
      rw [getFieldValue_eq]
      cases hw : allowWrite f .none (givenValue f kvs) with
      | false =>
        have ht : ¬ Taken f kvs := fun h => by have := taken_iff.1 h; rw [hw] at this; simp at this
        simp only [Bool.false_eq_true, if_false, hb, Bool.true_and, hcs, if_true]
        exact hblank ht
      | true =>
        have hnv : newVal env n kvs f = madeOf env n f (givenValue f kvs) := by simp [newVal, hg, hw]
        simp only [if_true]
        obtain ⟨ow, how⟩ := Option.isSome_iff_exists.1 hc.1
        have hek : readW (fun w => c.ekey env w f.name) w = (.ok ((w.cdef env ow).outKey f.name), w) := by
          simp [readW, Ctx.ekey, how]
        rw [Py.bind_run, Py.get_run]
        simp only []
        rw [Py.bind_run, hek]
        simp only []
        rw [Py.bind_run]
        have hsc : SetCtx (c.nextvo (givenValue f kvs) f.name ((w.cdef env ow).outKey f.name) ((w.heap i).cls, f.name) i) := ⟨rfl, hc.2⟩
        rcases made_or (env := env) (n := n) hby (givenValue f kvs) with ⟨t, ht, hm⟩ | ⟨hn, he⟩
        · refine .inr ⟨fun _ => by rw [hnv, ht]; simp, ?_⟩
          rw [hm _ w hsc rfl]
          simp only [pyWhen, hcs, if_true]
          rw [hbs (hnv.trans ht)]
          exact assign_new hfuel hd hf ho hnew hv
        · obtain ⟨e, he⟩ := he _ w hsc rfl
          exact .inl ⟨⟨ho, hnv.trans hn⟩, e, by rw [he]⟩

theorem buildStep_other {n : Nat} {kvs : List (String × Val)} {f : Field} {o : Obj} {m : String} (h : OwnValue f → m ≠ f.name) :
    (buildStep env n kvs f o).attrs m = o.attrs m := by
  unfold buildStep
  split
  · rename_i ho; simp [setVal, h ho]
  · rfl

/-- what a step does to anything but values -/
theorem buildStep_rest (n : Nat) (kvs : List (String × Val)) (f : Field) (o : Obj) : { buildStep env n kvs f o with attrs := o.attrs } = o := by
  unfold buildStep
  split <;> rfl

theorem buildStep_cls (n : Nat) (kvs : List (String × Val)) (f : Field) (o : Obj) : (buildStep env n kvs f o).cls = o.cls := by
  unfold buildStep; split <;> rfl
theorem buildStep_new (n : Nat) (kvs : List (String × Val)) (f : Field) (o : Obj) : (buildStep env n kvs f o).isNew = o.isNew := by
  unfold buildStep; split <;> rfl

/-- the loop over the fields, for distinct fields -/
theorem new_fields_run {n i : Nat} {kvs : List (String × Val)} {c : Ctx} (hfuel : env.fuel ≠ 0) (hc : SetCtx c) (hor : c.original.isSome = true)
    (hb : c.cfg.fillBlanks = true) (fs : List Field) :
    ∀ {w : World}, Distinct (w.cdef env i) → PlainValues (w.cdef env i) kvs → (∀ f ∈ fs, f ∈ (w.cdef env i).fields) → (fs.map Field.name).Nodup →
    (w.heap i).isNew = true → (∀ f ∈ fs, w.attr i f.name = .none) → (∀ f ∈ fs, OwnValue f → Taken f kvs ∨ Steady env n f) →
    ((∃ f ∈ fs, OwnValue f ∧ newVal env n kvs f = none) ∧ ∃ e w', transformFields env (Field.ops env (instOps env n)) c i false kvs fs w = (.error e, w')) ∨
    ((∀ f ∈ fs, OwnValue f → newVal env n kvs f ≠ none) ∧ transformFields env (Field.ops env (instOps env n)) c i false kvs fs w =
      (.ok (), w.upd i (fun o => fs.foldl (fun o f => buildStep env n kvs f o) o))) := by
  induction fs with
  | nil => intro w _ _ _ _ _ _ _; exact .inr ⟨by simp, by simp only [transformFields, List.foldl_nil, upd_id]; rfl⟩
  | cons f fs ih =>
    intro w hd hp hs hn hnew hv hst
    rw [List.map_cons, List.nodup_cons] at hn
    simp only [transformFields]
    rcases new_field_run (n := n) hfuel hd hp (hs f (by simp)) hc hor hb hnew (hv f (by simp)) (hst f (by simp)) with ⟨hR, e, he⟩ | ⟨hR, he⟩
    · exact .inl ⟨⟨f, by simp, hR⟩, e, w, by rw [Py.bind_run, he]⟩
    · have hcd : (w.upd i (buildStep env n kvs f)).cdef env i = w.cdef env i := cdef_upd (buildStep_cls _ _ _ _)
      rw [Py.bind_run, he]
      simp only []
      rcases ih (w := w.upd i (buildStep env n kvs f)) (by rw [hcd]; exact hd) (by rw [hcd]; exact hp)
        (fun g hg => by rw [hcd]; exact hs g (by simp [hg])) hn.2 (by rw [upd_heap_self, buildStep_new]; exact hnew)
        (fun g hg => by
          unfold World.attr
          rw [upd_heap_self, buildStep_other (fun _ he => hn.1 (by rw [← he]; exact List.mem_map_of_mem hg))]
          exact hv g (by simp [hg]))
        (fun g hg => hst g (by simp [hg])) with ⟨⟨g, hg, hR'⟩, e, w', hr⟩ | ⟨hR', hr⟩
      · exact .inl ⟨⟨g, by simp [hg], hR'⟩, e, w', hr⟩
      · refine .inr ⟨fun g hg => ?_, ?_⟩
        · rcases List.mem_cons.1 hg with rfl | hg
          · exact hR
          · exact hR' g hg
        · rw [hr, upd_upd]
          rfl

/-- the new object -/
noncomputable def builtObj (env : Env) (n : Nat) (cd : ClassDef) (kvs : List (String × Val)) (o : Obj) : Obj :=
  (fillList cd kvs).foldl (fun o f => fillObj cd f o) (cd.fields.foldl (fun o f => buildStep env n kvs f o) o)

theorem builtObj_cls (n : Nat) (cd : ClassDef) (kvs : List (String × Val)) (o : Obj) : (builtObj env n cd kvs o).cls = o.cls := by
  unfold builtObj
  rw [fold_cls _ (fill_cls cd), fold_cls _ (fun f o => buildStep_cls n kvs f o)]

/-- the world with a blank object, and with the new object -/
def blankWorld (env : Env) (cls : String) (w : World) : World := (alloc env cls w).2
noncomputable def builtWorld (env : Env) (n : Nat) (cls : String) (kvs : List (String × Val)) (w : World) : World :=
  (blankWorld env cls w).upd w.next (builtObj env n (env.cls cls) kvs)

/-- the constructor takes the input -/
def AcceptsNew (env : Env) (n : Nat) (cls : String) (kvs : List (String × Val)) : Prop :=
  (env.cls cls).isAbstract = false ∧ KeysKnown (env.cls cls) kvs ∧ ∀ f ∈ (env.cls cls).fields, OwnValue f → newVal env n kvs f ≠ none

theorem new_run {n : Nat} {cls : String} {w : World} {kvs : List (String × Val)} (hfuel : 2 ≤ env.fuel) (hd : Distinct (env.cls cls)) (hp : PlainValues (env.cls cls) kvs)
    (hst : ∀ f ∈ (env.cls cls).fields, OwnValue f → Taken f kvs ∨ Steady env n f) :
    (AcceptsNew env n cls kvs ∧ apiNew env (n + 1) cls kvs w = (.ok w.next, (graphPutSelf env w.next (builtWorld env n cls kvs w)).2)) ∨
    (¬ AcceptsNew env n cls kvs ∧ ∃ e w', apiNew env (n + 1) cls kvs w = (.error e, w')) := by
  unfold apiNew newObj
  cases hab : (env.cls cls).isAbstract with
  | true => exact .inr ⟨fun h => (by have := h.1; rw [hab] at this; cases this), _, _, rfl⟩
  | false =>
    simp only [Bool.false_eq_true, if_false]
    have hal : alloc env cls w = (.ok w.next, blankWorld env cls w) := rfl
    rw [Py.bind_run, hal]
    simp only []
    rw [Py.bind_run]
    generalize hw0 : blankWorld env cls w = w0
    have hcls : (w0.heap w.next).cls = cls := by subst hw0; simp [blankWorld, alloc, freshObj]
    have hcd0 : w0.cdef env w.next = env.cls cls := by unfold World.cdef; rw [hcls]
    have hnew : (w0.heap w.next).isNew = true := by subst hw0; simp [blankWorld, alloc, freshObj]
    have hblank : ∀ f ∈ (env.cls cls).fields, w0.attr w.next f.name = .none := by
      intro f hf
      subst hw0
      simp [blankWorld, alloc, freshObj, World.attr, hd.noKey f hf]
    let i := w.next
    let ms := if (inputPk env cls kvs).isNone then [] else (({ w0 with marks := [] } : World).markPutp env (inputPk env cls kvs) i).marks
    let wm : World := { w0 with marks := ms }
    have hmark : pyWhen (!(inputPk env cls kvs).isNone) (Py.modify (fun w' => w'.markPutp env (inputPk env cls kvs) i)) { w0 with marks := [] } = (.ok (), wm) := by
      unfold pyWhen
      by_cases h : (inputPk env cls kvs).isNone = true
      · simp only [h, Bool.not_true, Bool.false_eq_true, if_false, wm, ms, if_true]
        rfl
      · simp only [h, Bool.not_false, if_true, wm, ms, Py.modify_run]
        rfl
    let c := rootCtx w0 i { fillBlanks := true, allFields := some false } (.dict kvs)
    have hc : SetCtx c := ⟨rfl, rfl⟩
    have hrun : setDict (instOps env (n + 1)) i kvs true w0 = match applyDict env (Field.ops env (instOps env n)) cls none c i false kvs wm with
        | (.ok _, w') => (.ok (), { w' with marks := w0.marks })
        | (.error e, w') => (.error e, { w' with marks := w0.marks }) := by
      unfold setDict
      rw [Py.bind_run, Py.get_run]
      simp only []
      rw [Py.bind_run, hcls]
      unfold withFreshMarks
      rw [root_transform, Py.bind_run, hmark]
      simp only []
      rw [Py.bind_run]
      rcases applyDict env (Field.ops env (instOps env n)) cls none c i false kvs wm with ⟨e | u, w'⟩ <;> rfl
    show _ ∨ _
    rw [show setDict (instOps env (n + 1)) w.next kvs true w0 = _ from hrun]
    unfold applyDict
    rw [Py.bind_run, Py.get_run]
    simp only [Option.getD_none]
    have hcd : wm.cdef env i = env.cls cls := hcd0
    rw [hcd, Py.bind_run]
    by_cases hs : (env.cls cls).strictInput = true ∧ ¬ ∀ k ∈ kvs.map Prod.fst, k ∈ (env.cls cls).availableNames
    · right
      rcases strict_run c (env.cls cls).availableNames kvs with ⟨h1, _⟩ | ⟨_, e, he⟩
      · exact absurd h1 hs.2
      refine ⟨fun h => hs.2 (h.2.1 hs.1), e, { wm with marks := w0.marks }, ?_⟩
      simp only [pyWhen, hs.1, if_true, readW, he]
    · have hk : KeysKnown (env.cls cls) kvs := by
        intro h
        exact Classical.byContradiction (fun h' => hs ⟨h, h'⟩)
      have hpw : pyWhen (env.cls cls).strictInput (readW (fun _ => strictCheck c (env.cls cls).availableNames kvs)) wm = (.ok (), wm) := by
        unfold pyWhen
        split
        · rename_i h
          rcases strict_run c (env.cls cls).availableNames kvs with ⟨_, h1⟩ | ⟨h1, _⟩
          · simp only [readW, h1]
          · exact absurd (hk h) h1
        · rfl
      rw [hpw]
      simp only []
      rw [Py.bind_run]
      rcases new_fields_run (n := n) (i := i) (w := wm) (c := c) (kvs := kvs) (by omega) hc rfl rfl (env.cls cls).fields (by rw [hcd]; exact hd) (by rw [hcd]; exact hp)
          (fun f hf => by rw [hcd]; exact hf) hd.names hnew hblank hst with ⟨⟨f, hf, ho, hR⟩, e, w', hr⟩ | ⟨hR, hr⟩
      · right
        refine ⟨fun h => h.2.2 f hf ho hR, e, { w' with marks := w0.marks }, ?_⟩
        rw [hr]
      · left
        refine ⟨⟨hab, hk, hR⟩, ?_⟩
        rw [hr]
        simp only []
        have hcd2 : (wm.upd i (fun o => (env.cls cls).fields.foldl (fun o f => buildStep env n kvs f o) o)).cdef env i = env.cls cls :=
          (cdef_upd (fold_cls _ (fun f o => buildStep_cls n kvs f o) _ _)).trans hcd
        have hfl : nonnullRefLists kvs (env.cls cls).fields = (fillList (env.cls cls) kvs).map Field.name := rfl
        rw [hfl, fills_run hfuel _ (by rw [hcd2]; exact hd) (by
          intro f hf
          rw [hcd2]
          have := List.mem_filter.1 hf
          simp only [Bool.and_eq_true, decide_eq_true_eq] at this
          exact ⟨this.1, this.2.1.1.2, this.2.1.2⟩), hcd2, upd_upd]
        unfold builtWorld
        rw [hw0]
        rfl

/-! ### Comparing the two objects -/

/-- the same but for the values of fields with own values -/
structure SameOutside (cd : ClassDef) (o o' : Obj) : Prop where
  vals : ∀ m, (∀ f ∈ cd.fields, OwnValue f → m ≠ f.name) → o.attrs m = o'.attrs m
  rest : { o with attrs := fun _ => .none } = { o' with attrs := fun _ => .none }

theorem SameOutside.refl (cd : ClassDef) (o : Obj) : SameOutside cd o o := ⟨fun _ _ => rfl, rfl⟩
theorem SameOutside.trans {cd : ClassDef} {a b c : Obj} (h : SameOutside cd a b) (h' : SameOutside cd b c) : SameOutside cd a c :=
  ⟨fun m hm => (h.vals m hm).trans (h'.vals m hm), h.rest.trans h'.rest⟩
theorem SameOutside.symm {cd : ClassDef} {a b : Obj} (h : SameOutside cd a b) : SameOutside cd b a :=
  ⟨fun m hm => (h.vals m hm).symm, h.rest.symm⟩
theorem SameOutside.isNew {cd : ClassDef} {a b : Obj} (h : SameOutside cd a b) : a.isNew = b.isNew := by
  have := h.rest
  simp only [Obj.mk.injEq] at this
  exact this.2.2.1
theorem SameOutside.cls {cd : ClassDef} {a b : Obj} (h : SameOutside cd a b) : a.cls = b.cls := by
  have := h.rest
  simp only [Obj.mk.injEq] at this
  exact this.1
theorem SameOutside.graph {cd : ClassDef} {a b : Obj} (h : SameOutside cd a b) : a.graph = b.graph := by
  have := h.rest
  simp only [Obj.mk.injEq] at this
  exact this.2.2.2.2.2.2.2.2.2.1

theorem outside_setVal {cd : ClassDef} {f : Field} (hf : f ∈ cd.fields) (ho : OwnValue f) (v : Val) (o : Obj) : SameOutside cd (setVal f.name v o) o :=
  ⟨fun m hm => by simp [setVal, hm f hf ho], rfl⟩

theorem outside_build {cd : ClassDef} {f : Field} (hf : f ∈ cd.fields) (n : Nat) (kvs : List (String × Val)) (o : Obj) : SameOutside cd (buildStep env n kvs f o) o := by
  unfold buildStep
  split
  · rename_i ho; exact outside_setVal hf ho _ o
  · exact .refl cd o

theorem outside_step {cd : ClassDef} (hd : Distinct cd) {kvs : List (String × Val)} (hp : PlainValues cd kvs) {f : Field} (hf : f ∈ cd.fields) (n : Nat) {o : Obj} (hn : o.isNew = true) :
    SameOutside cd (stepObj env n cd kvs f o) o := by
  unfold stepObj
  split
  · rename_i hw
    have hg : hasFieldValue f kvs = true := by
      unfold writes at hw
      exact (Bool.and_eq_true _ _ ▸ hw).1
    obtain ⟨⟨f', hf', _, hr, hc⟩, _⟩ := hp.field f hf ((hasFieldValue_iff f kvs).1 hg)
    have hff : f' = f := Option.some.inj (hf'.symm.trans (hd.field hf))
    subst hff
    simp only [opObj]
    split
    · exact .refl cd o
    · rw [show trackObj cd f' o = o by simp [trackObj, hn]]
      exact outside_setVal hf ⟨hr, hc⟩ _ o
  · exact .refl cd o

theorem outside_fold {cd : ClassDef} {g : Field → Obj → Obj} (h : ∀ f ∈ cd.fields, ∀ o : Obj, o.isNew = true → SameOutside cd (g f o) o) (fs : List Field) (hs : ∀ f ∈ fs, f ∈ cd.fields) :
    ∀ {o : Obj}, o.isNew = true → SameOutside cd (fs.foldl (fun o f => g f o) o) o := by
  induction fs with
  | nil => exact fun _ => .refl cd _
  | cons f fs ih =>
    intro o hn
    have h1 := h f (hs f (by simp)) o hn
    exact (ih (fun g hg => hs g (by simp [hg])) (o := g f o) (h1.isNew.trans hn)).trans h1

theorem ref_outside {cd : ClassDef} (hd : Distinct cd) {f : Field} (hf : f ∈ cd.fields) (hr : f.isRef = true) : ∀ g ∈ cd.fields, OwnValue g → f.name ≠ g.name := by
  intro g hg ho he
  rw [same_name hd hf hg he, ho.1] at hr
  cases hr

theorem fill_outside {cd : ClassDef} (hd : Distinct cd) {f : Field} (hf : f ∈ cd.fields) (hr : f.isRef = true) {o o' : Obj} (hn : o.isNew = true)
    (h : SameOutside cd o o') : SameOutside cd (fillObj cd f o) (fillObj cd f o') := by
  have hn' : o'.isNew = true := h.isNew.symm.trans hn
  have ha := h.vals f.name (ref_outside hd hf hr)
  unfold fillObj
  rw [ha, show trackObj cd f o = o by simp [trackObj, hn], show trackObj cd f o' = o' by simp [trackObj, hn']]
  split
  · have hset : ∀ (m : String) (v : Val) {p p' : Obj}, SameOutside cd p p' → SameOutside cd (setVal m v p) (setVal m v p') :=
      fun m v p p' hp => ⟨fun k hk => by
        simp only [setVal]
        split
        · rfl
        · exact hp.vals k hk, hp.rest⟩
    unfold applyIf
    split
    · exact hset _ _ (hset _ _ h)
    · exact hset _ _ h
  · exact h

theorem fill_new {cd : ClassDef} {f : Field} {o : Obj} : (fillObj cd f o).isNew = o.isNew := by
  unfold fillObj applyIf
  split
  · split <;> simp [setVal, (trackObj_facts cd f o).2.2]
  · rfl

theorem fills_outside {cd : ClassDef} (hd : Distinct cd) (fs : List Field) (hs : ∀ f ∈ fs, f ∈ cd.fields ∧ f.isRef = true) : ∀ {o o' : Obj}, o.isNew = true →
    SameOutside cd o o' → SameOutside cd (fs.foldl (fun o f => fillObj cd f o) o) (fs.foldl (fun o f => fillObj cd f o) o') := by
  induction fs with
  | nil => exact fun _ h => h
  | cons f fs ih =>
    intro o o' hn h
    exact ih (fun g hg => hs g (by simp [hg])) (fill_new.trans hn) (fill_outside hd (hs f (by simp)).1 (hs f (by simp)).2 hn h)

/-- filling lists leaves own values alone -/
theorem fills_own {cd : ClassDef} (hd : Distinct cd) (fs : List Field) (hs : ∀ f ∈ fs, f ∈ cd.fields ∧ f.isRef = true) {f : Field} (hf : f ∈ cd.fields) (ho : OwnValue f) (o : Obj) :
    (fs.foldl (fun o f => fillObj cd f o) o).attrs f.name = o.attrs f.name := by
  rw [foldl_map_act cd fStep _ (fStep_act cd)]
  refine acts_attr _ ?_
  intro s hs'
  obtain ⟨g, hg, rfl⟩ := List.mem_map.1 hs'
  obtain ⟨hg, hgr⟩ := hs g hg
  exact .inl ⟨fun he => ref_outside hd hg hgr f hf ho he.symm, fun k hk => Ne.symm (key_ne hd hg hf hk)⟩

theorem build_fold_attr {n : Nat} {kvs : List (String × Val)} (fs : List Field) : ∀ (o : Obj), (fs.map Field.name).Nodup → ∀ f ∈ fs, OwnValue f →
    (fs.foldl (fun o f => buildStep env n kvs f o) o).attrs f.name = (newVal env n kvs f).getD .none := by
  have keep : ∀ (fs : List Field) (o : Obj) (m : String), m ∉ fs.map Field.name → (fs.foldl (fun o f => buildStep env n kvs f o) o).attrs m = o.attrs m := by
    intro fs
    induction fs with
    | nil => exact fun _ _ _ => rfl
    | cons f fs ih =>
      intro o m hm
      simp only [List.map_cons, List.mem_cons, not_or] at hm
      rw [List.foldl_cons, ih _ _ hm.2, buildStep_other (fun _ => hm.1)]
  induction fs with
  | nil => intro o _ f hf; cases hf
  | cons g fs ih =>
    intro o hn f hf ho
    rw [List.map_cons, List.nodup_cons] at hn
    rw [List.foldl_cons]
    rcases List.mem_cons.1 hf with rfl | hf
    · rw [keep _ _ _ hn.1]
      simp [buildStep, ho, setVal]
    · exact ih _ hn.2 f hf ho

theorem fillList_ref {cd : ClassDef} {kvs : List (String × Val)} : ∀ f ∈ fillList cd kvs, f ∈ cd.fields ∧ f.isRef = true := fun _ h => fillList_mem h

theorem built_own {n : Nat} {cd : ClassDef} {kvs : List (String × Val)} (hd : Distinct cd) {f : Field} (hf : f ∈ cd.fields) (ho : OwnValue f) (o : Obj) :
    (builtObj env n cd kvs o).attrs f.name = (newVal env n kvs f).getD .none := by
  unfold builtObj
  rw [fills_own hd _ fillList_ref hf ho, build_fold_attr _ _ hd.names f hf ho]

/-- what the inputs do not mention does not depend on them -/
theorem built_outside {n : Nat} {cd : ClassDef} {a b : List (String × Val)} (hd : Distinct cd) (ha : PlainValues cd a) (hb : PlainValues cd b) {o : Obj} (hn : o.isNew = true) :
    SameOutside cd (builtObj env n cd a o) (builtObj env n cd b o) := by
  have hfold : ∀ kvs, SameOutside cd (cd.fields.foldl (fun o f => buildStep env n kvs f o) o) o :=
    fun kvs => outside_fold (g := fun f o => buildStep env n kvs f o) (fun f hf o _ => outside_build hf n kvs o) cd.fields (fun _ h => h) hn
  unfold builtObj
  rw [fillList_eq hd ha, fillList_eq hd hb]
  exact fills_outside hd _ fillList_ref ((hfold a).isNew.trans hn) ((hfold a).trans (hfold b).symm)

theorem built_new {n : Nat} {cd : ClassDef} {kvs : List (String × Val)} {o : Obj} (hn : o.isNew = true) : (builtObj env n cd kvs o).isNew = true := by
  have hf : ∀ (fs : List Field) (o : Obj), o.isNew = true → (fs.foldl (fun o f => fillObj cd f o) o).isNew = true := by
    intro fs
    induction fs with
    | nil => exact fun _ h => h
    | cons f fs ih => exact fun o h => ih _ (fill_new.trans h)
  exact hf _ _ ((outside_fold (cd := cd) (g := fun f o => buildStep env n kvs f o) (fun f hf o _ => outside_build hf n kvs o) cd.fields (fun _ h => h) hn).isNew.trans hn)

/-- a `set` on the new object changes own values only -/
theorem set_outside {n : Nat} {cd : ClassDef} {a b : List (String × Val)} (hd : Distinct cd) (ha : PlainValues cd a) (hb : PlainValues cd b) {o : Obj} (hn : o.isNew = true) :
    SameOutside cd (setObj env n cd b (builtObj env n cd a o)) (builtObj env n cd a o) := by
  have hs := outside_fold (cd := cd) (g := fun f o => stepObj env n cd b f o) (fun f hf o hn => outside_step hd hb hf n hn) cd.fields (fun _ h => h)
    (o := builtObj env n cd a o) (built_new hn)
  unfold setObj
  have hidle : (fillList cd b).foldl (fun o f => fillObj cd f o) (cd.fields.foldl (fun o f => stepObj env n cd b f o) (builtObj env n cd a o)) =
      cd.fields.foldl (fun o f => stepObj env n cd b f o) (builtObj env n cd a o) := by
    rw [foldl_map_act cd fStep _ (fStep_act cd)]
    refine fills_idle _ (fun f hf => ?_)
    obtain ⟨hf', hr⟩ := fillList_mem hf
    rw [hs.vals f.name (ref_outside hd hf' hr)]
    unfold builtObj
    rw [foldl_map_act cd fStep _ (fStep_act cd)]
    exact fills_fill _ _ f (by rw [fillList_eq hd ha, ← fillList_eq hd hb]; exact hf)
  rw [hidle]
  exact hs

/-! ### C91 -/

theorem newVal_left {n : Nat} {f : Field} {a b : List (String × Val)} (h : ¬ Given f b) : newVal env n (a ++ b) f = newVal env n a f := by
  have h1 : dictGet b f.jsonName = none := dictGet_none_iff.2 (fun h' => h (.inl h'))
  have h2 : dictGet b f.name = none := dictGet_none_iff.2 (fun h' => h (.inr h'))
  unfold newVal hasFieldValue givenValue
  simp only [dictGet_append, h1, h2, Option.or_none]

theorem newVal_right {n : Nat} {f : Field} {a b : List (String × Val)} (h : ¬ Given f a) : newVal env n (a ++ b) f = newVal env n b f := by
  have h1 : dictGet a f.jsonName = none := dictGet_none_iff.2 (fun h' => h (.inl h'))
  have h2 : dictGet a f.name = none := dictGet_none_iff.2 (fun h' => h (.inr h'))
  unfold newVal hasFieldValue givenValue
  simp only [dictGet_append, h1, h2, Option.none_or]

theorem taken_left {f : Field} {a b : List (String × Val)} (h : ¬ Given f b) : Taken f (a ++ b) ↔ Taken f a := by
  have h1 : dictGet b f.jsonName = none := dictGet_none_iff.2 (fun h' => h (.inl h'))
  have h2 : dictGet b f.name = none := dictGet_none_iff.2 (fun h' => h (.inr h'))
  rw [taken_iff, taken_iff]
  unfold hasFieldValue givenValue
  simp only [dictGet_append, h1, h2, Option.or_none]

theorem newVal_blank {n : Nat} {f : Field} {a : List (String × Val)} (h : ¬ Given f a) : newVal env n a f = blankOf env n f := by
  simp [newVal, not_given h]

/-- a field of the second input: refused by both or taken by both, with the same value up to `==` -/
theorem second_field {n : Nat} {cd : ClassDef} {b : List (String × Val)} {f : Field} {o : Obj} {d : Val} (hg : Given f b)
    (hbl : blankOf env n f = some d) (hd : o.attrs f.name = d) (honce : f.writeRule = .writeOnce → d = .none) :
    (Refused env n b f o ↔ newVal env n b f = none) ∧ (newVal env n b f ≠ none → 
      (newVal env n b f).getD .none = (stepObj env n cd b f o).attrs f.name ∨
      ((stepObj env n cd b f o).attrs f.name = d ∧ pyEq ((newVal env n b f).getD .none) d = true)) := by
  have hh := (hasFieldValue_iff f b).2 hg
  have hal : allowWrite f d (givenValue f b) = allowWrite f .none (givenValue f b) := by
    unfold allowWrite
    cases hwr : f.writeRule with
    | writeOnce => rw [honce hwr]
    | _ => rfl
  have hw : writes b f o = allowWrite f .none (givenValue f b) := by simp [writes, hh, hd, hal]
  unfold Refused stepObj newVal
  simp only [hw, hh, Bool.true_and]
  cases allowWrite f .none (givenValue f b) with
  | false => simp [hbl, hd]
  | true =>
    simp only [true_and, if_true]
    intro hne
    simp only [opObj, hd]
    split
    · rename_i he; exact .inr ⟨hd, he⟩
    · simp [setVal]

/-- the worlds `w₂` (built from one input, then set with the other) and `w'` (built from both at
once) are the same, but that a value given to `set` that equals (`==`) the one present was not
assigned: `1` stays `1` if `True` or `1.0` is given -/
def BuiltAlike (cd : ClassDef) (b : List (String × Val)) (i : Nat) (w₁ w₂ w' : World) : Prop :=
  (∀ m, w'.attr i m = w₂.attr i m ∨ ((∃ f ∈ cd.fields, f.name = m ∧ Given f b) ∧ w₂.attr i m = w₁.attr i m ∧ pyEq (w'.attr i m) (w₂.attr i m) = true)) ∧
  w' = w₂.upd i (fun o => { o with attrs := (w'.heap i).attrs })

/-- **C91**: an object can be created at once or step by step. If the constructor completes with
the input `a`, then `set` with the input `b` (about other fields) completes exactly if the
constructor with both inputs does, and the results are the same: the same values up to `==`, the
same flags and records, the same registrations, the same other objects. Fields that are written
only once must have been blank; the primary key is not in `b`. -/
theorem new_then_set {n i : Nat} {cls : String} {w w₁ : World} {a b : List (String × Val)} (hfuel : 2 ≤ env.fuel) (hd : Distinct (env.cls cls))
    (ha : PlainValues (env.cls cls) a) (hb : PlainValues (env.cls cls) b) (hs : ∀ f ∈ (env.cls cls).fields, ¬ (Given f a ∧ Given f b))
    (hst : ∀ f ∈ (env.cls cls).fields, OwnValue f → Taken f a ∨ Steady env n f)
    (hpk : ∀ f ∈ (env.cls cls).fields, (env.cls cls).primary = some f.name → ¬ Given f b)
    (h : apiNew env (n + 1) cls a w = (.ok i, w₁))
    (honce : ∀ f ∈ (env.cls cls).fields, Given f b → f.writeRule = .writeOnce → w₁.attr i f.name = .none) :
    (∃ w₂ w', apiSet env (n + 1) i b w₁ = (.ok (), w₂) ∧ apiNew env (n + 1) cls (a ++ b) w = (.ok i, w') ∧ BuiltAlike (env.cls cls) b i w₁ w₂ w') ∨
    ((∃ e w₂, apiSet env (n + 1) i b w₁ = (.error e, w₂)) ∧ ∃ e w', apiNew env (n + 1) cls (a ++ b) w = (.error e, w')) := by
  have hab := plainValues_append ha hb
  have hkeys : KeysKnown (env.cls cls) (a ++ b) ↔ KeysKnown (env.cls cls) a ∧ KeysKnown (env.cls cls) b := by
    unfold KeysKnown
    simp only [List.map_append, List.mem_append]
    exact ⟨fun h => ⟨fun hs k hk => h hs k (.inl hk), fun hs k hk => h hs k (.inr hk)⟩, fun h hs k hk => hk.elim (h.1 hs k) (h.2 hs k)⟩
  have hst' : ∀ f ∈ (env.cls cls).fields, OwnValue f → Taken f (a ++ b) ∨ Steady env n f := by
    intro f hf ho
    rcases hst f hf ho with ht | ht
    · exact .inl ((taken_left (fun hg => hs f hf ⟨ht.1, hg⟩)).2 ht)
    · exact .inr ht
  rcases new_run (n := n) (w := w) hfuel hd ha hst with ⟨⟨hA, hK, hV⟩, hrun⟩ | ⟨_, e, w', hrun⟩
  rotate_left
  · rw [hrun] at h; cases h
  rw [h] at hrun
  cases hrun
  -- the fresh object
  generalize hw0 : blankWorld env cls w = w0
  have hnew0 : (w0.heap w.next).isNew = true := by subst hw0; simp [blankWorld, alloc, freshObj]
  have hcls0 : (w0.heap w.next).cls = cls := by subst hw0; simp [blankWorld, alloc, freshObj]
  -- registering does not touch objects
  have hput : ∀ W : World, (graphPutSelf env w.next W).2 = { W with graphs := (graphPutSelf env w.next W).2.graphs } := by
    intro W
    simp only [graphPutSelf, Py.modify_run]
    split <;> rfl
  have hheap : ∀ W : World, (graphPutSelf env w.next W).2.heap = W.heap := fun W => by rw [hput W]
  generalize hw1 : (graphPutSelf env w.next (builtWorld env n cls a w)).2 = w₁ at h honce ⊢
  have hobj : w₁.heap w.next = builtObj env n (env.cls cls) a (w0.heap w.next) := by
    rw [← hw1, hheap]
    unfold builtWorld
    rw [upd_heap_self, hw0]
  have hnew1 : (w₁.heap w.next).isNew = true := by rw [hobj]; exact built_new hnew0
  have hcd : w₁.cdef env w.next = env.cls cls := by
    unfold World.cdef
    rw [hobj, builtObj_cls, hcls0]
  -- the fields of the second input
  have hfield : ∀ f ∈ (env.cls cls).fields, Given f b → OwnValue f ∧ ∃ d, blankOf env n f = some d ∧ (w₁.heap w.next).attrs f.name = d ∧ (f.writeRule = .writeOnce → d = .none) := by
    intro f hf hg
    obtain ⟨⟨f', hf', _, hr, hc⟩, _⟩ := hb.field f hf hg
    have hff : f' = f := Option.some.inj (hf'.symm.trans (hd.field hf))
    subst hff
    have ho : OwnValue f' := ⟨hr, hc⟩
    have hna : ¬ Given f' a := fun h' => hs f' hf ⟨h', hg⟩
    have hnv := hV f' hf ho
    rw [newVal_blank hna] at hnv
    obtain ⟨d, hdd⟩ := Option.ne_none_iff_exists'.1 hnv
    have hat : (w₁.heap w.next).attrs f'.name = d := by
      rw [hobj, built_own hd hf ho, newVal_blank hna, hdd]
      rfl
    exact ⟨ho, d, hdd, hat, fun hw => hat.symm.trans (honce f' hf hg hw)⟩
  have hidle : ∀ {f : Field} {o : Obj}, ¬ Given f b → ¬ Refused env n b f o := by
    intro f o h hR
    have := hR.1
    simp [writes, not_given h] at this
  have hiff : AcceptsNew env n cls (a ++ b) ↔ (KeysKnown (env.cls cls) b ∧ ∀ f ∈ (env.cls cls).fields, ¬ Refused env n b f (w₁.heap w.next)) := by
    unfold AcceptsNew
    rw [hkeys]
    constructor
    · rintro ⟨_, ⟨_, h2⟩, h3⟩
      refine ⟨h2, fun f hf => ?_⟩
      by_cases hg : Given f b
      · obtain ⟨ho, d, h4, h5, h6⟩ := hfield f hf hg
        rw [(second_field (n := n) (cd := env.cls cls) hg h4 h5 h6).1, ← newVal_right (fun h' => hs f hf ⟨h', hg⟩)]
        exact h3 f hf ho
      · exact hidle hg
    · rintro ⟨h2, h3⟩
      refine ⟨hA, ⟨hK, h2⟩, fun f hf ho => ?_⟩
      by_cases hg : Given f b
      · obtain ⟨_, d, h4, h5, h6⟩ := hfield f hf hg
        rw [newVal_right (fun h' => hs f hf ⟨h', hg⟩)]
        exact fun hn => h3 f hf ((second_field (n := n) (cd := env.cls cls) hg h4 h5 h6).1.2 hn)
      · rw [newVal_left hg]; exact hV f hf ho
  rcases set_run (n := n) (w := w₁) (i := w.next) (kvs := b) hfuel (by rw [hcd]; exact hd) (by rw [hcd]; exact hb) with ⟨cb, rb⟩ | ⟨cb, rb⟩ <;> rw [hcd] at cb
  rotate_left
  · refine .inr ⟨rb, ?_⟩
    rcases new_run (n := n) (w := w) hfuel hd hab hst' with ⟨cab, _⟩ | ⟨_, rab⟩
    · exact absurd (hiff.1 cab) cb
    · exact rab
  rcases new_run (n := n) (w := w) hfuel hd hab hst' with ⟨cab, rab⟩ | ⟨cab, _⟩
  rotate_left
  · exact absurd (hiff.2 cb) cab
  rw [hcd] at rb
  refine .inl ⟨_, _, rb, rab, ?_⟩
  have hobj' : (graphPutSelf env w.next (builtWorld env n cls (a ++ b) w)).2.heap w.next = builtObj env n (env.cls cls) (a ++ b) (w0.heap w.next) := by
    rw [hheap]
    unfold builtWorld
    rw [upd_heap_self, hw0]
  -- outside the own values
  have hout : SameOutside (env.cls cls) (builtObj env n (env.cls cls) (a ++ b) (w0.heap w.next)) (setObj env n (env.cls cls) b (w₁.heap w.next)) := by
    rw [hobj]
    exact (built_outside hd hab ha hnew0).trans (set_outside hd ha hb hnew0).symm
  have hvals : ∀ m, (builtObj env n (env.cls cls) (a ++ b) (w0.heap w.next)).attrs m = (setObj env n (env.cls cls) b (w₁.heap w.next)).attrs m ∨
      ((∃ f ∈ (env.cls cls).fields, f.name = m ∧ Given f b) ∧ (setObj env n (env.cls cls) b (w₁.heap w.next)).attrs m = (w₁.heap w.next).attrs m ∧
        pyEq ((builtObj env n (env.cls cls) (a ++ b) (w0.heap w.next)).attrs m) ((setObj env n (env.cls cls) b (w₁.heap w.next)).attrs m) = true) := by
    intro m
    by_cases hm : ∃ f ∈ (env.cls cls).fields, OwnValue f ∧ m = f.name
    · obtain ⟨f, hf, ho, rfl⟩ := hm
      rw [built_own hd hf ho, setObj_attr hd hf ho.1]
      by_cases hg : Given f b
      · obtain ⟨_, d, h4, h5, h6⟩ := hfield f hf hg
        have hna : ¬ Given f a := fun h' => hs f hf ⟨h', hg⟩
        have hne := cab.2.2 f hf ho
        rw [newVal_right hna] at hne ⊢
        rcases (second_field (n := n) (cd := env.cls cls) hg h4 h5 h6).2 hne with h7 | ⟨h7, h8⟩
        · exact .inl h7
        · exact .inr ⟨⟨f, hf, rfl, hg⟩, h7.trans h5.symm, by rw [h7]; exact h8⟩
      · left
        rw [newVal_left hg, step_idle (not_given hg), hobj, built_own hd hf ho]
    · exact .inl (hout.vals m (fun f hf ho he => hm ⟨f, hf, ho, he⟩))
  -- the registrations
  have hid : ∀ p, (env.cls cls).primary = some p → (builtObj env n (env.cls cls) (a ++ b) (w0.heap w.next)).attrs p = (builtObj env n (env.cls cls) a (w0.heap w.next)).attrs p := by
    intro p hp
    by_cases hm : ∃ f ∈ (env.cls cls).fields, OwnValue f ∧ p = f.name
    · obtain ⟨f, hf, ho, rfl⟩ := hm
      rw [built_own hd hf ho, built_own hd hf ho, newVal_left (hpk f hf hp)]
    · exact (built_outside hd hab ha hnew0).vals p (fun f hf ho he => hm ⟨f, hf, ho, he⟩)
  have hgk : graphKey env (builtWorld env n cls (a ++ b) w) w.next = graphKey env (builtWorld env n cls a w) w.next := by
    unfold graphKey World.id World.cdef World.attr builtWorld
    rw [upd_heap_self, upd_heap_self, hw0, builtObj_cls, builtObj_cls, hcls0]
    cases hp : (env.cls cls).primary with
    | none => rfl
    | some p => simp only [hid p hp]
  have hgr : ((builtWorld env n cls (a ++ b) w).heap w.next).graph = ((builtWorld env n cls a w).heap w.next).graph := by
    unfold builtWorld
    rw [upd_heap_self, upd_heap_self, hw0]
    exact (built_outside hd hab ha hnew0).graph
  have hgraphs : (graphPutSelf env w.next (builtWorld env n cls (a ++ b) w)).2.graphs = w₁.graphs := by
    rw [← hw1]
    simp only [graphPutSelf, Py.modify_run, hgk]
    cases graphKey env (builtWorld env n cls a w) w.next with
    | error e => rfl
    | ok k =>
      simp only [hgr]
      rfl
  refine ⟨fun m => ?_, ?_⟩
  · unfold World.attr
    rw [hobj', upd_heap_self]
    exact hvals m
  · rw [hobj', upd_upd, hput (builtWorld env n cls (a ++ b) w), hgraphs, ← hw1, hput (builtWorld env n cls a w)]
    unfold builtWorld World.upd
    rw [hw0]
    simp only [World.mk.injEq, and_true]
    funext j
    by_cases hj : j = w.next
    · subst hj
      simp only [if_true]
      have := hout.rest
      rw [hobj] at this
      have h2 : ∀ (p q : Obj), { p with attrs := fun _ => Val.none } = { q with attrs := fun _ => Val.none } → p = { q with attrs := p.attrs } := by
        intro p q h
        exact congrArg (fun o : Obj => { o with attrs := p.attrs }) h
      exact h2 _ _ this
    · simp [hj]
end JC

/-! ### Cases -/

namespace JC.AtOnceDemo
open JC JC.RepeatDemo
open JC.Demo (fId optStr attrsOf)

def fStars : Field := { name := "stars", jsonName := "stars", default := some (.int 1), chain := [.leaf {}] }
def fKind : Field := { name := "kind", jsonName := "kind", writeRule := .writeOnce, default := some (.str "memo"), chain := [.leaf optStr] }

def page : ClassDef := { note with fields := [fId, fTitle, fPen, fTags, fStars, fKind, fPart, fLinks] }

def env : Env where
  cls := fun n => if n = "Note" then page else {}
  pystr := fun v => match v with
    | .str s => s
    | _ => ""

def one : List (String × Val) := [("id", .str "n1"), ("title", .str "a"), ("penName", .str "p")]
def two : List (String × Val) := [("tags", .list [.str "x"]), ("stars", .int 5)]

theorem fields_eq : (env.cls "Note").fields = [fId, fTitle, fPen, fTags, fStars, fKind, fPart, fLinks] := by simp [env, page]

theorem any_byValue : ({} : Leaf).ByValue := by
  intro h h' c c' he
  exact ⟨by simp [he, AlikeRes], rfl⟩

theorem noLocal (n : String) : (env.cls "Note").localKey? n = none := by
  unfold ClassDef.localKey?
  rw [fields_eq]
  simp [fId, fTitle, fPen, fTags, fStars, fKind, fPart, fLinks]

theorem distinct : Distinct (env.cls "Note") where
  names := by rw [fields_eq]; decide
  noKey := fun f _ => noLocal f.name

theorem noKeys : ∀ f ∈ (env.cls "Note").fields, f.store ≠ .localKey := by
  rw [fields_eq]
  simp [fId, fTitle, fPen, fTags, fStars, fKind, fPart, fLinks]

theorem byValue : ∀ f ∈ (env.cls "Note").fields, f ≠ fPart → f ≠ fLinks → PlainField (env.cls "Note") f.name ∧ Mod.ByValueL f.chain := by
  intro f hf h1 h2
  refine ⟨⟨f, distinct.field hf, noLocal _, ?_⟩, ?_⟩ <;> rw [fields_eq] at hf <;> simp only [List.mem_cons, List.not_mem_nil, or_false] at hf <;>
    rcases hf with rfl | rfl | rfl | rfl | rfl | rfl | rfl | rfl <;> first | exact absurd rfl h1 | exact absurd rfl h2 | skip
  all_goals first
    | exact ⟨rfl, by decide⟩
    | exact ⟨optStr_byValue, trivial⟩
    | exact ⟨optStr_byValue, trivial, shout_byValue, trivial⟩
    | exact ⟨⟨rfl, optStr_byValue, shout_byValue, trivial⟩, trivial⟩
    | exact ⟨any_byValue, trivial⟩

/-- an input that says nothing about objects -/
theorem plain {kvs : List (String × Val)} (h1 : ¬ Given fPart kvs) (h2 : ¬ Given fLinks kvs) : PlainValues (env.cls "Note") kvs where
  field := fun f hf hg => byValue f hf (fun h => h1 (h ▸ hg)) (fun h => h2 (h ▸ hg))
  noId := fun f hf h => absurd h (noKeys f hf)

/-- the first part: as a note of its own; the second part is about other fields -/
theorem apart : ∀ f ∈ (env.cls "Note").fields, ¬ (Given f one ∧ Given f two) := by
  rw [fields_eq]
  simp [Given, one, two, fId, fTitle, fPen, fTags, fStars, fKind, fPart, fLinks]

theorem steady (n : Nat) : ∀ f ∈ (env.cls "Note").fields, OwnValue f → Taken f one ∨ Steady env (n + 1) f := by
  intro f hf ho
  by_cases h1 : f.name = "part"
  · have : f = fPart := same_name distinct hf (by rw [fields_eq]; simp) h1
    subst this
    exact .inr (.inr (.inr (missing_object rfl)))
  · by_cases h2 : f.name = "links"
    · have : f = fLinks := same_name distinct hf (by rw [fields_eq]; simp) h2
      subst this
      exact absurd ho.1 (by decide)
    · exact .inr (.inr (.inl (byValue f hf (fun h => h1 (h ▸ rfl)) (fun h => h2 (h ▸ rfl))).2))

def isFive : Val → Bool
  | .int 5 => true
  | _ => false

theorem one_ok : apiNew env 6 "Note" one {} = (.ok 0, (apiNew env 6 "Note" one {}).2) := ConstructDemo.ok_of (by decide +kernel)

/-- the hypotheses are met: creating the note at once is creating it from `one` and setting `two` -/
example : (∃ w₂ w', apiSet env 6 0 two (apiNew env 6 "Note" one {}).2 = (.ok (), w₂) ∧ apiNew env 6 "Note" (one ++ two) {} = (.ok 0, w') ∧
      BuiltAlike (env.cls "Note") two 0 (apiNew env 6 "Note" one {}).2 w₂ w') ∨
    ((∃ e w₂, apiSet env 6 0 two (apiNew env 6 "Note" one {}).2 = (.error e, w₂)) ∧ ∃ e w', apiNew env 6 "Note" (one ++ two) {} = (.error e, w')) := by
  refine new_then_set (n := 5) (by decide) distinct (plain ?_ ?_) (plain ?_ ?_) apart (steady 4) ?_ one_ok ?_
  · simp [Given, one, fPart]
  · simp [Given, one, fLinks]
  · simp [Given, two, fPart]
  · simp [Given, two, fLinks]
  · intro f hf hp
    have hp : f.name = "id" := (Option.some.inj hp).symm
    have : f = fId := same_name distinct hf (by rw [fields_eq]; simp) hp
    subst this
    simp [Given, two, fId]
  · rw [fields_eq]
    intro f hf hg hw
    simp only [List.mem_cons, List.not_mem_nil, or_false] at hf
    rcases hf with rfl | rfl | rfl | rfl | rfl | rfl | rfl | rfl <;> first | (refine absurd hw ?_; decide) | (refine absurd hg ?_; simp [Given, two, fPen, fKind])

/-- and both complete -/
theorem two_ok : (apiSet env 6 0 two (apiNew env 6 "Note" one {}).2).1.toOption = some () ∧
    isFive ((apiSet env 6 0 two (apiNew env 6 "Note" one {}).2).2.attr 0 "stars") = true ∧
    isFive ((apiNew env 6 "Note" (one ++ two) {}).2.attr 0 "stars") = true := by decide +kernel

/-- the exception in the statement: `True == 1`, so `set(stars=True)` leaves the default `1`,
while the constructor stores `True` -/
theorem equal_kept : (apiSet env 6 0 [("stars", .bool true)] (apiNew env 6 "Note" [] {}).2).2.attr 0 "stars" = .int 1 ∧
    (apiNew env 6 "Note" [("stars", .bool true)] {}).2.attr 0 "stars" = .bool true := ⟨rfl, rfl⟩

/-- a field that is written once and has a default: the constructor takes the value, `set` does not -/
theorem once_with_default : (apiSet env 6 0 [("kind", .str "log")] (apiNew env 6 "Note" [] {}).2).2.attr 0 "kind" = .str "memo" ∧
    (apiNew env 6 "Note" [("kind", .str "log")] {}).2.attr 0 "kind" = .str "log" := ⟨rfl, rfl⟩

/-- a primary key set later is not registered -/
theorem key_later : gLookup ((apiSet env 6 0 [("id", .str "n1")] (apiNew env 6 "Note" [] {}).2).2.graphs 0) ("Note", "n1") = none ∧
    gLookup ((apiNew env 6 "Note" [("id", .str "n1")] {}).2.graphs 0) ("Note", "n1") = some 0 := ⟨rfl, rfl⟩

end JC.AtOnceDemo
