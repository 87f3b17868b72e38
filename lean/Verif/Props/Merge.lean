import Verif.Props.Blank

/-
C72: dicts with the same primary key in one input stand for one object.
-/
namespace JC
variable {env : Env}

/-! ### Specification -/

/-- The printed primary key a dict for class `C` gives, if it gives one. -/
def keyText (env : Env) (C : String) (kvs : List (String × Val)) : Option String :=
  match (env.cls C).primary with
  | none => none
  | some n => match dictGet kvs n with
    | none => none
    | some v => if v.isNone then none else some (env.pystr v)

/-- the dict gives a value (None included) for the field -/
def Gives (f : Field) (kvs : List (String × Val)) : Prop := dictGet kvs f.name ≠ none ∨ dictGet kvs f.jsonName ≠ none

instance (f : Field) (kvs : List (String × Val)) : Decidable (Gives f kvs) := by
  unfold Gives
  cases dictGet kvs f.name <;> cases dictGet kvs f.jsonName
  · exact isFalse (by simp)
  · exact isTrue (by simp)
  · exact isTrue (by simp)
  · exact isTrue (by simp)

/-- A plain field that takes what it is given. -/
structure TakesAny (f : Field) : Prop where
  plain : f.isRef = false
  stored : f.store ≠ .calculated
  rule : f.writeRule = .unlimited
  keeps : ∀ m ∈ f.chain, m.Keeps

/-- What is given last for a field, among the dicts with the key `s`. -/
def lastGiven (env : Env) (C : String) (s : String) (f : Field) (ds : List (List (String × Val))) : Option Val :=
  ds.foldl (fun acc d => if keyText env C d = some s ∧ Gives f d then some (givenValue f d) else acc) none

/-- The value an object read from the dicts `ds` should have: the object of dict `d` has what is
given last under its key, or in `d` when there is no key, and the default where nothing is
given. -/
def merged (env : Env) (C : String) (ds : List (List (String × Val))) (d : List (String × Val)) (f : Field) : Val :=
  match keyText env C d with
  | some s => (lastGiven env C s f ds).getD (f.default.getD .none)
  | none => if Gives f d then givenValue f d else f.default.getD .none

/-- The stored value is the given one, or equal to it for Python (`1`, `1.0` and `True`). -/
def StoredAs (given stored : Val) : Prop := stored = given ∨ pyEq given stored = true

/-! ### One field -/

/-- assigning a plain field -/
theorem plain_value (R : Relations env) {i : Nat} {f : Field} {v : Val} {w w' : World} (hf : HasField env w i f)
    (hr : f.isRef = false) (h : setAttr env i f.name v w = (.ok (), w')) : StoredAs v (w'.attr i f.name) := by
  unfold setAttr at h
  have h := get_bind_ok h
  rw [R.noKey hf] at h
  simp only at h
  unfold setField at h
  cases hn : env.fuel with
  | zero => rw [hn] at h; cases h
  | succ n =>
    rw [hn] at h
    simp only [runL] at h
    unfold setBody at h
    have h := get_bind_ok h
    rw [show (w.cdef env i).field? f.name = some f from hf] at h
    simp only at h
    split at h
    · cases h
    · split at h
      · rename_i he; cases h; exact .inr he
      · obtain ⟨u1, w1, h1, h2⟩ := bind_ok h
        rw [if_neg (by rw [hr]; exact Bool.false_ne_true)] at h2
        have : w' = (rawSet i f.name v w1).2 := by rw [h2]
        rw [this, attr_rawSet]
        exact .inl (by simp)

theorem default_value (R : Relations env) {vis : Visitor} (hn : NoMarks vis) {c : Ctx} {dest : Nat}
    {cls : String} {f : Field} (hf : f ∈ (env.cls cls).fields) (ht : TakesAny f) {w w' : World}
    (hd : (w.heap dest).cls = cls) (h : fillDefault env (Field.ops env vis) c dest f w = (.ok (), w')) :
    StoredAs (f.default.getD .none) (w'.attr dest f.name) := by
  have hcd : w.cdef env dest = env.cls cls := congrArg env.cls hd
  have hhas : HasField env w dest f := by unfold HasField; rw [hcd]; exact R.uniq cls f hf
  unfold fillDefault at h
  cases hdf : f.default with
  | some v => rw [hdf] at h; exact plain_value R hhas ht.plain h
  | none =>
    rw [hdf] at h
    obtain ⟨ek, w1, h1, ha⟩ := bind_ok (get_bind_ok h)
    clear h
    obtain ⟨rfl, -⟩ := readW_ok h1
    obtain ⟨t, w2, ht', hb'⟩ := bind_ok ha
    unfold Field.ops at ht'
    rw [keeps_chain hn ht.keeps] at ht'
    cases ht'
    exact plain_value R hhas ht.plain hb'

theorem gives_iff (f : Field) (kvs : List (String × Val)) : hasFieldValue f kvs = true ↔ Gives f kvs := by
  unfold hasFieldValue Gives
  cases dictGet kvs f.name <;> cases dictGet kvs f.jsonName <;> simp

/-- what one step of the field loop stores in its own field -/
theorem field_value (R : Relations env) {vis : Visitor} (hn : NoMarks vis) {c : Ctx} {dest : Nat} {soft : Bool} {cls : String}
    {kvs : List (String × Val)} {f : Field} (hf : f ∈ (env.cls cls).fields) (ht : TakesAny f) {w w' : World} (hd : (w.heap dest).cls = cls)
    (h : transformField env (Field.ops env vis) c dest soft kvs f w = (.ok (), w')) :
    (Gives f kvs → StoredAs (givenValue f kvs) (w'.attr dest f.name)) ∧
    (¬ Gives f kvs → (soft = true → w' = w) ∧
      ((c.cfg.fillBlanks = true ∧ soft = false) → StoredAs (f.default.getD .none) (w'.attr dest f.name)) ∧
      (c.cfg.fillBlanks = false → w' = w)) := by
  have hcd : w.cdef env dest = env.cls cls := congrArg env.cls hd
  have hhas : HasField env w dest f := by unfold HasField; rw [hcd]; exact R.uniq cls f hf
  unfold transformField at h
  by_cases hg : Gives f kvs
  · refine ⟨fun _ => ?_, fun hng => absurd hg hng⟩
    rw [if_pos ((gives_iff f kvs).2 hg)] at h
    unfold presentField at h
    obtain ⟨cur, w1, h1, h2⟩ := bind_ok h
    obtain ⟨rfl, -⟩ := readW_ok h1
    rw [if_pos (by unfold allowWrite; rw [ht.rule])] at h2
    obtain ⟨ek, w2, h3, h4⟩ := bind_ok (get_bind_ok h2)
    obtain ⟨rfl, -⟩ := readW_ok h3
    obtain ⟨t, w3, h5, h6⟩ := bind_ok h4
    unfold Field.ops at h5
    rw [keeps_chain hn ht.keeps] at h5
    cases h5
    unfold pyWhen at h6
    rw [if_pos (by simpa using ht.stored)] at h6
    have := plain_value R hhas ht.plain h6
    rwa [← getFieldValue_eq]
  · refine ⟨fun h => absurd h hg, fun _ => ?_⟩
    rw [if_neg (fun h => hg ((gives_iff f kvs).1 h))] at h
    unfold absentField at h
    rw [if_neg (by rw [ht.plain]; exact Bool.false_ne_true)] at h
    refine ⟨fun hs => ?_, fun ⟨h1, h2⟩ => ?_, fun h1 => ?_⟩
    · rw [if_neg (by simp [hs])] at h; cases h; rfl
    · rw [if_pos (by simp [h1, h2, ht.stored])] at h
      exact default_value R hn hf ht hd h
    · rw [if_neg (by simp [h1])] at h; cases h; rfl

/-- the field loop -/
theorem fields_value (R : Relations env) (D : InputReady env) {vis : Visitor} (hn : NoMarks vis) (hv : NoneStill vis) {c : Ctx} {dest : Nat}
    {soft : Bool} {cls : String} {kvs : List (String × Val)} (hk : GivesNoRelation env cls kvs) {f : Field} (hf : f ∈ (env.cls cls).fields)
    (ht : TakesAny f) (fs : List Field) (hfs : ∀ g ∈ fs, g ∈ (env.cls cls).fields) : ∀ {w w' : World}, (w.heap dest).cls = cls →
      transformFields env (Field.ops env vis) c dest soft kvs fs w = (.ok (), w') →
      (f ∉ fs → w'.attr dest f.name = w.attr dest f.name) ∧
      (f ∈ fs → (Gives f kvs → StoredAs (givenValue f kvs) (w'.attr dest f.name)) ∧
        (¬ Gives f kvs → (soft = true ∨ c.cfg.fillBlanks = false → w'.attr dest f.name = w.attr dest f.name) ∧
          ((c.cfg.fillBlanks = true ∧ soft = false) → StoredAs (f.default.getD .none) (w'.attr dest f.name)))) := by
  induction fs with
  | nil => intro w w' _ h; cases h; exact ⟨fun _ => rfl, fun h => by cases h⟩
  | cons g fs ih =>
    intro w w' hd h
    obtain ⟨_, w1, h1, h2⟩ := bind_ok h
    have hgm := hfs g (by simp)
    have hd1 : (w1.heap dest).cls = cls := (within_field R D hn hv (hk g hgm) hgm (plain_outside R hgm) hd h1).cls.trans hd
    obtain ⟨i1, i2⟩ := ih (fun f' h' => hfs f' (by simp [h'])) hd1 h2
    have hother : g ≠ f → w1.attr dest f.name = w.attr dest f.name := by
      intro hne
      have hnn : g.name ≠ f.name := by
        intro hn
        have e1 := R.uniq cls g hgm
        rw [hn, R.uniq cls f hf] at e1
        exact hne (Option.some.inj e1).symm
      exact (within_field R D hn hv (hk g hgm) hgm (S := fun m => m ≠ g.name) (fun _ h => h rfl) hd h1).attrs _ (fun h => hnn h.symm)
    refine ⟨fun hm => ?_, fun hm => ?_⟩
    · rw [i1 (fun h => hm (by simp [h])), hother (fun h => hm (by simp [h]))]
    · by_cases hgf : g = f
      · subst hgf
        obtain ⟨v1, v2⟩ := field_value R hn hf ht hd h1
        by_cases hin : g ∈ fs
        · obtain ⟨j1, j2⟩ := i2 hin
          refine ⟨j1, fun hng => ⟨fun hs => ?_, (j2 hng).2⟩⟩
          rw [(j2 hng).1 hs]
          rcases hs with hs | hs
          · rw [(v2 hng).1 hs]
          · rw [(v2 hng).2.2 hs]
        · rw [i1 hin]
          refine ⟨v1, fun hng => ⟨fun hs => ?_, (v2 hng).2.1⟩⟩
          rcases hs with hs | hs
          · rw [(v2 hng).1 hs]
          · rw [(v2 hng).2.2 hs]
      · have hin : f ∈ fs := by
          rcases List.mem_cons.1 hm with h | h
          · exact absurd h.symm hgf
          · exact h
        obtain ⟨j1, j2⟩ := i2 hin
        refine ⟨j1, fun hng => ⟨fun hs => ?_, (j2 hng).2⟩⟩
        rw [(j2 hng).1 hs, hother hgf]

/-- filling null lists of references touches no plain field -/
theorem lists_within (R : Relations env) {dest : Nat} {cls : String} (fs : List Field)
    (hfs : ∀ f ∈ fs, f ∈ (env.cls cls).fields ∧ f.ftype = .list ∧ f.isRef = true) : ∀ {w w' : World}, (w.heap dest).cls = cls →
      fillRefLists env dest (fs.map Field.name) w = (.ok (), w') → Within dest (fun m => ¬ OfRelation env cls m) w w' := by
  induction fs with
  | nil => intro w w' _ h; cases h; exact Within.refl ..
  | cons f fs ih =>
    intro w w' hd h
    obtain ⟨v, w1, h1, h2⟩ := bind_ok h
    obtain ⟨rfl, hval⟩ := readW_ok h1
    obtain ⟨_, w2, h3, h4⟩ := bind_ok h2
    obtain ⟨hfm, hfl, hfr⟩ := hfs f (by simp)
    have hcd : w1.cdef env dest = env.cls cls := congrArg env.cls hd
    have hhas : HasField env w1 dest f := by unfold HasField; rw [hcd]; exact R.uniq cls f hfm
    have hv0 : v = w1.attr dest f.name := by
      unfold World.getattr at hval
      rw [show (w1.cdef env dest).field? f.name = some f from hhas] at hval
      simp only at hval
      rw [if_neg (fun hs => by simp [Field.isRef, hs] at hfr)] at hval
      cases hval; rfl
    have b1 : Within dest (fun m => ¬ OfRelation env cls m) w1 w2 := by
      unfold pyWhen at h3
      split at h3
      · rename_i hnone
        have hz : w1.attr dest f.name = .none := by
          rw [← hv0]; revert hnone; cases v <;> simp [Val.isNone]
        exact (within_nil R hhas hfr hfl (fun h => h ⟨f, hfm, hfr, .inl rfl⟩) (fun hs h => h ⟨f, hfm, hfr, .inr ⟨hs, rfl⟩⟩) hz h3).1
      · cases h3; exact Within.refl ..
    exact b1.trans (ih (fun f' h' => hfs f' (by simp [h'])) (b1.cls.trans hd) h4)

/-! ### One dict -/

/-- What writing a flat dict to an object does. -/
theorem apply_shape (R : Relations env) (D : InputReady env) {vis : Visitor} (hn : NoMarks vis) (hv : NoneStill vis) {c : Ctx} {dest : Nat}
    {soft : Bool} {cls : String} {st : Option Bool} {kvs : List (String × Val)} (hk : GivesNoRelation env cls kvs) {w w' : World}
    (hd : (w.heap dest).cls = cls) (h : applyDict env (Field.ops env vis) cls st c dest soft kvs w = (.ok (), w')) :
    (∀ j, j ≠ dest → w'.heap j = w.heap j) ∧ (w'.heap dest).cls = cls ∧ w'.next = w.next ∧ w'.marks = w.marks ∧
    ∀ f ∈ (env.cls cls).fields, TakesAny f →
      (Gives f kvs → StoredAs (givenValue f kvs) (w'.attr dest f.name)) ∧
      (¬ Gives f kvs → (soft = true ∨ c.cfg.fillBlanks = false → w'.attr dest f.name = w.attr dest f.name) ∧
        ((c.cfg.fillBlanks = true ∧ soft = false) → StoredAs (f.default.getD .none) (w'.attr dest f.name))) := by
  unfold applyDict at h
  have h := get_bind_ok h
  obtain ⟨_, w1, h1, h2⟩ := bind_ok h
  have hw1 : w1 = w := by
    unfold pyWhen at h1
    split at h1
    · exact (readW_ok h1).1
    · cases h1; rfl
  subst hw1
  have hcd : w1.cdef env dest = env.cls cls := congrArg env.cls hd
  simp only [hcd] at h2
  obtain ⟨_, w2, h3, h4⟩ := bind_ok h2
  have b1 := within_fields R D hn hv hk _ (fun f hf => hf) hd h3
  have b2 := lists_within R (dest := dest) (((env.cls cls).fields).filter (fun f => !hasFieldValue f kvs && f.isRef && f.ftype = .list && f.collNonnull))
      (fun f hf => by
        obtain ⟨q1, q2⟩ := List.mem_filter.1 hf
        simp only [Bool.and_eq_true, decide_eq_true_eq] at q2
        exact ⟨q1, q2.1.2, q2.1.1.2⟩) (b1.cls.trans hd) h4
  refine ⟨fun j hj => (b2.others j hj).trans (b1.others j hj), (b2.cls.trans b1.cls).trans hd, b2.next.trans b1.next, b2.marks.trans b1.marks,
    fun f hf ht => ?_⟩
  rw [b2.attrs f.name (plain_outside R hf ht.plain)]
  exact (fields_value R D hn hv hk hf ht _ (fun f hf => hf) hd h3).2 hf

theorem flat_nil (cls : String) : GivesNoRelation env cls [] := fun _ _ => ⟨fun _ => ⟨rfl, rfl, rfl, rfl⟩, fun _ => .inl ⟨rfl, rfl⟩⟩

theorem gives_nil (f : Field) : ¬ Gives f [] := by rintro (h | h) <;> exact h rfl

/-- What constructing an object without arguments does. -/
theorem new_shape (R : Relations env) (D : InputReady env) {n : Nat} {cls : String} {i : Nat} {w w' : World}
    (h : newObj env (instOps env n) cls [] w = (.ok i, w')) :
    i = w.next ∧ w'.next = w.next + 1 ∧ w'.marks = w.marks ∧ (∀ j, j ≠ i → w'.heap j = w.heap j) ∧ (w'.heap i).cls = cls ∧
    ∀ f ∈ (env.cls cls).fields, TakesAny f → StoredAs (f.default.getD .none) (w'.attr i f.name) := by
  unfold newObj at h
  split at h
  · cases h
  obtain ⟨j, w1, h1, h2⟩ := bind_ok h
  clear h
  have hj : w.next = j := Except.ok.inj (Prod.mk.inj h1).1
  have hw1 : (alloc env cls w).2 = w1 := (Prod.mk.inj h1).2
  subst hj
  obtain ⟨_, w2, h3, h4⟩ := bind_ok h2
  obtain ⟨_, w3, h5, h6⟩ := bind_ok h4
  have hw3 : (graphPutSelf env w.next w2).2 = w3 := congrArg Prod.snd h5
  obtain ⟨g1, g3, g2⟩ := graphPut_heap (env := env) w.next w2
  rw [hw3] at g1 g2 g3
  have e1 := (Prod.mk.inj h6).2
  have e2 := Except.ok.inj (Prod.mk.inj h6).1
  subst e1 e2
  have c1 : (w1.heap w.next).cls = cls := by rw [← hw1]; simp [alloc, freshObj]
  have o1 : ∀ j, j ≠ w.next → w1.heap j = w.heap j := by intro j hj; rw [← hw1]; simp [alloc, hj]
  have n1 : w1.next = w.next + 1 := by rw [← hw1]; rfl
  have m1 : w1.marks = w.marks := by rw [← hw1]; rfl
  unfold setDict at h3
  have h3 := get_bind_ok h3
  obtain ⟨r, w4, h7, h8⟩ := bind_ok h3
  cases h8
  unfold withFreshMarks at h7
  rcases hr : (instOps env n (w1.heap w.next).cls none).transform (rootCtx w1 w.next { fillBlanks := true, allFields := some false } (.dict []))
    { w1 with marks := [] } with ⟨r', w5⟩
  rw [hr] at h7
  cases h7
  rw [c1] at hr
  cases n with
  | zero => cases hr
  | succ n =>
    simp only [instOps, instTransform, rootCtx] at hr
    obtain ⟨d, w6, h9, h10⟩ := bind_ok hr
    have hw6 : d = (w.next, false) ∧ w6.heap = w1.heap ∧ w6.next = w1.next := by
      simp only [findDest] at h9
      obtain ⟨_, w7, h11, h12⟩ := bind_ok h9
      cases h12
      refine ⟨rfl, ?_⟩
      unfold pyWhen at h11
      split at h11
      · have : w6 = World.markPutp env { w1 with marks := [] } (inputPk env cls []) w.next := (congrArg Prod.snd h11).symm
        rw [this]
        exact ⟨rfl, rfl⟩
      · cases h11; exact ⟨rfl, rfl⟩
    obtain ⟨rfl, hh6, hn6⟩ := hw6
    obtain ⟨_, w8, h11, h12⟩ := bind_ok h10
    cases h12
    obtain ⟨a1, a2, a3, -, a5⟩ := apply_shape R D (instOps_noMarks env n) (noneStill_instOps n) (flat_nil cls) (by rw [hh6]; exact c1) h11
    refine ⟨rfl, ?_, ?_, fun j hj => ?_, ?_, fun f hf ht => ?_⟩
    · rw [g2]
      show w5.next = _
      rw [a3, hn6, n1]
    · rw [g3]; exact m1
    · rw [g1]
      show w5.heap j = _
      rw [a1 j hj, hh6, o1 j hj]
    · rw [g1]; exact a2
    · have : w3.attr w.next f.name = w5.attr w.next f.name := by unfold World.attr; rw [g1]
      rw [this]
      exact ((a5 f hf ht).2 (gives_nil f)).2 ⟨rfl, rfl⟩

/-- The primary key of a class, when it has one, takes any value and has no default. -/
def PlainKey (env : Env) (C : String) : Prop :=
  ∀ n, (env.cls C).primary = some n → ∃ f ∈ (env.cls C).fields, f.name = n ∧ TakesAny f ∧ f.default = none

theorem same_none {v : Val} (h : StoredAs .none v) : v = .none := by
  rcases h with h | h
  · exact h
  · cases v <;> simp_all [pyEq]

theorem keyText_pk {C : String} {kvs : List (String × Val)} :
    keyText env C kvs = if (inputPk env C kvs).isNone then none else some (env.pystr (inputPk env C kvs)) := by
  unfold keyText
  cases hp : (env.cls C).primary with
  | none =>
    have : inputPk env C kvs = .none := by unfold inputPk; rw [hp]
    rw [this]; rfl
  | some n =>
    have : inputPk env C kvs = (dictGet kvs n).getD .none := by unfold inputPk; rw [hp]; rfl
    rw [this]
    simp only
    split
    · rename_i h; rw [h]; rfl
    · rename_i h; rw [h]; rfl

/-- What reading one flat dict does: it is written to the object known under its key, or to a
new object. -/
structure ReadOne (env : Env) (C : String) (d : List (String × Val)) (o : Nat) (w w' : World) : Prop where
  others : ∀ j, j ≠ o → w'.heap j = w.heap j
  cls : (w'.heap o).cls = C
  known : ∀ s, keyText env C d = some s → ∀ o', mLookup (C, .pk s) w.marks = some o' → o = o' ∧ w'.next = w.next
  fresh : (∀ s, keyText env C d = some s → mLookup (C, .pk s) w.marks = none) → o = w.next ∧ w'.next = w.next + 1
  look : ∀ s, mLookup (C, .pk s) w'.marks = if keyText env C d = some s then some o else mLookup (C, .pk s) w.marks
  given : ∀ f ∈ (env.cls C).fields, TakesAny f → Gives f d → StoredAs (givenValue f d) (w'.attr o f.name)
  kept : ∀ f ∈ (env.cls C).fields, TakesAny f → ¬ Gives f d →
    (o < w.next → w'.attr o f.name = w.attr o f.name) ∧ (o = w.next → StoredAs (f.default.getD .none) (w'.attr o f.name))

theorem read_one (R : Relations env) (D : InputReady env) {n : Nat} {C : String} {st : Option Bool} (hpk : PlainKey env C) {c : Ctx}
    {d : List (String × Val)} (hk : GivesNoRelation env C d) (hc : c.original = none) (hcv : c.val = .dict d) {r : Val} {w w' : World}
    (hm : ∀ s o, mLookup (C, .pk s) w.marks = some o → o < w.next ∧ (w.heap o).cls = C)
    (h : (instOps env n C st).transform c w = (.ok r, w')) : ∃ o, r = .obj o ∧ ReadOne env C d o w w' := by
  cases n with
  | zero => cases h
  | succ n =>
    simp only [instOps, instTransform, hcv] at h
    obtain ⟨⟨o, soft⟩, w1, h1, h2⟩ := bind_ok h
    obtain ⟨_, w2, h3, h4⟩ := bind_ok h2
    have hr := Except.ok.inj (Prod.mk.inj h4).1
    have hw := (Prod.mk.inj h4).2
    subst hr hw
    refine ⟨o, rfl, ?_⟩
    simp only at h3
    unfold findDest at h1
    simp only [hc] at h1
    -- a new object
    have hnew : soft = false → o = w.next → w1.next = w.next + 1 → (∀ j, j ≠ o → w1.heap j = w.heap j) → (w1.heap o).cls = C →
        (∀ f ∈ (env.cls C).fields, TakesAny f → StoredAs (f.default.getD .none) (w1.attr o f.name)) →
        (∀ s, mLookup (C, .pk s) w1.marks = if keyText env C d = some s then some o else mLookup (C, .pk s) w.marks) →
        (∀ s, keyText env C d = some s → mLookup (C, .pk s) w.marks = none) → ReadOne env C d o w w2 := by
      intro hs ho hnx hoth hcl hdf hlk hfr
      subst hs ho
      obtain ⟨a1, a2, a3, a4, a5⟩ := apply_shape R D (instOps_noMarks env n) (noneStill_instOps n) hk hcl h3
      exact { others := fun j hj => (a1 j hj).trans (hoth j hj)
              cls := a2
              known := fun s hs o' ho' => by rw [hfr s hs] at ho'; cases ho'
              fresh := fun _ => ⟨rfl, a3.trans hnx⟩
              look := fun s => by rw [a4]; exact hlk s
              given := fun f hf ht hg => (a5 f hf ht).1 hg
              kept := fun f hf ht hg => ⟨fun hlt => absurd hlt (Nat.lt_irrefl _), fun _ => by
                cases hb : c.cfg.fillBlanks with
                | true => exact ((a5 f hf ht).2 hg).2 ⟨hb, rfl⟩
                | false => rw [((a5 f hf ht).2 hg).1 (.inr hb)]; exact hdf f hf ht⟩ }
    cases hpkv : (inputPk env C d).isNone with
    | true =>
      rw [hpkv, if_pos rfl] at h1
      have hkt : keyText env C d = none := by rw [keyText_pk, hpkv]; rfl
      obtain ⟨i, w3, h5, h6⟩ := bind_ok h1
      obtain ⟨_, w4, h7, h8⟩ := bind_ok h6
      obtain ⟨s1, s2, s3, s4, s5, s6⟩ := new_shape R D h5
      have h7' : World.markPut env w3 i = w4 := congrArg Prod.snd h7
      cases h8
      have hid : w3.id env o = .none := by
        unfold World.id
        have hcd : w3.cdef env o = env.cls C := congrArg env.cls s5
        rw [hcd]
        cases hp : (env.cls C).primary with
        | none => rfl
        | some m =>
          obtain ⟨f, hf, hfn, ht, hdef⟩ := hpk m hp
          have := s6 f hf ht
          rw [hdef, hfn] at this
          exact same_none this
      have hw4 : w1 = { w3 with marks := ((C, .mem o), o) :: w3.marks } := by
        rw [← h7']; unfold World.markPut; rw [hid, s5]
      subst hw4
      refine hnew rfl s1 s2 s4 s5 s6 (fun s => ?_) (fun s hs => by rw [hkt] at hs; cases hs)
      rw [hkt, if_neg (by simp)]
      simp only [mLookup]
      rw [if_neg (by simp), s3]
    | false =>
      rw [hpkv, if_neg Bool.false_ne_true] at h1
      have hkt : keyText env C d = some (env.pystr (inputPk env C d)) := by rw [keyText_pk, hpkv]; rfl
      have h1 := get_bind_ok h1
      cases hl : mLookup (C, .pk (env.pystr (inputPk env C d))) w.marks with
      | some o' =>
        rw [hl] at h1
        cases h1
        obtain ⟨hlt, hcl⟩ := hm _ _ hl
        obtain ⟨a1, a2, a3, a4, a5⟩ := apply_shape R D (instOps_noMarks env n) (noneStill_instOps n) hk hcl h3
        exact { others := a1
                cls := a2
                known := fun s hs o' ho' => by
                  rw [hkt] at hs; cases hs; rw [hl] at ho'; cases ho'; exact ⟨rfl, a3⟩
                fresh := fun hf => by rw [hf _ hkt] at hl; cases hl
                look := fun s => by
                  rw [a4, hkt]
                  split
                  · rename_i he; cases he; exact hl
                  · rfl
                given := fun f hf ht hg => (a5 f hf ht).1 hg
                kept := fun f hf ht hg => ⟨fun _ => ((a5 f hf ht).2 hg).1 (.inl rfl), fun he => absurd hlt (by omega)⟩ }
      | none =>
        rw [hl] at h1
        obtain ⟨i, w3, h5, h6⟩ := bind_ok h1
        obtain ⟨_, w4, h7, h8⟩ := bind_ok h6
        obtain ⟨s1, s2, s3, s4, s5, s6⟩ := new_shape R D h5
        have h7' : World.markPutp env w3 (inputPk env C d) i = w4 := congrArg Prod.snd h7
        cases h8
        subst h7'
        refine hnew rfl s1 s2 s4 s5 s6 (fun s => ?_) (fun s hs => by rw [hkt] at hs; cases hs; exact hl)
        simp only [World.markPutp, mLookup, s5, s3, hkt]
        by_cases he : env.pystr (inputPk env C d) = s
        · subst he; simp
        · rw [if_neg (by simpa using he), if_neg (by simpa using he)]

/-! ### A list of dicts -/

theorem snoc_get {α : Type} {ps : List α} {p q : α} {a : Nat} : (ps ++ [p])[a]? = some q ↔ ps[a]? = some q ∨ a = ps.length ∧ q = p := by
  rw [List.getElem?_append]
  split
  · rename_i h
    constructor
    · exact .inl
    · rintro (h' | ⟨rfl, -⟩)
      · exact h'
      · exact absurd h (Nat.lt_irrefl _)
  · rename_i h
    have hn : ps[a]? = none := List.getElem?_eq_none (by omega)
    rw [hn]
    by_cases ha : a = ps.length
    · subst ha; simp [eq_comm]
    · have : a - ps.length ≠ 0 := by omega
      obtain ⟨k, hk⟩ := Nat.exists_eq_succ_of_ne_zero this
      rw [hk]; simp [ha]

theorem lastGiven_snoc (C s : String) (f : Field) (ds : List (List (String × Val))) (d : List (String × Val)) :
    lastGiven env C s f (ds ++ [d]) = if keyText env C d = some s ∧ Gives f d then some (givenValue f d) else lastGiven env C s f ds := by
  unfold lastGiven; rw [List.foldl_append]; rfl

theorem merged_snoc (C : String) (f : Field) (ds : List (List (String × Val))) (d e : List (String × Val)) :
    merged env C (ds ++ [d]) e f =
      match keyText env C e with
      | some s => if keyText env C d = some s ∧ Gives f d then givenValue f d else merged env C ds e f
      | none => merged env C ds e f := by
  unfold merged
  cases keyText env C e with
  | none => rfl
  | some s =>
    simp only [lastGiven_snoc]
    split <;> rfl

/-- what holds after the dicts of `ps`, paired with the objects read from them -/
structure Merged (env : Env) (C : String) (w0 : World) (ps : List (List (String × Val) × Nat)) (w : World) : Prop where
  next : w0.next ≤ w.next
  old : ∀ j, j < w0.next → w.heap j = w0.heap j
  ids : ∀ p ∈ ps, w0.next ≤ p.2 ∧ p.2 < w.next ∧ (w.heap p.2).cls = C
  look : ∀ s o, mLookup (C, .pk s) w.marks = some o ↔ ∃ p ∈ ps, keyText env C p.1 = some s ∧ p.2 = o
  same : ∀ (a b : Nat) (p q : List (String × Val) × Nat), ps[a]? = some p → ps[b]? = some q → (p.2 = q.2 ↔ a = b ∨ ∃ s, keyText env C p.1 = some s ∧ keyText env C q.1 = some s)
  vals : ∀ p ∈ ps, ∀ f ∈ (env.cls C).fields, TakesAny f → StoredAs (merged env C (ps.map Prod.fst) p.1 f) (w.attr p.2 f.name)

theorem Merged.start {C : String} {w : World} (h : ∀ s, mLookup (C, .pk s) w.marks = none) : Merged env C w [] w where
  next := Nat.le_refl _
  old := fun _ _ => rfl
  ids := fun _ h => by cases h
  look := fun s o => by rw [h]; simp
  same := fun a b p q h => by simp at h
  vals := fun _ h => by cases h

theorem getElem?_of_mem' {α : Type} {l : List α} {x : α} (h : x ∈ l) : ∃ a : Nat, l[a]? = some x := List.mem_iff_getElem?.1 h

theorem mem_of_at {α : Type} {l : List α} {x : α} {a : Nat} (h : l[a]? = some x) : x ∈ l := List.mem_iff_getElem?.2 ⟨a, h⟩

theorem Merged.step {C : String} {w0 w w' : World} {ps : List (List (String × Val) × Nat)} (m : Merged env C w0 ps w)
    {d : List (String × Val)} {o : Nat} (h : ReadOne env C d o w w') : Merged env C w0 (ps ++ [(d, o)]) w' := by
  -- the new object is either known or fresh
  have hcase : (∃ s p, keyText env C d = some s ∧ p ∈ ps ∧ keyText env C p.1 = some s ∧ p.2 = o ∧ w'.next = w.next) ∨
      ((∀ s, keyText env C d = some s → ∀ p ∈ ps, keyText env C p.1 ≠ some s) ∧ o = w.next ∧ w'.next = w.next + 1) := by
    cases hs : keyText env C d with
    | none =>
      obtain ⟨f1, f2⟩ := h.fresh (fun s h' => by rw [hs] at h'; cases h')
      exact .inr ⟨(fun s h' => by cases h'), f1, f2⟩
    | some s =>
      cases hl : mLookup (C, .pk s) w.marks with
      | some o' =>
        obtain ⟨k1, k2⟩ := h.known s hs o' hl
        obtain ⟨p, hp, hps, hpo⟩ := (m.look s o').1 hl
        exact .inl ⟨s, p, rfl, hp, hps, hpo.trans k1.symm, k2⟩
      | none =>
        obtain ⟨f1, f2⟩ := h.fresh (fun s' h' => by rw [hs] at h'; cases h'; exact hl)
        refine .inr ⟨fun s' h' p hp hps => ?_, f1, f2⟩
        cases h'
        have := (m.look s p.2).2 ⟨p, hp, hps, rfl⟩
        rw [hl] at this; cases this
  have hnx : w.next ≤ w'.next := by
    rcases hcase with ⟨_, _, _, _, _, _, h'⟩ | ⟨_, _, h'⟩ <;> omega
  have ho : w0.next ≤ o ∧ o < w'.next := by
    rcases hcase with ⟨s, p, _, hp, _, hpo, hn⟩ | ⟨_, ho, hn⟩
    · obtain ⟨i1, i2, -⟩ := m.ids p hp; subst hpo; exact ⟨i1, by omega⟩
    · have := m.next; exact ⟨by omega, by omega⟩
  -- whether an earlier dict has the same object
  have hiff : ∀ p ∈ ps, (p.2 = o ↔ ∃ s, keyText env C p.1 = some s ∧ keyText env C d = some s) := by
    intro p hp
    rcases hcase with ⟨s, q, hs, hq, hqs, hqo, -⟩ | ⟨hno, hon, -⟩
    · obtain ⟨a, ha⟩ := getElem?_of_mem' hp
      obtain ⟨b, hb⟩ := getElem?_of_mem' hq
      rw [← hqo, m.same a b p q ha hb]
      constructor
      · rintro (rfl | ⟨t, h1, h2⟩)
        · rw [ha] at hb; cases hb; exact ⟨s, hqs, hs⟩
        · rw [hqs] at h2; cases h2; exact ⟨s, h1, hs⟩
      · rintro ⟨t, h1, h2⟩
        rw [hs] at h2; cases h2; exact .inr ⟨s, h1, hqs⟩
    · constructor
      · intro he
        have := (m.ids p hp).2.1
        omega
      · rintro ⟨s, h1, h2⟩
        exact absurd h1 (hno s h2 p hp)
  refine { next := Nat.le_trans m.next hnx, old := fun j hj => ?_, ids := ?_, look := fun s o' => ?_, same := ?_, vals := ?_ }
  · rw [h.others j (by omega)]; exact m.old j hj
  · intro p hp
    rcases List.mem_append.1 hp with hp | hp
    · obtain ⟨i1, i2, i3⟩ := m.ids p hp
      refine ⟨i1, by omega, ?_⟩
      by_cases he : p.2 = o
      · rw [he]; exact h.cls
      · rw [h.others _ he]; exact i3
    · simp only [List.mem_singleton] at hp
      subst hp
      exact ⟨ho.1, ho.2, h.cls⟩
  · rw [h.look s]
    split
    · rename_i hs
      constructor
      · intro he; cases he; exact ⟨(d, o), by simp, hs, rfl⟩
      · rintro ⟨p, hp, hps, rfl⟩
        rcases List.mem_append.1 hp with hp | hp
        · rw [(hiff p hp).2 ⟨s, hps, hs⟩]
        · simp only [List.mem_singleton] at hp; subst hp; rfl
    · rename_i hs
      rw [m.look]
      constructor
      · rintro ⟨p, hp, hps, hpo⟩; exact ⟨p, by simp [hp], hps, hpo⟩
      · rintro ⟨p, hp, hps, hpo⟩
        rcases List.mem_append.1 hp with hp | hp
        · exact ⟨p, hp, hps, hpo⟩
        · simp only [List.mem_singleton] at hp; subst hp; exact absurd hps hs
  · intro a b p q hp hq
    rcases snoc_get.1 hp with hp | ⟨rfl, rfl⟩ <;> rcases snoc_get.1 hq with hq | ⟨rfl, rfl⟩
    · exact m.same a b p q hp hq
    · have hlt := (List.getElem?_eq_some_iff.1 hp).1
      rw [hiff p (mem_of_at hp)]
      constructor
      · exact .inr
      · rintro (rfl | h')
        · exact absurd hlt (Nat.lt_irrefl _)
        · exact h'
    · have hlt := (List.getElem?_eq_some_iff.1 hq).1
      rw [eq_comm, hiff q (mem_of_at hq)]
      constructor
      · rintro ⟨s, h1, h2⟩; exact .inr ⟨s, h2, h1⟩
      · rintro (rfl | ⟨s, h1, h2⟩)
        · exact absurd hlt (Nat.lt_irrefl _)
        · exact ⟨s, h2, h1⟩
    · simp
  · intro p hp f hf ht
    rw [List.map_append, List.map_singleton, merged_snoc]
    rcases List.mem_append.1 hp with hp | hp
    · have hv := m.vals p hp f hf ht
      by_cases he : p.2 = o
      · obtain ⟨s, h1, h2⟩ := (hiff p hp).1 he
        rw [h1, h2]
        simp only [true_and]
        rw [he] at hv ⊢
        by_cases hg : Gives f d
        · rw [if_pos hg]; exact h.given f hf ht hg
        · rw [if_neg hg]
          rw [((h.kept f hf ht hg).1 (by have := (m.ids p hp).2.1; omega))]
          exact hv
      · have hv' : w'.attr p.2 f.name = w.attr p.2 f.name := by unfold World.attr; rw [h.others _ he]
        rw [hv']
        cases hk : keyText env C p.1 with
        | none => exact hv
        | some s =>
          simp only
          rw [if_neg]
          · exact hv
          · rintro ⟨h2, -⟩
            exact he ((hiff p hp).2 ⟨s, hk, h2⟩)
    · simp only [List.mem_singleton] at hp
      subst hp
      simp only
      by_cases hg : Gives f d
      · have hgv := h.given f hf ht hg
        cases hk : keyText env C d with
        | none =>
          have : merged env C (ps.map Prod.fst) d f = givenValue f d := by unfold merged; rw [hk]; simp [hg]
          simp only [this]; exact hgv
        | some s => simp only [true_and]; rw [if_pos hg]; exact hgv
      · have hm : StoredAs (merged env C (ps.map Prod.fst) d f) (w'.attr o f.name) := by
          rcases hcase with ⟨s, q, hs, hq, hqs, hqo, -⟩ | ⟨hno, hon, -⟩
          · have hv := m.vals q hq f hf ht
            have : merged env C (ps.map Prod.fst) d f = merged env C (ps.map Prod.fst) q.1 f := by unfold merged; rw [hs, hqs]
            rw [this, (h.kept f hf ht hg).1 (by have := (m.ids q hq).2.1; omega), ← hqo]
            exact hv
          · have : merged env C (ps.map Prod.fst) d f = f.default.getD .none := by
              unfold merged
              cases hk : keyText env C d with
              | none => simp [hg]
              | some s =>
                simp only
                have hl : ∀ ds : List (List (String × Val)), (∀ e ∈ ds, keyText env C e ≠ some s) → lastGiven env C s f ds = none := by
                  intro ds
                  unfold lastGiven
                  generalize hz : (none : Option Val) = z
                  intro hds
                  induction ds with
                  | nil => rfl
                  | cons e ds ih =>
                    simp only [List.foldl_cons]
                    rw [if_neg (fun h' => hds e (by simp) h'.1)]
                    exact ih (fun e' h' => hds e' (by simp [h']))
                rw [hl _ (by
                  intro e he
                  obtain ⟨q, hq, rfl⟩ := List.mem_map.1 he
                  exact hno s hk q hq)]
                rfl
            rw [this]
            exact (h.kept f hf ht hg).2 hon
        cases hk : keyText env C d with
        | none => exact hm
        | some s => simp only [true_and]; rw [if_neg hg]; exact hm

/-- the loop over the items -/
theorem loop_merged (R : Relations env) (D : InputReady env) {n : Nat} {C : String} {st : Option Bool} (hpk : PlainKey env C)
    {item : List Mod} (hit : Around item (.instOf C st)) {sp : Special} {c : Ctx} {w0 : World} (es : List (Key × Val)) :
    ∀ (ds : List (List (String × Val))), es.map Prod.snd = ds.map .dict → (∀ d ∈ ds, GivesNoRelation env C d) →
      (∀ d ∈ ds, sp = .no ∨ dictGet d "_add" = none ∧ dictGet d "_del" = none) →
      ∀ (ps : List (List (String × Val) × Nat)) (w : World) (rs : List (Key × Val)) (w' : World), Merged env C w0 ps w →
        colMapLoop (colEnv env sp) true (chainOps (setParent env) (denL env (instOps env n) item)).transform c es w = (.ok rs, w') →
        ∃ os : List Nat, os.length = ds.length ∧ rs.map Prod.snd = os.map .obj ∧ Merged env C w0 (ps ++ ds.zip os) w' := by
  induction es with
  | nil =>
    intro ds hds _ _ ps w rs w' hm h
    have : ds = [] := by simpa using hds.symm
    subst this
    cases h
    exact ⟨[], rfl, rfl, by simpa using hm⟩
  | cons e es ih =>
    intro ds hds hfl hsp ps w rs w' hm h
    obtain ⟨k, v⟩ := e
    cases ds with
    | nil => simp at hds
    | cons d ds =>
      simp only [List.map_cons, List.cons.injEq] at hds
      obtain ⟨rfl, hds⟩ := hds
      have hno : (colEnv env sp).special c k (.dict d) = none := by
        simp only [colEnv]
        rw [if_neg]
        rintro ⟨h1, h2⟩
        rcases hsp d (by simp) with h3 | ⟨h3, h4⟩
        · exact h1 h3
        · simp [h3, h4] at h2
      simp only [colMapLoop, if_true, hno] at h
      obtain ⟨x, w1, h1, h2⟩ := bind_ok h
      rw [around_transform (instOps_noMarks env n) hit rfl rfl] at h1
      obtain ⟨_, w2, h3, h4⟩ := bind_ok h2
      have hw2 : w2 = w1 := by
        have := (conf_still (env := env) sp c w1) w1 rfl
        have h' := this.1
        rw [h3] at h'
        exact h'
      subst hw2
      obtain ⟨xs, w3, h5, h6⟩ := bind_ok h4
      have e1 := Except.ok.inj (Prod.mk.inj h6).1
      have e2 := (Prod.mk.inj h6).2
      subst e1 e2
      obtain ⟨o, rfl, hro⟩ := read_one (n := n) (st := st) R D hpk (c := c.colval (.dict d) k) (hfl d (by simp)) rfl rfl (fun s o ho => by
        obtain ⟨p, hp, -, rfl⟩ := (hm.look s o).1 ho
        exact (hm.ids p hp).2) h1
      obtain ⟨os, l1, l2, l3⟩ := ih ds hds (fun d' h' => hfl d' (by simp [h'])) (fun d' h' => hsp d' (by simp [h'])) _ _ _ _ (hm.step hro) h5
      refine ⟨o :: os, by simp [l1], by simp [l2], ?_⟩
      simpa using l3

/-- The objects `os` are what the dicts `ds` describe: one object for every key, and one for
every dict without a key; every object holds what its dicts give last. -/
structure ReadFrom (env : Env) (C : String) (ds : List (List (String × Val))) (os : List Nat) (w w' : World) : Prop where
  length : os.length = ds.length
  /-- the objects are new ones, of the class -/
  fresh : ∀ o ∈ os, w.next ≤ o ∧ (w'.heap o).cls = C
  /-- two dicts have one object exactly when they give the same key -/
  same : ∀ (a b : Nat) (d e : List (String × Val)) (o p : Nat), ds[a]? = some d → os[a]? = some o → ds[b]? = some e → os[b]? = some p →
    (o = p ↔ a = b ∨ ∃ s, keyText env C d = some s ∧ keyText env C e = some s)
  /-- every object holds what is given last for it, and defaults -/
  vals : ∀ (a : Nat) (d : List (String × Val)) (o : Nat), ds[a]? = some d → os[a]? = some o →
    ∀ f ∈ (env.cls C).fields, TakesAny f → StoredAs (merged env C ds d f) (w'.attr o f.name)

/-- **C72**, a list. -/
theorem list_merges (R : Relations env) (D : InputReady env) {n : Nat} {C : String} {st : Option Bool} (hpk : PlainKey env C) {ms item : List Mod}
    {nn : Bool} {sp : Special} (hch : Around ms (.listOf nn sp item)) (hit : Around item (.instOf C st)) {c : Ctx}
    {ds : List (List (String × Val))} (hcv : c.val = .list (ds.map .dict)) (hfl : ∀ d ∈ ds, GivesNoRelation env C d)
    (hsp : ∀ d ∈ ds, sp = .no ∨ dictGet d "_add" = none ∧ dictGet d "_del" = none) {w w' : World} {r : Val}
    (hmk : ∀ s, mLookup (C, .pk s) w.marks = none)
    (h : (chainOps (setParent env) (denL env (instOps env n) ms)).transform c w = (.ok r, w')) :
    ∃ os : List Nat, r = .list (os.map .obj) ∧ (∀ j, j < w.next → w'.heap j = w.heap j) ∧ w.next ≤ w'.next ∧ ReadFrom env C ds os w w' := by
  rw [around_transform (instOps_noMarks env n) hch rfl rfl] at h
  simp only [Mod.den, listOps, hcv] at h
  obtain ⟨rs, w1, h1, h2⟩ := bind_ok h
  have e1 := Except.ok.inj (Prod.mk.inj h2).1
  have e2 := (Prod.mk.inj h2).2
  subst e1 e2
  obtain ⟨os, l1, l2, l3⟩ := loop_merged R D hpk hit (enumVals 0 (ds.map .dict)) ds (by rw [enum_snd]) hfl hsp [] w rs w1 (Merged.start hmk) h1
  refine ⟨os, by unfold toListVal; rw [l2], l3.old, l3.next, ?_⟩
  simp only [List.nil_append] at l3
  have hz : ∀ (a : Nat) (d : List (String × Val)) (o : Nat), ds[a]? = some d → os[a]? = some o → (ds.zip os)[a]? = some (d, o) := by
    intro a d o h1 h2
    rw [List.getElem?_zip_eq_some]
    exact ⟨h1, h2⟩
  exact { length := l1
          fresh := fun o ho => by
            obtain ⟨a, ha⟩ := getElem?_of_mem' ho
            have hlt := (List.getElem?_eq_some_iff.1 ha).1
            obtain ⟨i1, -, i3⟩ := l3.ids _ (mem_of_at (hz a _ o (List.getElem?_eq_getElem (l1 ▸ hlt)) ha))
            exact ⟨i1, i3⟩
          same := fun a b d e o p h1 h2 h3 h4 => l3.same a b (d, o) (e, p) (hz a d o h1 h2) (hz b e p h3 h4)
          vals := fun a d o h1 h2 f hf ht => by
            have := l3.vals (d, o) (mem_of_at (hz a d o h1 h2)) f hf ht
            rwa [List.map_fst_zip (by omega)] at this }

/-! ### The API: one list of dicts for a field -/

theorem ReadFrom.heap {C : String} {ds : List (List (String × Val))} {os : List Nat} {w w' v v' : World} (h : ReadFrom env C ds os w w')
    (hn : v.next ≤ w.next) (hh : ∀ o ∈ os, v'.heap o = w'.heap o) : ReadFrom env C ds os v v' where
  length := h.length
  fresh := fun o ho => ⟨Nat.le_trans hn (h.fresh o ho).1, by rw [hh o ho]; exact (h.fresh o ho).2⟩
  same := h.same
  vals := fun a d o h1 h2 f hf ht => by
    have : v'.attr o f.name = w'.attr o f.name := by unfold World.attr; rw [hh o (mem_of_at h2)]
    rw [this]; exact h.vals a d o h1 h2 f hf ht

theorem objs_eq {os : List Nat} : ∀ {ys : List Val}, pyEqList (os.map .obj) ys = true → ys = os.map .obj := by
  induction os with
  | nil => intro ys h; cases ys <;> simp_all [pyEqList]
  | cons o os ih =>
    intro ys h
    cases ys with
    | nil => simp [pyEqList] at h
    | cons y ys =>
      simp only [List.map_cons, pyEqList, Bool.and_eq_true] at h
      obtain ⟨h1, h2⟩ := h
      rw [ih h2]
      cases y <;> simp_all [pyEq]

theorem same_objs {os : List Nat} {v : Val} (h : StoredAs (.list (os.map .obj)) v) : v = .list (os.map .obj) := by
  rcases h with h | h
  · exact h
  · cases v with
    | list ys => simp only [pyEq] at h; rw [objs_eq h]
    | _ => simp [pyEq] at h

/-- fields other than the list -/
theorem loop_others (R : Relations env) (D : InputReady env) {vis : Visitor} (hn : NoMarks vis) (hv : NoneStill vis) {c : Ctx} {dest : Nat}
    {soft : Bool} {cls : String} {kvs : List (String × Val)} {f : Field} (hf : f ∈ (env.cls cls).fields)
    (ho : ∀ g ∈ (env.cls cls).fields, g ≠ f → FlatIn g kvs) (fs : List Field) (hfs : ∀ g ∈ fs, g ∈ (env.cls cls).fields) (hnf : f ∉ fs) :
    ∀ {w w' : World}, (w.heap dest).cls = cls → transformFields env (Field.ops env vis) c dest soft kvs fs w = (.ok (), w') →
      Within dest (fun m => m = f.name) w w' := by
  induction fs with
  | nil => intro w w' _ h; cases h; exact Within.refl ..
  | cons g fs ih =>
    intro w w' hd h
    obtain ⟨_, w1, h1, h2⟩ := bind_ok h
    have hgm := hfs g (by simp)
    have hgf : g ≠ f := fun he => hnf (by simp [he])
    have b1 := within_field R D hn hv (ho g hgm hgf) hgm (S := fun m => m = f.name) (fun _ hnn => by
      have e1 := R.uniq cls g hgm
      rw [hnn, R.uniq cls f hf] at e1
      exact hgf (Option.some.inj e1).symm) hd h1
    exact b1.trans (ih (fun g' h' => hfs g' (by simp [h'])) (fun h' => hnf (by simp [h'])) (b1.cls.trans hd) h2)

/-- An embedded list of objects of class `C`. -/
structure ListField (f : Field) (C : String) : Prop where
  plain : f.isRef = false
  stored : f.store ≠ .calculated
  rule : f.writeRule = .unlimited
  chain : ∃ nn item st, Around f.chain (.listOf nn .no item) ∧ Around item (.instOf C st)

/-- What a list field of object `i` holds after a list of dicts is written to it. -/
def HoldsRead (env : Env) (C : String) (ds : List (List (String × Val))) (i : Nat) (f : Field) (w w' : World) : Prop :=
  ∃ os : List Nat, w'.attr i f.name = .list (os.map .obj) ∧ (∀ j, j < w.next → j ≠ i → w'.heap j = w.heap j) ∧ ReadFrom env C ds os w w'

theorem loop_list (R : Relations env) (D : InputReady env) {n : Nat} {c : Ctx} {dest : Nat} {soft : Bool} {cls C : String}
    {kvs : List (String × Val)} {f : Field} (hf : f ∈ (env.cls cls).fields) (hpk : PlainKey env C) (hlf : ListField f C)
    {ds : List (List (String × Val))} (hg : Gives f kvs) (hds : givenValue f kvs = .list (ds.map .dict))
    (hfl : ∀ d ∈ ds, GivesNoRelation env C d) (ho : ∀ g ∈ (env.cls cls).fields, g ≠ f → FlatIn g kvs) (fs : List Field)
    (hfs : ∀ g ∈ fs, g ∈ (env.cls cls).fields) (hnd : fs.Nodup) (hin : f ∈ fs) :
    ∀ {w w' : World}, (w.heap dest).cls = cls → dest < w.next → (∀ s, mLookup (C, .pk s) w.marks = none) →
      transformFields env (Field.ops env (instOps env n)) c dest soft kvs fs w = (.ok (), w') →
      HoldsRead env C ds dest f w w' ∧ (w'.heap dest).cls = cls := by
  induction fs with
  | nil => cases hin
  | cons g fs ih =>
    intro w w' hd hlt hmk h
    obtain ⟨_, w1, h1, h2⟩ := bind_ok h
    have hgm := hfs g (by simp)
    obtain ⟨hgn, hnd'⟩ := List.nodup_cons.1 hnd
    by_cases hgf : g = f
    · subst hgf
      obtain ⟨nn, item, st, hch, hit⟩ := hlf.chain
      have hcd : w.cdef env dest = env.cls cls := congrArg env.cls hd
      unfold transformField at h1
      rw [if_pos ((gives_iff g kvs).2 hg)] at h1
      unfold presentField at h1
      obtain ⟨cur, wa, h3, h4⟩ := bind_ok h1
      obtain ⟨rfl, -⟩ := readW_ok h3
      rw [if_pos (by unfold allowWrite; rw [hlf.rule])] at h4
      obtain ⟨ek, wb, h5, h6⟩ := bind_ok (get_bind_ok h4)
      obtain ⟨rfl, -⟩ := readW_ok h5
      obtain ⟨t, wc, h7, h8⟩ := bind_ok h6
      unfold Field.ops at h7
      obtain ⟨os, rfl, l1, l2, l3⟩ := list_merges R D hpk hch hit (by
        show getFieldValue g kvs = _
        rw [getFieldValue_eq]; exact hds) hfl (fun _ _ => .inl rfl) hmk h7
      unfold pyWhen at h8
      rw [if_pos (by simpa using hlf.stored)] at h8
      have hdc : (wc.heap dest).cls = cls := by rw [l1 dest hlt]; exact hd
      have hhas : HasField env wc dest g := by
        unfold HasField World.cdef
        rw [hdc]; exact R.uniq cls g hgm
      have hval := same_objs (plain_value R hhas hlf.plain h8)
      have b1 := within_plain R (S := fun _ => False) hhas hlf.plain id h8
      have b2 := loop_others R D (instOps_noMarks env n) (noneStill_instOps n) hgm ho fs (fun g' h' => hfs g' (by simp [h'])) hgn
        (b1.cls.trans hdc) h2
      refine ⟨⟨os, ?_, fun j hj hji => ?_, ?_⟩, b2.cls.trans (b1.cls.trans hdc)⟩
      · rw [b2.attrs _ rfl]; exact hval
      · rw [b2.others j hji, b1.others j hji, l1 j hj]
      · exact l3.heap (Nat.le_refl _) (fun o hom => by
          have := (l3.fresh o hom).1
          rw [b2.others o (by omega), b1.others o (by omega)])
    · have hin' : f ∈ fs := by
        rcases List.mem_cons.1 hin with h' | h'
        · exact absurd h'.symm hgf
        · exact h'
      have b1 := within_field R D (instOps_noMarks env n) (noneStill_instOps n) (ho g hgm hgf) hgm (S := fun _ => False) (fun _ h => h) hd h1
      obtain ⟨⟨os, q1, q2, q3⟩, q4⟩ := ih (fun g' h' => hfs g' (by simp [h'])) hnd' hin' (b1.cls.trans hd) (by rw [b1.next]; exact hlt)
        (by rw [b1.marks]; exact hmk) h2
      exact ⟨⟨os, q1, fun j hj hji => by rw [q2 j (by rw [b1.next]; exact hj) hji, b1.others j hji], q3.heap (Nat.le_of_eq b1.next.symm) (fun _ _ => rfl)⟩, q4⟩

theorem setDict_list (R : Relations env) (D : InputReady env) {n : Nat} {i : Nat} {cls C : String} {fill : Bool}
    {kvs : List (String × Val)} {f : Field} (hf : f ∈ (env.cls cls).fields) (hpk : PlainKey env C) (hlf : ListField f C)
    {ds : List (List (String × Val))} (hg : Gives f kvs) (hds : givenValue f kvs = .list (ds.map .dict))
    (hfl : ∀ d ∈ ds, GivesNoRelation env C d) (ho : ∀ g ∈ (env.cls cls).fields, g ≠ f → FlatIn g kvs)
    (hnd : ((env.cls cls).fields).Nodup) (hroot : cls ≠ C ∨ keyText env cls kvs = none) {w w' : World} (hd : (w.heap i).cls = cls)
    (hlt : i < w.next) (h : setDict (instOps env n) i kvs fill w = (.ok (), w')) : HoldsRead env C ds i f w w' := by
  unfold setDict at h
  have h := get_bind_ok h
  obtain ⟨r, w4, h7, h8⟩ := bind_ok h
  cases h8
  unfold withFreshMarks at h7
  rcases hr : (instOps env n (w.heap i).cls none).transform (rootCtx w i { fillBlanks := fill, allFields := some false } (.dict kvs))
    { w with marks := [] } with ⟨r', w5⟩
  rw [hr] at h7
  cases h7
  rw [hd] at hr
  cases n with
  | zero => cases hr
  | succ n =>
    simp only [instOps, instTransform, rootCtx] at hr
    obtain ⟨d, w6, h9, h10⟩ := bind_ok hr
    have hw6 : d = (i, false) ∧ w6.heap = w.heap ∧ w6.next = w.next ∧ ∀ s, mLookup (C, .pk s) w6.marks = none := by
      simp only [findDest] at h9
      obtain ⟨_, w7, h11, h12⟩ := bind_ok h9
      cases h12
      refine ⟨rfl, ?_⟩
      unfold pyWhen at h11
      split at h11
      · rename_i hkn
        have : w6 = World.markPutp env { w with marks := [] } (inputPk env cls kvs) i := (congrArg Prod.snd h11).symm
        rw [this]
        refine ⟨rfl, rfl, fun s => ?_⟩
        rcases hroot with hne | hk
        · simp [World.markPutp, mLookup, hd, hne]
        · rw [keyText_pk] at hk
          rw [show (inputPk env cls kvs).isNone = false from by simpa using hkn] at hk
          cases hk
      · cases h11; exact ⟨rfl, rfl, fun _ => rfl⟩
    obtain ⟨rfl, hh6, hn6, hm6⟩ := hw6
    obtain ⟨_, w8, h11, h12⟩ := bind_ok h10
    cases h12
    unfold applyDict at h11
    have h11 := get_bind_ok h11
    obtain ⟨_, w9, h13, h14⟩ := bind_ok h11
    have hw9 : w9 = w6 := by
      unfold pyWhen at h13
      split at h13
      · exact (readW_ok h13).1
      · cases h13; rfl
    subst hw9
    have c9 : (w9.heap i).cls = cls := by rw [hh6]; exact hd
    have hcd : w9.cdef env i = env.cls cls := congrArg env.cls c9
    simp only [hcd] at h14
    obtain ⟨_, w10, h15, h16⟩ := bind_ok h14
    obtain ⟨⟨os, q1, q2, q3⟩, q4⟩ := loop_list R D hf hpk hlf hg hds hfl ho _ (fun _ h => h) hnd hf c9 (by rw [hn6]; exact hlt) hm6 h15
    have b2 := lists_within R (dest := i) (((env.cls cls).fields).filter (fun f => !hasFieldValue f kvs && f.isRef && f.ftype = .list && f.collNonnull))
      (fun f hf => by
        obtain ⟨q1, q2⟩ := List.mem_filter.1 hf
        simp only [Bool.and_eq_true, decide_eq_true_eq] at q2
        exact ⟨q1, q2.1.2, q2.1.1.2⟩) q4 h16
    refine ⟨os, ?_, fun j hj hji => ?_, ?_⟩
    · show w5.attr i f.name = _
      rw [b2.attrs _ (plain_outside R hf hlf.plain)]; exact q1
    · show w5.heap j = _
      rw [b2.others j hji, q2 j (by rw [hn6]; exact hj) hji, hh6]
    · exact q3.heap (Nat.le_of_eq hn6.symm) (fun o hom => by
        show w5.heap o = _
        have := (q3.fresh o hom).1
        exact b2.others o (by omega))

/-- **C72**, `obj.set(items=[...])`. A list of dicts given for an embedded list of objects: the
list holds one object for every dict, in order; dicts that give the same primary key have the
same object, other dicts different ones; every object is new, and it holds for each plain field
what the last of its dicts that gives the field gives, or the default. -/
theorem set_list_merges (R : Relations env) (D : InputReady env) {n : Nat} {i : Nat} {C : String}
    {kvs : List (String × Val)} {f : Field} {w w' : World} (hi : i < w.next) (hf : f ∈ (env.cls (w.heap i).cls).fields) (hlf : ListField f C)
    (hpk : PlainKey env C) {ds : List (List (String × Val))} (hg : Gives f kvs) (hds : givenValue f kvs = .list (ds.map .dict))
    (hfl : ∀ d ∈ ds, GivesNoRelation env C d) (ho : ∀ g ∈ (env.cls (w.heap i).cls).fields, g ≠ f → FlatIn g kvs)
    (hnd : ((env.cls (w.heap i).cls).fields).Nodup) (hroot : (w.heap i).cls ≠ C ∨ keyText env (w.heap i).cls kvs = none)
    (h : apiSet env n i kvs w = (.ok (), w')) : HoldsRead env C ds i f w w' :=
  setDict_list R D hf hpk hlf hg hds hfl ho hnd hroot rfl hi h

/-- **C72**, `cls(items=[...])`. -/
theorem new_list_merges (R : Relations env) (D : InputReady env) {n : Nat} {i : Nat} {cls C : String}
    {kvs : List (String × Val)} {f : Field} {w w' : World} (hf : f ∈ (env.cls cls).fields) (hlf : ListField f C)
    (hpk : PlainKey env C) {ds : List (List (String × Val))} (hg : Gives f kvs) (hds : givenValue f kvs = .list (ds.map .dict))
    (hfl : ∀ d ∈ ds, GivesNoRelation env C d) (ho : ∀ g ∈ (env.cls cls).fields, g ≠ f → FlatIn g kvs)
    (hnd : ((env.cls cls).fields).Nodup) (hroot : cls ≠ C ∨ keyText env cls kvs = none)
    (h : apiNew env n cls kvs w = (.ok i, w')) : HoldsRead env C ds i f w w' := by
  unfold apiNew newObj at h
  split at h
  · cases h
  obtain ⟨j, w1, h1, h2⟩ := bind_ok h
  clear h
  have hj : w.next = j := Except.ok.inj (Prod.mk.inj h1).1
  have hw1 : (alloc env cls w).2 = w1 := (Prod.mk.inj h1).2
  subst hj
  obtain ⟨_, w2, h3, h4⟩ := bind_ok h2
  obtain ⟨_, w3, h5, h6⟩ := bind_ok h4
  have hw3 : (graphPutSelf env w.next w2).2 = w3 := congrArg Prod.snd h5
  obtain ⟨g1, -, -⟩ := graphPut_heap (env := env) w.next w2
  rw [hw3] at g1
  have e1 := (Prod.mk.inj h6).2
  have e2 := Except.ok.inj (Prod.mk.inj h6).1
  subst e1 e2
  have c1 : (w1.heap w.next).cls = cls := by rw [← hw1]; simp [alloc, freshObj]
  have o1 : ∀ j, j ≠ w.next → w1.heap j = w.heap j := by intro j hj; rw [← hw1]; simp [alloc, hj]
  have n1 : w1.next = w.next + 1 := by rw [← hw1]; rfl
  obtain ⟨os, q1, q2, q3⟩ := setDict_list R D hf hpk hlf hg hds hfl ho hnd hroot c1 (by omega) h3
  refine ⟨os, ?_, fun j hj hji => ?_, q3.heap (by omega) (fun o _ => by rw [g1])⟩
  · unfold World.attr at q1 ⊢; rw [g1]; exact q1
  · rw [g1, q2 j (by omega) hji, o1 j hji]

end JC

/-! ### The hypotheses can be met -/

namespace JC.MergeDemo

def fId : Field := { name := "id", jsonName := "id", chain := [.leaf Demo.optStr] }
def fTitle : Field := { name := "title", jsonName := "title", chain := [.leaf Demo.optStr] }
def fState : Field := { name := "state", jsonName := "state", default := some (.str "open"), chain := [.leaf Demo.optStr] }
def fItems : Field := { name := "items", jsonName := "items", ftype := .list, chain := [.listOf false .no [.instOf "Item" none]] }

def item : ClassDef := { name := "Item", primary := some "id", fields := [fId, fTitle, fState] }
def board : ClassDef := { name := "Board", fields := [fTitle, fItems] }

def env : Env where
  cls := fun n => if n = "Item" then item else if n = "Board" then board else {}
  pystr := fun v => match v with
    | .str s => s
    | _ => ""

theorem env_cases (c : String) : env.cls c = item ∨ env.cls c = board ∨ env.cls c = {} := by
  unfold env
  simp only
  split
  · exact .inl rfl
  · split
    · exact .inr (.inl rfl)
    · exact .inr (.inr rfl)

theorem field_cases {c : String} {f : Field} (h : f ∈ (env.cls c).fields) :
    env.cls c = item ∧ (f = fId ∨ f = fTitle ∨ f = fState) ∨ env.cls c = board ∧ (f = fTitle ∨ f = fItems) := by
  rcases env_cases c with hc | hc | hc <;> rw [hc] at h
  · simp only [item, List.mem_cons, List.not_mem_nil, or_false] at h
    exact .inl ⟨hc, h⟩
  · simp only [board, List.mem_cons, List.not_mem_nil, or_false] at h
    exact .inr ⟨hc, h⟩
  · cases h

theorem unpaired {g og : Field} (h : Paired env g og) : False := by
  obtain ⟨⟨c, hg⟩, -, hf⟩ := h
  rcases field_cases hg with ⟨-, rfl | rfl | rfl⟩ | ⟨-, rfl | rfl⟩ <;> cases hf

theorem no_localKey (c n : String) : (env.cls c).localKey? n = none := by
  rcases env_cases c with hc | hc | hc <;> rw [hc] <;>
    simp [ClassDef.localKey?, item, board, fId, fTitle, fState, fItems]

theorem relations : Relations env where
  opp := fun g og h => (unpaired h).elim
  uniq := by
    intro c f hf
    rcases field_cases hf with ⟨hc, rfl | rfl | rfl⟩ | ⟨hc, rfl | rfl⟩ <;> rw [hc] <;> rfl
  keys := by
    intro c n f g hl hf
    rw [no_localKey] at hl; cases hl
  keyUniq := by
    intro c f hf hs
    rcases field_cases hf with ⟨hc, rfl | rfl | rfl⟩ | ⟨hc, rfl | rfl⟩ <;> cases hs
  prim := fun c n _ => no_localKey c n

theorem ready : InputReady env where
  chains := by
    intro c f hf
    rcases field_cases hf with ⟨hc, rfl | rfl | rfl⟩ | ⟨hc, rfl | rfl⟩
    · exact .inl ⟨trivial, trivial⟩
    · exact .inl ⟨trivial, trivial⟩
    · exact .inl ⟨trivial, trivial⟩
    · exact .inl ⟨trivial, trivial⟩
    · exact .inr (.list (SymDemo.around_one _) (.inst (SymDemo.around_one _)))
  inst := fun g og h => (unpaired h).elim
  list := fun g og h => (unpaired h).elim
  default := fun g og h => (unpaired h).elim

/-- Four dicts: the first and the last have the key "a", the third has no key. -/
def dicts : List (List (String × Val)) :=
  [[("id", .str "a"), ("title", .str "one"), ("state", .str "done")], [("id", .str "b")], [("title", .str "x")], [("id", .str "a"), ("title", .str "two")]]

def args : List (String × Val) := [("items", .list (dicts.map .dict))]

def empty : World := { heap := fun _ => {} }
def made : World := (apiNew env 5 "Board" args empty).2
theorem made_run : apiNew env 5 "Board" args empty = (.ok 0, made) := SymDemo.okNew_eq (by decide +kernel)

theorem takes {f : Field} (h : f = fId ∨ f = fTitle ∨ f = fState) : TakesAny f := by
  rcases h with rfl | rfl | rfl <;> exact ⟨rfl, (by decide), rfl, fun m hm => by
    simp only [fId, fTitle, fState, List.mem_singleton] at hm; subst hm; exact fun _ _ => rfl⟩

theorem plain_key : PlainKey env "Item" := by
  intro n hn
  cases hn
  exact ⟨fId, by simp [env, item], rfl, takes (.inl rfl), rfl⟩

theorem flat : ∀ d ∈ dicts, GivesNoRelation env "Item" d := by
  intro d hd f hf
  rcases field_cases hf with ⟨hc, rfl | rfl | rfl⟩ | ⟨hc, -⟩
  · exact ⟨fun h => (by cases h), fun _ => .inr ⟨trivial, trivial⟩⟩
  · exact ⟨fun h => (by cases h), fun _ => .inr ⟨trivial, trivial⟩⟩
  · exact ⟨fun h => (by cases h), fun _ => .inr ⟨trivial, trivial⟩⟩
  · exact absurd (congrArg ClassDef.name hc) (by decide)

/-- `Board(items=[{id: a, title: one, state: done}, {id: b}, {title: x}, {id: a, title: two}])` has four items, the
first and the last being the same object, with the title "two" and the state "done"; the others
differ from it and from each other. -/
example : ∃ a b c : Nat, made.attr 0 "items" = .list [.obj a, .obj b, .obj c, .obj a] ∧ a ≠ b ∧ a ≠ c ∧ b ≠ c ∧
    StoredAs (.str "two") (made.attr a "title") ∧ StoredAs (.str "done") (made.attr a "state") ∧
    StoredAs (.str "open") (made.attr b "state") := by
  obtain ⟨os, h1, -, h3⟩ := new_list_merges (ds := dicts) (C := "Item") relations ready (f := fItems) (by simp [env, board])
    ⟨rfl, (by decide), rfl, _, _, _, SymDemo.around_one _, SymDemo.around_one _⟩ plain_key (.inl (by simp [args, fItems, dictGet])) rfl flat
    (fun g hg hne => by
      rcases field_cases hg with ⟨hc, -⟩ | ⟨-, rfl | rfl⟩
      · exact absurd (congrArg ClassDef.name hc) (by decide)
      · exact ⟨fun h => (by cases h), fun _ => .inr ⟨trivial, trivial⟩⟩
      · exact absurd rfl hne)
    (by simp [env, board, fTitle, fItems]) (.inl (by decide)) made_run
  have hl := h3.length
  match os, hl with
  | [a, b, c, a'], _ =>
    have e1 := (h3.same 0 3 _ _ _ _ rfl rfl rfl rfl).2 (.inr ⟨"a", rfl, rfl⟩)
    subst e1
    have ne : ∀ {d e : List (String × Val)}, (match keyText env "Item" d, keyText env "Item" e with
        | some s, some t => s ≠ t
        | _, _ => True) → ¬ ∃ s, keyText env "Item" d = some s ∧ keyText env "Item" e = some s := by
      rintro d e h ⟨s, hd, he⟩
      rw [hd, he] at h
      exact h rfl
    refine ⟨a, b, c, h1, ?_, ?_, ?_, ?_, ?_, ?_⟩
    · intro he
      rcases (h3.same 0 1 _ _ _ _ rfl rfl rfl rfl).1 he with h | h
      · cases h
      · exact ne (show "a" ≠ "b" by decide) h
    · intro he
      rcases (h3.same 0 2 _ _ _ _ rfl rfl rfl rfl).1 he with h | h
      · cases h
      · exact ne trivial h
    · intro he
      rcases (h3.same 1 2 _ _ _ _ rfl rfl rfl rfl).1 he with h | h
      · cases h
      · exact ne trivial h
    · exact h3.vals 0 _ _ rfl rfl fTitle (by simp [env, item]) (takes (.inr (.inl rfl)))
    · exact h3.vals 0 _ _ rfl rfl fState (by simp [env, item]) (takes (.inr (.inr rfl)))
    · exact h3.vals 1 _ _ rfl rfl fState (by simp [env, item]) (takes (.inr (.inr rfl)))

end JC.MergeDemo
