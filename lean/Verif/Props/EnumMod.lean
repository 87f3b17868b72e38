import Verif.Model.EnumMod
import Verif.Props.Numbers

/-
C17: enum fields.
-/
namespace JC
variable {h : Heap} {c : Ctx} {up low : String → String} {e : EnumDef} {i : EnumIn} {o : EnumOut}

/-! ### Specification -/

/-- an enum: every name once, every value once, no value None -/
structure EnumDef.Wf (e : EnumDef) : Prop where
  names : ∀ p ∈ e.members, ∀ q ∈ e.members, p.1 = q.1 → p = q
  values : ∀ p ∈ e.members, ∀ q ∈ e.members, pyEq p.2 q.2 = true → p = q
  refl : ∀ p ∈ e.members, pyEq p.2 p.2 = true
  notNone : ∀ p ∈ e.members, p.2 ≠ .none

/-- `v` in one of the accepted forms denotes the member named `m`. -/
inductive Denotes (up : String → String) (e : EnumDef) (i : EnumIn) : Val → String → Prop
  | self (m : String) : Denotes up e i (.enum e.name m) m
  | name (m : String) (x : Val) : i.name = true → (m, x) ∈ e.members → Denotes up e i (.str m) m
  | value (v x : Val) (m : String) : i.value = true → (m, x) ∈ e.members → pyEq x v = true → Denotes up e i v m
  | lname (s : String) (x : Val) : i.lname = true → (up s, x) ∈ e.members → Denotes up e i (.str s) (up s)

/-- the JSON text of a member -/
inductive Shown (low : String → String) (e : EnumDef) : EnumOut → String → Val → Prop
  | name (m : String) : Shown low e .name m (.str m)
  | lname (m : String) : Shown low e .lname m (.str (low m))
  | value (m : String) (x : Val) : (m, x) ∈ e.members → Shown low e .value m x

/-! ### lookups -/

theorem Val.isNone_false {v : Val} (hv : v ≠ .none) : v.isNone = false := by
  cases v <;> first | rfl | exact absurd rfl hv


theorem byName_some {n : String} {r : Val} (hb : e.byName n = some r) : ∃ x, (n, x) ∈ e.members ∧ r = .enum e.name n := by
  unfold EnumDef.byName at hb
  cases hf : e.members.find? (fun m => m.1 == n) with
  | none => rw [hf] at hb; cases hb
  | some p =>
    rw [hf] at hb
    have h1 := List.mem_of_find?_eq_some hf
    have h2 : p.1 = n := by simpa using List.find?_some hf
    subst h2
    exact ⟨p.2, h1, (Option.some.inj hb).symm⟩

theorem byName_none {n : String} (hb : e.byName n = none) (x : Val) : (n, x) ∉ e.members := by
  intro hm
  simp only [EnumDef.byName, Option.map_eq_none_iff, List.find?_eq_none] at hb
  exact absurd (hb _ hm) (by simp)

theorem byName_mem {n : String} {x : Val} (hm : (n, x) ∈ e.members) : e.byName n = some (.enum e.name n) := by
  cases hb : e.byName n with
  | none => exact absurd hm (byName_none hb x)
  | some r => obtain ⟨_, _, rfl⟩ := byName_some hb; rfl

theorem byValue_some {v r : Val} (hb : e.byValue v = some r) :
    ∃ m x, (m, x) ∈ e.members ∧ pyEq x v = true ∧ r = .enum e.name m := by
  unfold EnumDef.byValue at hb
  cases hf : e.members.find? (fun m => pyEq m.2 v) with
  | none => rw [hf] at hb; cases hb
  | some p =>
    rw [hf] at hb
    have h2 := List.find?_some hf
    exact ⟨p.1, p.2, List.mem_of_find?_eq_some hf, h2, (Option.some.inj hb).symm⟩

theorem byValue_none {v : Val} (hb : e.byValue v = none) : ∀ p ∈ e.members, pyEq p.2 v = false := by
  intro p hp
  simp only [EnumDef.byValue, Option.map_eq_none_iff, List.find?_eq_none] at hb
  simpa using hb p hp

theorem byValue_mem (hw : e.Wf) {m : String} {x : Val} (hm : (m, x) ∈ e.members) : e.byValue x = some (.enum e.name m) := by
  cases hb : e.byValue x with
  | none => exact absurd (hw.refl _ hm) (by simp [byValue_none hb _ hm])
  | some r =>
    obtain ⟨m', x', h1, h2, rfl⟩ := byValue_some hb
    cases hw.values _ h1 _ hm h2; rfl

/-! ### C17 -/

/-- **C17**: whatever input is accepted denotes the resulting member; the only other
result is None. -/
theorem enum_transform_sound {r : Val} (ht : (enumMod up low e i o).transform h c = .ok r) :
    r = .none ∨ ∃ m, r = .enum e.name m ∧ Denotes up e i c.val m := by
  simp only [enumMod, enumTransform] at ht
  split at ht
  · exact .inl (Except.ok.inj ht).symm
  split at ht
  · next hm =>
    right
    cases hv : c.val <;> rw [hv] at hm <;> try (cases hm; done)
    next k m =>
      rw [hv] at ht
      have : k = e.name := by simpa [EnumDef.isMember] using hm
      subst this
      exact ⟨m, (Except.ok.inj ht).symm, .self m⟩
  split at ht
  · next hi =>
    cases hb : e.byValue c.val with
    | none => rw [hb] at ht; exact .inl (Except.ok.inj ht).symm
    | some v =>
      rw [hb] at ht
      obtain ⟨m, x, h1, h2, rfl⟩ := byValue_some hb
      exact .inr ⟨m, (Except.ok.inj ht).symm, .value _ x m hi h1 h2⟩
  · split at ht
    · next s hv =>
      right
      rw [hv]
      cases hn : (if i.name then e.byName s else none) with
      | some v =>
        rw [hn] at ht
        split at hn
        · next hi =>
          obtain ⟨x, h1, rfl⟩ := byName_some hn
          exact ⟨s, (Except.ok.inj ht).symm, .name s x hi h1⟩
        · cases hn
      | none =>
        rw [hn] at ht
        cases hl : (if i.lname then e.byName (up s) else none) with
        | some v =>
          rw [hl] at ht
          split at hl
          · next hi =>
            obtain ⟨x, h1, rfl⟩ := byName_some hl
            exact ⟨up s, (Except.ok.inj ht).symm, .lname s x hi h1⟩
          · cases hl
        | none => rw [hl] at ht; cases ht
    · cases ht

/-- C17 on the full domain: input in none of the accepted forms is a validation error, and
input in an accepted form is accepted. -/
def EnumInputDecided : Prop := ∀ (up low : String → String) (e : EnumDef) (i : EnumIn) (o : EnumOut) (h : Heap) (c : Ctx),
  c.val ≠ .none →
    ((∃ m, Denotes up e i c.val m) → ∃ m, (enumMod up low e i o).transform h c = .ok (.enum e.name m)) ∧
    ((¬ ∃ m, Denotes up e i c.val m) → ∃ msg, (enumMod up low e i o).transform h c = .error (c.vexc msg))

/-- **C17** for fields that do not accept values. -/
theorem enum_input_decided_partial (hi : i.value = false) (hv : c.val ≠ .none) :
    ((∃ m, Denotes up e i c.val m) → ∃ m, (enumMod up low e i o).transform h c = .ok (.enum e.name m)) ∧
    ((¬ ∃ m, Denotes up e i c.val m) → ∃ msg, (enumMod up low e i o).transform h c = .error (c.vexc msg)) := by
  have hn : c.val.isNone = false := Val.isNone_false hv
  have key : (∃ m, (enumMod up low e i o).transform h c = .ok (.enum e.name m)) ∨
      ((enumMod up low e i o).transform h c = .error (c.vexc "unknown enum value") ∧ ¬ ∃ m, Denotes up e i c.val m) := by
    simp only [enumMod, enumTransform, hn, Bool.false_eq_true, if_false, hi]
    by_cases hm : e.isMember c.val = true
    · rw [if_pos hm]
      cases hv : c.val <;> rw [hv] at hm <;> try (cases hm; done)
      next k m =>
        have : k = e.name := by simpa [EnumDef.isMember] using hm
        subst this
        exact .inl ⟨m, rfl⟩
    · rw [if_neg hm]
      cases hcv : c.val with
      | str s =>
        simp only
        cases h1 : (if i.name then e.byName s else none) with
        | some v =>
          split at h1
          · obtain ⟨x, h1, rfl⟩ := byName_some h1
            exact .inl ⟨s, rfl⟩
          · cases h1
        | none =>
          cases h2 : (if i.lname then e.byName (up s) else none) with
          | some v =>
            split at h2
            · obtain ⟨x, h1, rfl⟩ := byName_some h2
              exact .inl ⟨up s, rfl⟩
            · cases h2
          | none =>
            refine .inr ⟨rfl, ?_⟩
            rintro ⟨m, hd⟩
            cases hd with
            | name _ x hin hmem => rw [if_pos hin] at h1; exact byName_none h1 x hmem
            | value _ x _ hval => rw [hi] at hval; cases hval
            | lname _ x hin hmem => rw [if_pos hin] at h2; exact byName_none h2 x hmem
      | _ =>
        refine .inr ⟨rfl, ?_⟩
        rintro ⟨m, hd⟩
        cases hd <;> first
          | (next hval _ _ => rw [hi] at hval; cases hval)
          | (rw [hcv] at hm; simp [EnumDef.isMember] at hm)
  rcases key with ⟨m, hk⟩ | ⟨hk, hno⟩
  · refine ⟨fun _ => ⟨m, hk⟩, fun hno => ?_⟩
    rcases enum_transform_sound hk with hr | ⟨m', hr, hd⟩
    · cases hr
    · exact absurd ⟨m', hd⟩ hno
  · exact ⟨fun hd => absurd hd hno, fun _ => ⟨_, hk⟩⟩

/-- **C17** violated: as soon as values are accepted, input without such a value becomes
None silently, even the name of a member whose name is an accepted form. -/
theorem enum_value_form_silent (hi : i.value = true) (hm : e.isMember c.val = false)
    (hno : ∀ p ∈ e.members, pyEq p.2 c.val = false) :
    (enumMod up low e i o).transform h c = .ok .none := by
  simp only [enumMod, enumTransform, hm, hi, if_true, Bool.false_eq_true, if_false]
  cases hb : e.byValue c.val with
  | none => simp [orElseTry]
  | some r =>
    obtain ⟨m, x, h1, h2, _⟩ := byValue_some hb
    rw [hno _ h1] at h2; cases h2

/-- an enum -/
def demoEnum : EnumDef := ⟨"Gender", [("MALE", .int 1), ("FEMALE", .int 2), ("Other", .int 3)]⟩

theorem demoEnum_wf : demoEnum.Wf := by
  constructor <;> simp [demoEnum, pyEq]

/-- With `inputall` the name "MALE", an accepted form, is read as None. -/
theorem enum_inputall_loses_name :
    Denotes id demoEnum ⟨true, true, true⟩ (.str "MALE") "MALE" ∧
    (enumMod id id demoEnum ⟨true, true, true⟩ .name).transform (fun _ => {}) { val := .str "MALE" } = .ok .none :=
  ⟨.name "MALE" (.int 1) rfl (by simp [demoEnum]), rfl⟩

theorem enum_input_decided_false : ¬ EnumInputDecided := by
  intro hall
  have := (hall id id demoEnum ⟨true, true, true⟩ .name (fun _ => {}) { val := .str "MALE" } (by intro hh; cases hh)).1
    ⟨_, enum_inputall_loses_name.1⟩
  obtain ⟨m, hm⟩ := this
  rw [enum_inputall_loses_name.2] at hm; cases hm

/-- `tojson` shows a member in the chosen form. -/
theorem enum_tojson_shown (hw : e.Wf) {m : String} {x : Val} (hm : (m, x) ∈ e.members) (hv : c.val = .enum e.name m) :
    ∃ j, (enumMod up low e i o).tojson h c = .ok j ∧ Shown low e o m j := by
  simp only [enumMod, enumTojson, hv, if_true]
  cases o with
  | name => exact ⟨_, rfl, .name m⟩
  | lname => exact ⟨_, rfl, .lname m⟩
  | value =>
    cases hf : e.members.find? (fun p => p.1 == m) with
    | none => exact absurd (List.find?_eq_none.1 hf _ hm) (by simp)
    | some p =>
      have h1 := List.mem_of_find?_eq_some hf
      have h2 : p.1 = m := by simpa using List.find?_some hf
      cases hw.names _ h1 _ hm h2
      exact ⟨x, rfl, .value m x h1⟩

/-- **C17**: name output, name input (values not accepted). -/
theorem enum_name_roundtrip (hw : e.Wf) (hin : i.name = true) (hiv : i.value = false) {m : String} {x : Val}
    (hm : (m, x) ∈ e.members) (hv : c.val = .enum e.name m) :
    ∃ j, (enumMod up low e i .name).tojson h c = .ok j ∧
      (enumMod up low e i .name).transform h (c.nval j) = .ok (.enum e.name m) := by
  obtain ⟨j, h1, h2⟩ := enum_tojson_shown (h := h) (up := up) (low := low) (i := i) (o := .name) hw hm hv
  cases h2
  refine ⟨_, h1, ?_⟩
  simp [enumMod, enumTransform, Ctx.nval, Val.isNone, EnumDef.isMember, hiv, hin, byName_mem hm, orElseTry]

/-- **C17**: value output, value input. -/
theorem enum_value_roundtrip (hw : e.Wf) (hiv : i.value = true) {m : String} {x : Val}
    (hm : (m, x) ∈ e.members) (hv : c.val = .enum e.name m) (hx : e.isMember x = false) :
    ∃ j, (enumMod up low e i .value).tojson h c = .ok j ∧
      (enumMod up low e i .value).transform h (c.nval j) = .ok (.enum e.name m) := by
  obtain ⟨j, h1, h2⟩ := enum_tojson_shown (h := h) (up := up) (low := low) (i := i) (o := .value) hw hm hv
  cases h2 with
  | value _ x' hm' =>
    cases hw.names _ hm' _ hm rfl
    refine ⟨_, h1, ?_⟩
    have hn : x.isNone = false := by
      cases hx : x.isNone with
      | true => exact absurd ((Val.isNone_iff x).1 hx) (hw.notNone _ hm)
      | false => rfl
    simp [enumMod, enumTransform, Ctx.nval, hn, hx, hiv, byValue_mem hw hm, orElseTry]

/-- **C17**: lowercase name output and input, for members whose name is the upper case of
its lower case; if plain names are accepted too, the lower case name must not itself name
a member. -/
theorem enum_lname_roundtrip (hw : e.Wf) (hil : i.lname = true) (hiv : i.value = false) {m : String} {x : Val}
    (hm : (m, x) ∈ e.members) (hv : c.val = .enum e.name m) (hup : up (low m) = m)
    (hno : i.name = true → low m ≠ m → ∀ y, (low m, y) ∉ e.members) :
    ∃ j, (enumMod up low e i .lname).tojson h c = .ok j ∧
      (enumMod up low e i .lname).transform h (c.nval j) = .ok (.enum e.name m) := by
  obtain ⟨j, h1, h2⟩ := enum_tojson_shown (h := h) (up := up) (low := low) (i := i) (o := .lname) hw hm hv
  cases h2
  refine ⟨_, h1, ?_⟩
  simp only [enumMod, enumTransform, Ctx.nval, Val.isNone, EnumDef.isMember, hiv, hil, Bool.false_eq_true, if_false, if_true, hup,
    byName_mem hm]
  cases hin : (if i.name then e.byName (low m) else none) with
  | none => simp [orElseTry]
  | some r =>
    split at hin
    · next hi =>
      obtain ⟨y, hy, rfl⟩ := byName_some hin
      by_cases he : low m = m
      · rw [he]; rfl
      · exact absurd hy (hno hi he y)
    · cases hin

/-- **C17** violated for lowercase names of members that are not in upper case: whenever
the upper case of the shown text is not a member, the round trip is a validation error. -/
theorem enum_lname_mixed_case_lost (hil : i.name = false) (hiv : i.value = false) {m : String}
    (hv : c.val = .enum e.name m) (hno : ∀ y, (up (low m), y) ∉ e.members) :
    ∃ j msg, (enumMod up low e i .lname).tojson h c = .ok j ∧
      (enumMod up low e i .lname).transform h (c.nval j) = .error (c.vexc msg) := by
  refine ⟨.str (low m), "unknown enum value", by simp [enumMod, enumTojson, hv], ?_⟩
  have hb : e.byName (up (low m)) = none := by
    cases hb : e.byName (up (low m)) with
    | none => rfl
    | some r => obtain ⟨x, hx, _⟩ := byName_some hb; exact absurd hx (hno x)
  simp [enumMod, enumTransform, Ctx.nval, Val.isNone, EnumDef.isMember, hiv, hil, hb, orElseTry]
  rfl

/-- **C17**: `validate` accepts exactly None and the members. -/
theorem enum_validate_decides : Decides (enumMod up low e i o) h c (c.val = .none ∨ ∃ m, c.val = .enum e.name m) := by
  by_cases hn : c.val = .none
  · refine ⟨fun _ => by simp [enumMod, hn, Val.isNone], fun hh => absurd (.inl hn) hh⟩
  · apply Decides.of_reject (b := !(e.isMember c.val)) (msg := "invalid enum value")
    · have : c.val.isNone = false := Val.isNone_false hn
      simp [enumMod, this]
    · cases hv : c.val <;> simp_all [EnumDef.isMember]

/-- The forms of a field: those of its marks, and the plain name exactly when `enum` comes
before all of them (or `inputname`/`inputall` is given). -/
theorem enum_forms_spec (ms : List EnumMark) (hm : EnumMark.enum ∈ ms) :
    ∃ f, enumForms ms = some f ∧
      (f.name = true ↔ (.inputname ∈ ms ∨ .inputall ∈ ms ∨ ms.head? = some .enum)) ∧
      (f.value = true ↔ (.inputvalue ∈ ms ∨ .inputall ∈ ms)) ∧
      (f.lname = true ↔ (.inputlname ∈ ms ∨ .inputall ∈ ms)) := by
  have gen : ∀ (ms : List EnumMark) (f : EnumIn), ∃ g, ms.foldl (fun f m => m.define f) (some f) = some g ∧
      (g.name = true ↔ (f.name = true ∨ .inputname ∈ ms ∨ .inputall ∈ ms)) ∧
      (g.value = true ↔ (f.value = true ∨ .inputvalue ∈ ms ∨ .inputall ∈ ms)) ∧
      (g.lname = true ↔ (f.lname = true ∨ .inputlname ∈ ms ∨ .inputall ∈ ms)) := by
    intro ms
    induction ms with
    | nil => intro f; exact ⟨f, rfl, by simp, by simp, by simp⟩
    | cons m ms ih =>
      intro f
      cases m <;> simp only [List.foldl_cons, EnumMark.define, addForm]
      · obtain ⟨g, h1, h2, h3, h4⟩ := ih f
        exact ⟨g, h1, by rw [h2]; simp, by rw [h3]; simp, by rw [h4]; simp⟩
      all_goals
        obtain ⟨g, h1, h2, h3, h4⟩ := ih _
        refine ⟨g, h1, ?_, ?_, ?_⟩
        · rw [h2]; simp [EnumIn.or]
        · rw [h3]; simp [EnumIn.or]
        · rw [h4]; simp [EnumIn.or]
  cases ms with
  | nil => cases hm
  | cons m ms =>
    unfold enumForms
    cases m <;> simp only [List.foldl_cons, EnumMark.define, addForm]
    all_goals
      obtain ⟨g, h1, h2, h3, h4⟩ := gen ms _
      refine ⟨g, h1, ?_, ?_, ?_⟩
      · rw [h2]; simp
      · rw [h3]; simp
      · rw [h4]; simp

/-- upper and lower case on ASCII, for the examples -/
def upA (s : String) : String := String.ofList (s.toList.map Char.toUpper)
/-- see `upA` -/
def lowA (s : String) : String := String.ofList (s.toList.map Char.toLower)

example : ∃ j, (enumMod id id demoEnum ⟨true, false, false⟩ .name).tojson (fun _ => {}) { val := .enum "Gender" "FEMALE" } = .ok j ∧
    (enumMod id id demoEnum ⟨true, false, false⟩ .name).transform (fun _ => {}) { val := j } = .ok (.enum "Gender" "FEMALE") :=
  enum_name_roundtrip (c := { val := .enum "Gender" "FEMALE" }) demoEnum_wf rfl rfl (x := .int 2) (by simp [demoEnum]) rfl
example : ∃ j, (enumMod id id demoEnum ⟨true, true, false⟩ .value).tojson (fun _ => {}) { val := .enum "Gender" "Other" } = .ok j ∧
    (enumMod id id demoEnum ⟨true, true, false⟩ .value).transform (fun _ => {}) { val := j } = .ok (.enum "Gender" "Other") :=
  enum_value_roundtrip (c := { val := .enum "Gender" "Other" }) demoEnum_wf rfl (x := .int 3) (by simp [demoEnum]) rfl rfl
example : ∃ j, (enumMod upA lowA demoEnum ⟨false, false, true⟩ .lname).tojson (fun _ => {}) { val := .enum "Gender" "MALE" } = .ok j ∧
    (enumMod upA lowA demoEnum ⟨false, false, true⟩ .lname).transform (fun _ => {}) { val := j } = .ok (.enum "Gender" "MALE") :=
  enum_lname_roundtrip (c := { val := .enum "Gender" "MALE" }) demoEnum_wf rfl rfl (x := .int 1) (by simp [demoEnum]) rfl
    (by decide) (by intro hh; cases hh)
example : ∃ j msg, (enumMod upA lowA demoEnum ⟨false, false, true⟩ .lname).tojson (fun _ => {}) { val := .enum "Gender" "Other" } = .ok j ∧
    (enumMod upA lowA demoEnum ⟨false, false, true⟩ .lname).transform (fun _ => {}) { val := j } =
      .error (Ctx.vexc { val := .enum "Gender" "Other" } msg) :=
  enum_lname_mixed_case_lost (c := { val := .enum "Gender" "Other" }) rfl rfl rfl (by
    have : upA (lowA "Other") = "OTHER" := by decide
    rw [this]; simp [demoEnum])
example : (∃ m, Denotes id demoEnum ⟨true, false, false⟩ (.str "nobody") m) = False := by
  simp only [eq_iff_iff, iff_false]
  rintro ⟨m, hd⟩
  cases hd with
  | name _ x _ hm => simp [demoEnum] at hm
  | value _ x _ hv => cases hv
  | lname _ x hl => cases hl

end JC
