import Verif.Model.Fmtd
import Verif.Props.DateTime

/-
C81: formatted output of a date or datetime field shows the stored day and moment.
-/
namespace JC

variable {h : Heap} {c : Ctx} {p : Param} {fmt : String} {strftime : PyDateTime → String → Except Exc String}

/-- The output of the modifier `a` followed by the modifier `b`. -/
def outputs (a b : Leaf) (h : Heap) (c : Ctx) : Except Exc Val := do
  let j ← a.tojson h c
  b.tojson h (c.nval j)

/-- What formatting a moment gives. -/
def formatted (strftime : PyDateTime → String → Except Exc String) (d : PyDateTime) (fmt : String) : Except Exc Val :=
  (strftime d fmt).map .str

theorem applyFormat_const (d : PyDateTime) : applyFormat strftime (Param.const (.str fmt)) h c d = formatted strftime d fmt := by
  unfold applyFormat formatted Param.const
  simp only [Except.bind_ok_eq]
  cases strftime d fmt <;> rfl

theorem fmtd_str {s : String} {d : PyDateTime} (hp : parseDateTime (s.toList.filter (· != 'Z')) = .ok d) :
    (fmtdMod strftime (Param.const (.str fmt))).tojson h (c.nval (.str s)) = formatted strftime d fmt := by
  simp only [fmtdMod, Ctx.nval, hp, Except.bind_ok_eq]
  exact applyFormat_const d

/-- what `datetime` reads from a text is what the formatter reads -/
theorem parsed_of_transform {s : String} {d : PyDateTime} (ht : datetimeMod.transform h (c.nval (.str s)) = .ok (.dt d)) :
    parseDateTime (s.toList.filter (· != 'Z')) = .ok d := by
  simp only [datetimeMod, Ctx.nval] at ht
  cases hp : parseDateTime (s.toList.filter (· != 'Z')) with
  | error e =>
    rw [hp] at ht
    unfold valueToVexc at ht
    split at ht
    · cases ht
    · cases ht
  | ok r =>
    rw [hp] at ht
    cases ht
    rfl

/-- **C81**. `types.date.fmtd(fmt)` shows midnight of the stored date, for every valid date. -/
theorem date_formatted {d : PyDate} (hv : c.val = .date d) (hd : d.Valid) (fmt : String) :
    outputs dateMod (fmtdMod strftime (Param.const (.str fmt))) h c = formatted strftime (d.midnight true) fmt := by
  have hj : dateMod.tojson h c = .ok (.str (String.ofList (d.iso ++ "T00:00:00.000Z".toList))) := by simp [dateMod, hv]
  unfold outputs
  rw [hj]
  simp only [Except.bind_ok_eq]
  refine fmtd_str ?_
  have hd' : PyDateTime.Valid ⟨d.year, d.month, d.day, 0, 0, 0, 1, true⟩ := ⟨hd, Nat.zero_lt_succ _, Nat.zero_lt_succ _, Nat.zero_lt_succ _,
    (by decide : (1 : Nat) < 1000000)⟩
  have := parse_iso23 hd' (Nat.one_ne_zero)
  rw [String.toList_ofList]
  have e : (PyDateTime.iso ⟨d.year, d.month, d.day, 0, 0, 0, 1, true⟩).take 23 ++ ['Z'] = d.iso ++ "T00:00:00.000Z".toList := by
    unfold PyDateTime.iso
    rw [if_neg (show ¬ (1 : Nat) = 0 from Nat.one_ne_zero)]
    simp only [PyDateTime.date, PyDate.iso, pad2, pad3, pad4, pad6, List.cons_append, List.nil_append, List.take_succ_cons, List.take_zero]
    simp [digitChar]
  rw [e] at this
  rw [this]
  simp [truncMs, PyDate.midnight]

/-- **C81**. `types.datetime.fmtd(fmt)` shows the stored moment, to the millisecond and as UTC, unless it is an
aware datetime at a whole second. -/
theorem datetime_formatted_partial {d : PyDateTime} (hv : c.val = .dt d) (hd : d.Valid) (hm : d.micro ≠ 0 ∨ d.utc = false) (fmt : String) :
    outputs datetimeMod (fmtdMod strftime (Param.const (.str fmt))) h c = formatted strftime (truncMs d) fmt := by
  obtain ⟨j, h1, h2⟩ : ∃ j, datetimeMod.tojson h c = .ok j ∧ datetimeMod.transform h (c.nval j) = .ok (.dt (truncMs d)) := by
    rcases hm with hm | hm
    · exact datetime_roundtrip_partial hv hd hm
    · exact datetime_roundtrip_naive hv hd hm
  obtain ⟨s, rfl⟩ : ∃ s, j = .str s := by
    simp only [datetimeMod, hv] at h1
    cases h1
    exact ⟨_, rfl⟩
  unfold outputs
  rw [h1]
  simp only [Except.bind_ok_eq]
  exact fmtd_str (parsed_of_transform h2)

/-- **C81** violated: the output of an aware datetime at a whole second raises, whatever the format. -/
theorem datetime_whole_second_raises {d : PyDateTime} (hv : c.val = .dt d) (hd : d.Valid) (hu : d.utc = true) (hm : d.micro = 0) (p : Param) :
    ∃ e, outputs datetimeMod (fmtdMod strftime p) h c = .error e := by
  obtain ⟨j, m, h1, h2⟩ := datetime_whole_second_lost hv hd hu hm (h := h)
  obtain ⟨s, rfl⟩ : ∃ s, j = .str s := by
    simp only [datetimeMod, hv] at h1
    cases h1
    exact ⟨_, rfl⟩
  unfold outputs
  rw [h1]
  simp only [Except.bind_ok_eq, fmtdMod, Ctx.nval]
  cases hp : parseDateTime (s.toList.filter (· != 'Z')) with
  | error e => exact ⟨e, rfl⟩
  | ok r =>
    simp only [datetimeMod, Ctx.nval, hp, valueToVexc] at h2
    cases h2

/-- **C81**. In a field of no date type (`types.any.fmtd(fmt)`) the stored date or datetime is formatted as it
is, other values but texts are left alone. -/
theorem plain_formatted (fmt : String) :
    (∀ d, c.val = .dt d → (fmtdMod strftime (Param.const (.str fmt))).tojson h c = formatted strftime d fmt) ∧
    (∀ d, c.val = .date d → (fmtdMod strftime (Param.const (.str fmt))).tojson h c = formatted strftime (d.midnight false) fmt) ∧
    ((∀ d, c.val ≠ .dt d) → (∀ d, c.val ≠ .date d) → (∀ s, c.val ≠ .str s) → (fmtdMod strftime (Param.const (.str fmt))).tojson h c = .ok c.val) := by
  refine ⟨fun d hv => ?_, fun d hv => ?_, fun h1 h2 h3 => ?_⟩
  · simp only [fmtdMod, hv]; exact applyFormat_const d
  · simp only [fmtdMod, hv]; exact applyFormat_const _
  · cases hc : c.val <;> simp_all [fmtdMod]

/-- **C81** violated: with the formatter before the type (`types.fmtd(fmt).date`) every output of a date or
datetime raises. -/
theorem formatter_first_raises (hv : (∃ d, c.val = .dt d) ∨ ∃ d, c.val = .date d) (fmt : String) :
    (∃ e, outputs (fmtdMod strftime (Param.const (.str fmt))) dateMod h c = .error e) ∧
    ∃ e, outputs (fmtdMod strftime (Param.const (.str fmt))) datetimeMod h c = .error e := by
  have key : ∀ d, (fmtdMod strftime (Param.const (.str fmt))).tojson h c = formatted strftime d fmt →
      (∃ e, outputs (fmtdMod strftime (Param.const (.str fmt))) dateMod h c = .error e) ∧
      ∃ e, outputs (fmtdMod strftime (Param.const (.str fmt))) datetimeMod h c = .error e := by
    intro d hd
    unfold outputs
    rw [hd]
    unfold formatted
    cases strftime d fmt with
    | error e => exact ⟨⟨e, rfl⟩, e, rfl⟩
    | ok s => exact ⟨⟨.attributeError, rfl⟩, .attributeError, rfl⟩
  rcases hv with ⟨d, hv⟩ | ⟨d, hv⟩
  · exact key d ((plain_formatted fmt).1 d hv)
  · exact key _ ((plain_formatted fmt).2.1 d hv)

/-! ### The hypotheses are met -/

/-- a formatter that shows day, month and hour -/
def dayHour : PyDateTime → String → Except Exc String := fun d f =>
  if f = "%d/%m %H" then .ok (String.ofList (pad2 d.day ++ '/' :: (pad2 d.month ++ ' ' :: pad2 d.hour))) else .error .valueError

example (h : Heap) (c : Ctx) := date_formatted (strftime := dayHour) (h := h) (c := c.nval (.date ⟨2024, 2, 29⟩)) rfl
  ⟨by decide, by decide, by decide, by decide, by decide, by decide⟩ "%d/%m %H"
example (h : Heap) (c : Ctx) : outputs datetimeMod (fmtdMod dayHour (Param.const (.str "%d/%m %H"))) h (c.nval (.dt ⟨2024, 2, 29, 12, 30, 15, 1500, true⟩)) =
    .ok (.str "29/02 12") :=
  (datetime_formatted_partial (d := ⟨2024, 2, 29, 12, 30, 15, 1500, true⟩) rfl ⟨⟨by decide, by decide, by decide, by decide, by decide, by decide⟩, by decide, by decide,
    by decide, by decide⟩ (.inl (by decide)) _).trans rfl
example (h : Heap) (c : Ctx) := datetime_whole_second_raises (strftime := dayHour) (h := h) (c := c.nval (.dt ⟨2024, 2, 29, 12, 30, 15, 0, true⟩)) rfl
  ⟨⟨by decide, by decide, by decide, by decide, by decide, by decide⟩, by decide, by decide, by decide, by decide⟩ rfl rfl (Param.const (.str "%d"))

end JC
