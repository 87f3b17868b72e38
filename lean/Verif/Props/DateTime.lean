import Verif.Model.DateTime
import Verif.Props.Numbers

/-
C14 (beginning-of-period and next-period transforms), C15 and C16 (JSON round trips of
dates and datetimes), C51 (before and after).
-/
namespace JC

/-! ### Specification -/

/-- A date of the Gregorian calendar, years 1 to 9999. -/
def PyDate.Valid (d : PyDate) : Prop :=
  1 ≤ d.year ∧ d.year ≤ 9999 ∧ 1 ≤ d.month ∧ d.month ≤ 12 ∧ 1 ≤ d.day ∧
  d.day ≤ (if d.month = 2 then (if d.year % 4 = 0 ∧ (d.year % 100 ≠ 0 ∨ d.year % 400 = 0) then 29 else 28)
    else if d.month ∈ [4, 6, 9, 11] then 30 else 31)

/-- A valid datetime. -/
def PyDateTime.Valid (d : PyDateTime) : Prop :=
  PyDate.Valid ⟨d.year, d.month, d.day⟩ ∧ d.hour < 24 ∧ d.minute < 60 ∧ d.second < 60 ∧ d.micro < 1000000

/-- `a` is earlier than `b` (both naive or both UTC). -/
def Earlier (a b : PyDateTime) : Prop :=
  a.year < b.year ∨ a.year = b.year ∧ (a.month < b.month ∨ a.month = b.month ∧ (a.day < b.day ∨ a.day = b.day ∧
  (a.hour < b.hour ∨ a.hour = b.hour ∧ (a.minute < b.minute ∨ a.minute = b.minute ∧
  (a.second < b.second ∨ a.second = b.second ∧ a.micro < b.micro)))))

/-- Periods. -/
inductive Period where
  | sec | min | hour | day | mon | year

/-- The instant is the start of a period. -/
def Period.Starts : Period → PyDateTime → Prop
  | .sec, d => d.micro = 0
  | .min, d => d.micro = 0 ∧ d.second = 0
  | .hour, d => d.micro = 0 ∧ d.second = 0 ∧ d.minute = 0
  | .day, d => d.micro = 0 ∧ d.second = 0 ∧ d.minute = 0 ∧ d.hour = 0
  | .mon, d => d.micro = 0 ∧ d.second = 0 ∧ d.minute = 0 ∧ d.hour = 0 ∧ d.day = 1
  | .year, d => d.micro = 0 ∧ d.second = 0 ∧ d.minute = 0 ∧ d.hour = 0 ∧ d.day = 1 ∧ d.month = 1

/-- the modifier that goes to the beginning of the period -/
def Period.tobo : Period → Leaf
  | .sec => tobosecMod | .min => tobominMod | .hour => tobohourMod
  | .day => tobodayMod | .mon => tobomonMod | .year => toboyearMod
/-- the modifier that goes to the next period -/
def Period.tonext : Period → Leaf
  | .sec => tonextsecMod | .min => tonextminMod | .hour => tonexthourMod
  | .day => tonextdayMod | .mon => tonextmonMod | .year => tonextyearMod

/-! ### The calendar -/

theorem daysIn_spec (y m : Nat) : daysIn y m =
    (if m = 2 then (if y % 4 = 0 ∧ (y % 100 ≠ 0 ∨ y % 400 = 0) then 29 else 28)
    else if m ∈ [4, 6, 9, 11] then 30 else 31) := by
  simp [daysIn, isLeap]

theorem daysIn_bounds (y m : Nat) : 28 ≤ daysIn y m ∧ daysIn y m ≤ 31 := by
  unfold daysIn; split
  · split <;> omega
  · split <;> omega

theorem PyDate.valid_iff (d : PyDate) : d.Valid ↔
    1 ≤ d.year ∧ d.year ≤ 9999 ∧ 1 ≤ d.month ∧ d.month ≤ 12 ∧ 1 ≤ d.day ∧ d.day ≤ daysIn d.year d.month := by
  rw [daysIn_spec]; rfl

theorem PyDateTime.valid_iff (d : PyDateTime) : d.Valid ↔
    (1 ≤ d.year ∧ d.year ≤ 9999 ∧ 1 ≤ d.month ∧ d.month ≤ 12 ∧ 1 ≤ d.day ∧ d.day ≤ daysIn d.year d.month) ∧
    d.hour < 24 ∧ d.minute < 60 ∧ d.second < 60 ∧ d.micro < 1000000 := by
  unfold PyDateTime.Valid; rw [PyDate.valid_iff]

theorem mkDate_valid {d : PyDate} (hd : d.Valid) : mkDate d.year d.month d.day = .ok d := by
  have := d.valid_iff.1 hd
  simp [mkDate, this]
theorem mkDateTime_valid {d : PyDateTime} (hd : d.Valid) :
    mkDateTime d.year d.month d.day d.hour d.minute d.second d.micro d.utc = .ok d := by
  obtain ⟨⟨h1, h2, h3, h4, h5, h6⟩, h7, h8, h9, h10⟩ := d.valid_iff.1 hd
  simp [mkDateTime, h1, h2, h3, h4, h5, h6, h7, h8, h9, h10]

/-- Day number: days before the year, days before the month, day. -/
def ordinal (y m d : Nat) : Nat :=
  let p := y - 1
  365 * p + p / 4 - p / 100 + p / 400 + ((List.range (m - 1)).map (fun k => daysIn y (k + 1))).sum + d

/-- The model of `+ timedelta(days=1)` advances the day number by one. -/
theorem nextDay_ordinal {d n : PyDate} (hd : d.Valid) (hn : d.nextDay = .ok n) :
    n.Valid ∧ ordinal n.year n.month n.day = ordinal d.year d.month d.day + 1 := by
  obtain ⟨y, m, dd⟩ := d
  rw [PyDate.valid_iff] at hd ⊢
  simp only at hd
  unfold PyDate.nextDay at hn
  simp only at hn
  split at hn
  · cases hn; simp only [ordinal]; refine ⟨by omega, by omega⟩
  · split at hn
    · cases hn
      have hb := daysIn_bounds y (m + 1)
      refine ⟨by simp only; omega, ?_⟩
      simp only [ordinal, Nat.add_sub_cancel]
      have e : m = (m - 1) + 1 := by omega
      have e2 : List.range m = List.range (m - 1) ++ [m - 1] := by
        conv => lhs; rw [e]
        exact List.range_succ
      rw [e2]
      simp only [List.map_append, List.sum_append, List.map_cons, List.map_nil, List.sum_cons, List.sum_nil]
      rw [← e]; omega
    · split at hn
      · cases hn
        have hb := daysIn_bounds (y + 1) 1
        refine ⟨by simp only; omega, ?_⟩
        have hm : m = 12 := by omega
        subst hm
        have hs : ((List.range (12 - 1)).map (fun k => daysIn y (k + 1))).sum =
            (if y % 4 = 0 ∧ (y % 100 ≠ 0 ∨ y % 400 = 0) then 335 else 334) := by
          simp only [daysIn_spec]
          simp [List.range, List.range.loop]
          split <;> rfl
        have hd12 : daysIn y 12 = 31 := by simp [daysIn]
        simp only [ordinal]
        rw [hs]
        have h0 : ((List.range (1 - 1)).map (fun k => daysIn (y + 1) (k + 1))).sum = 0 := rfl
        rw [h0]
        have e0 : y + 1 - 1 = (y - 1) + 1 := by omega
        have e1 : y = (y - 1) + 1 := by omega
        rw [e0]
        generalize hp : y - 1 = p at *
        have k4 : (p + 1) / 4 = p / 4 + (if y % 4 = 0 then 1 else 0) := by rw [e1]; split <;> omega
        have k100 : (p + 1) / 100 = p / 100 + (if y % 100 = 0 then 1 else 0) := by rw [e1]; split <;> omega
        have k400 : (p + 1) / 400 = p / 400 + (if y % 400 = 0 then 1 else 0) := by rw [e1]; split <;> omega
        have m1 : y % 400 = 0 → y % 100 = 0 := by omega
        have m2 : y % 100 = 0 → y % 4 = 0 := by omega
        have m3 : p / 100 ≤ p / 4 := by omega
        rw [k4, k100, k400]
        clear k4 k100 k400 hs h0 hb e0 e1 hp
        by_cases q4 : y % 4 = 0 <;> by_cases q100 : y % 100 = 0 <;> by_cases q400 : y % 400 = 0 <;>
          simp only [q4, q100, q400, if_true, if_false, true_and, false_and, not_true_eq_false, not_false_eq_true, or_true,
            or_false, ne_eq] at m1 m2 ⊢ <;> omega
      · cases hn

/-- The fields as one number, respecting the order of instants. -/
def stamp (d : PyDateTime) : Nat :=
  (((((d.year * 13 + d.month) * 32 + d.day) * 24 + d.hour) * 60 + d.minute) * 60 + d.second) * 1000000 + d.micro

theorem lex_mul {a b x y k : Nat} (hx : x < k) (hy : y < k) : a * k + x < b * k + y ↔ a < b ∨ a = b ∧ x < y := by
  constructor
  · intro hlt
    rcases Nat.lt_trichotomy a b with h | h | h
    · exact .inl h
    · subst h; exact .inr ⟨rfl, by omega⟩
    · have : (b + 1) * k ≤ a * k := Nat.mul_le_mul_right k h
      rw [Nat.add_mul] at this; omega
  · rintro (h | ⟨rfl, h⟩)
    · have : (a + 1) * k ≤ b * k := Nat.mul_le_mul_right k h
      rw [Nat.add_mul] at this; omega
    · omega

theorem lex_eq {a b x y k : Nat} (hx : x < k) (hy : y < k) : a * k + x = b * k + y ↔ a = b ∧ x = y := by
  constructor
  · intro he
    rcases Nat.lt_trichotomy a b with h | h | h
    · have := (lex_mul (a := a) (b := b) hx hy).2 (.inl h); omega
    · subst h; exact ⟨rfl, by omega⟩
    · have := (lex_mul (a := b) (b := a) hy hx).2 (.inl h); omega
  · rintro ⟨rfl, rfl⟩; rfl

/-- field bounds -/
def PyDateTime.Bounded (d : PyDateTime) : Prop :=
  d.month < 13 ∧ d.day < 32 ∧ d.hour < 24 ∧ d.minute < 60 ∧ d.second < 60 ∧ d.micro < 1000000

theorem PyDateTime.Valid.bounded {d : PyDateTime} (hd : d.Valid) : d.Bounded := by
  have := d.valid_iff.1 hd
  have := daysIn_bounds d.year d.month
  unfold PyDateTime.Bounded; omega

theorem earlier_iff {a b : PyDateTime} (ha : a.Bounded) (hb : b.Bounded) : Earlier a b ↔ stamp a < stamp b := by
  obtain ⟨a1, a2, a3, a4, a5, a6⟩ := ha
  obtain ⟨b1, b2, b3, b4, b5, b6⟩ := hb
  unfold stamp
  rw [lex_mul a6 b6, lex_mul a5 b5, lex_eq a5 b5, lex_mul a4 b4, lex_eq a4 b4, lex_mul a3 b3, lex_eq a3 b3,
    lex_mul a2 b2, lex_eq a2 b2, lex_mul a1 b1, lex_eq a1 b1]
  unfold Earlier
  constructor
  · rintro (h | ⟨e1, h | ⟨e2, h | ⟨e3, h | ⟨e4, h | ⟨e5, h | ⟨e6, h⟩⟩⟩⟩⟩⟩) <;> simp [*]
  · rintro (((((( h | ⟨e, h⟩) | ⟨e, h⟩) | ⟨e, h⟩) | ⟨e, h⟩) | ⟨e, h⟩) | ⟨e, h⟩) <;> simp [*]

/-! ### C14 -/

variable {h : Heap} {c : Ctx} {d : PyDateTime}

/-- **C14**: the beginning of the period is the latest period start that is not after the
value. -/
theorem tobo_spec (u : Period) (hv : c.val = .dt d) (hd : d.Valid) :
    ∃ r : PyDateTime, u.tobo.transform h c = .ok (.dt r) ∧ r.Valid ∧ r.utc = d.utc ∧ u.Starts r ∧ ¬ Earlier d r ∧
      ∀ b : PyDateTime, b.Valid → u.Starts b → ¬ Earlier d b → ¬ Earlier r b := by
  have hb := daysIn_bounds d.year 1
  have hb2 := daysIn_bounds d.year d.month
  have main : ∀ r : PyDateTime, r.Valid → u.Starts r → stamp r ≤ stamp d →
      (∀ b : PyDateTime, b.Valid → u.Starts b → stamp b ≤ stamp d → stamp b ≤ stamp r) →
      r.Valid ∧ u.Starts r ∧ ¬ Earlier d r ∧
      ∀ b : PyDateTime, b.Valid → u.Starts b → ¬ Earlier d b → ¬ Earlier r b := by
    intro r h1 h2 h3 h4
    refine ⟨h1, h2, ?_, ?_⟩
    · rw [earlier_iff hd.bounded h1.bounded]; omega
    · intro b hb hs
      rw [earlier_iff hd.bounded hb.bounded, earlier_iff h1.bounded hb.bounded]
      intro hn; have := h4 b hb hs (by omega); omega
  have hd' := hd.bounded
  have fin : ∀ r : PyDateTime, u.tobo.transform h c = .ok (.dt r) → r.utc = d.utc →
      (r.Valid ∧ u.Starts r ∧ ¬ Earlier d r ∧
        ∀ b : PyDateTime, b.Valid → u.Starts b → ¬ Earlier d b → ¬ Earlier r b) →
      ∃ r : PyDateTime, u.tobo.transform h c = .ok (.dt r) ∧ r.Valid ∧ r.utc = d.utc ∧ u.Starts r ∧ ¬ Earlier d r ∧
      ∀ b : PyDateTime, b.Valid → u.Starts b → ¬ Earlier d b → ¬ Earlier r b :=
    fun r h1 h2 ⟨h3, h4, h5, h6⟩ => ⟨r, h1, h3, h2, h4, h5, h6⟩
  unfold PyDateTime.Bounded at hd'
  have hd'' := d.valid_iff.1 hd
  cases u
  case sec =>
    refine fin (toboSec d) (by simp [Period.tobo, tobosecMod, calMod, hv, pure, Except.pure]) rfl (main _ ?_ rfl ?_ ?_)
    · rw [PyDateTime.valid_iff]; simp only [toboSec]; omega
    · simp only [stamp, toboSec]; omega
    · intro b hb hs; have := hb.bounded; simp only [Period.Starts, PyDateTime.Bounded] at hs this; simp only [stamp, toboSec]; omega
  case min =>
    refine fin (toboMin d) (by simp [Period.tobo, tobominMod, calMod, hv, pure, Except.pure]) rfl (main _ ?_ ⟨rfl, rfl⟩ ?_ ?_)
    · rw [PyDateTime.valid_iff]; simp only [toboMin]; omega
    · simp only [stamp, toboMin]; omega
    · intro b hb hs; have := hb.bounded; simp only [Period.Starts, PyDateTime.Bounded] at hs this; simp only [stamp, toboMin]; omega
  case hour =>
    refine fin (toboHour d) (by simp [Period.tobo, tobohourMod, calMod, hv, pure, Except.pure]) rfl (main _ ?_ ⟨rfl, rfl, rfl⟩ ?_ ?_)
    · rw [PyDateTime.valid_iff]; simp only [toboHour]; omega
    · simp only [stamp, toboHour]; omega
    · intro b hb hs; have := hb.bounded; simp only [Period.Starts, PyDateTime.Bounded] at hs this; simp only [stamp, toboHour]; omega
  case day =>
    refine fin (toboDay d) (by simp [Period.tobo, tobodayMod, calMod, hv, pure, Except.pure]) rfl (main _ ?_ ⟨rfl, rfl, rfl, rfl⟩ ?_ ?_)
    · rw [PyDateTime.valid_iff]; simp only [toboDay]; omega
    · simp only [stamp, toboDay]; omega
    · intro b hb hs; have := hb.bounded; simp only [Period.Starts, PyDateTime.Bounded] at hs this; simp only [stamp, toboDay]; omega
  case mon =>
    refine fin (toboMon d) (by simp [Period.tobo, tobomonMod, calMod, hv, pure, Except.pure]) rfl (main _ ?_ ⟨rfl, rfl, rfl, rfl, rfl⟩ ?_ ?_)
    · rw [PyDateTime.valid_iff]; simp only [toboMon]; omega
    · simp only [stamp, toboMon]; omega
    · intro b hb hs; have := hb.bounded; simp only [Period.Starts, PyDateTime.Bounded] at hs this; simp only [stamp, toboMon]; omega
  case year =>
    refine fin (toboYear d) (by simp [Period.tobo, toboyearMod, calMod, hv, pure, Except.pure]) rfl (main _ ?_ ⟨rfl, rfl, rfl, rfl, rfl, rfl⟩ ?_ ?_)
    · rw [PyDateTime.valid_iff]; simp only [toboYear]; omega
    · simp only [stamp, toboYear]; omega
    · intro b hb hs; have := hb.bounded; simp only [Period.Starts, PyDateTime.Bounded] at hs this; simp only [stamp, toboYear]; omega

/-- **C14**: going to the beginning twice is going once, for any value. -/
theorem tobo_idem (u : Period) {v : Val} (hv : u.tobo.transform h c = .ok v) :
    u.tobo.transform h (c.nval v) = .ok v := by
  cases u <;> cases hc : c.val <;>
    simp [Period.tobo, tobosecMod, tobominMod, tobohourMod, tobodayMod, tobomonMod, toboyearMod, calMod, hc, pure,
      Except.pure] at hv <;>
    subst hv <;>
    simp [Period.tobo, tobosecMod, tobominMod, tobohourMod, tobodayMod, tobomonMod, toboyearMod, calMod, Ctx.nval,
      pure, Except.pure, toboSec, toboMin, toboHour, toboDay, toboMon, toboYear]

/-- What `tonext` must return: the earliest period start after `d`. -/
def NextStart (u : Period) (d r : PyDateTime) : Prop :=
  r.Valid ∧ r.utc = d.utc ∧ u.Starts r ∧ Earlier d r ∧
    ∀ b : PyDateTime, b.Valid → u.Starts b → Earlier d b → ¬ Earlier b r

theorem NextStart.of_stamp {u : Period} {d r : PyDateTime} (hd : d.Valid) (hr : r.Valid) (hu : r.utc = d.utc)
    (hs : u.Starts r) (hlt : stamp d < stamp r)
    (hl : ∀ b : PyDateTime, b.Valid → u.Starts b → stamp d < stamp b → stamp r ≤ stamp b) : NextStart u d r := by
  refine ⟨hr, hu, hs, (earlier_iff hd.bounded hr.bounded).2 hlt, ?_⟩
  intro b hb hbs hdb
  rw [earlier_iff hb.bounded hr.bounded]
  have := hl b hb hbs ((earlier_iff hd.bounded hb.bounded).1 hdb)
  omega

/-- first the day: the next midnight, or none in the calendar -/
theorem nextDay_spec (hd : d.Valid) :
    (∃ n : PyDateTime, d.nextDay = .ok n ∧ n.hour = d.hour ∧ n.minute = d.minute ∧ n.second = d.second ∧ n.micro = d.micro ∧
      n.utc = d.utc ∧ n.Valid ∧ (d.year * 13 + d.month) * 32 + d.day < (n.year * 13 + n.month) * 32 + n.day ∧
      ∀ b : PyDateTime, b.Valid → (d.year * 13 + d.month) * 32 + d.day < (b.year * 13 + b.month) * 32 + b.day →
        (n.year * 13 + n.month) * 32 + n.day ≤ (b.year * 13 + b.month) * 32 + b.day) ∨
    ((∃ e, d.nextDay = .error e) ∧ ∀ b : PyDateTime, b.Valid →
      (b.year * 13 + b.month) * 32 + b.day ≤ (d.year * 13 + d.month) * 32 + d.day) := by
  have hd' := d.valid_iff.1 hd
  have hb := daysIn_bounds d.year d.month
  have hb1 := daysIn_bounds d.year (d.month + 1)
  have hb2 := daysIn_bounds (d.year + 1) 1
  have key : ∀ b : PyDateTime, b.Valid → b.month < 13 ∧ 1 ≤ b.month ∧ b.day < 32 ∧ 1 ≤ b.day ∧ b.year ≤ 9999 ∧
      (b.year = d.year → b.month = d.month → b.day ≤ daysIn d.year d.month) := by
    intro b hv
    have := b.valid_iff.1 hv
    have h3 := daysIn_bounds b.year b.month
    refine ⟨by omega, by omega, by omega, by omega, by omega, ?_⟩
    intro e1 e2; rw [e1, e2] at this; omega
  unfold PyDateTime.nextDay PyDate.nextDay PyDateTime.date
  simp only
  by_cases h1 : d.day < daysIn d.year d.month
  · left
    refine ⟨{ d with day := d.day + 1 }, by simp [h1, pure, Except.pure], rfl, rfl, rfl, rfl, rfl, ?_, ?_, ?_⟩
    · rw [PyDateTime.valid_iff]; simp only; omega
    · simp only; omega
    · intro b hv; simp only; omega
  · by_cases h2 : d.month < 12
    · left
      refine ⟨{ d with month := d.month + 1, day := 1 }, by simp [h1, h2, pure, Except.pure], rfl, rfl, rfl, rfl, rfl, ?_, ?_, ?_⟩
      · rw [PyDateTime.valid_iff]; simp only; omega
      · simp only; omega
      · intro b hv hlt; simp only
        obtain ⟨k1, k2, k3, k4, k5, k6⟩ := key b hv
        by_cases e1 : b.year = d.year
        · by_cases e2 : b.month = d.month
          · have := k6 e1 e2; rw [e1, e2] at hlt; omega
          · rw [e1] at hlt ⊢; omega
        · omega
    · by_cases h3 : d.year < 9999
      · left
        refine ⟨{ d with year := d.year + 1, month := 1, day := 1 }, by simp [h1, h2, h3, pure, Except.pure], rfl, rfl, rfl, rfl, rfl, ?_, ?_, ?_⟩
        · rw [PyDateTime.valid_iff]; simp only; omega
        · simp only; omega
        · intro b hv hlt; simp only
          obtain ⟨k1, k2, k3, k4, k5, k6⟩ := key b hv
          by_cases e1 : b.year = d.year
          · by_cases e2 : b.month = d.month
            · have := k6 e1 e2; rw [e1, e2] at hlt; omega
            · rw [e1] at hlt ⊢; omega
          · omega
      · right
        refine ⟨⟨.other 1, by simp only [h1, h2, h3, if_false]; rfl⟩, ?_⟩
        intro b hv
        obtain ⟨k1, k2, k3, k4, k5, k6⟩ := key b hv
        by_cases e1 : b.year = d.year
        · by_cases e2 : b.month = d.month
          · have := k6 e1 e2; rw [e1, e2]; omega
          · rw [e1]; omega
        · omega

/-- The outcome of a carry to the next unit of size `u`: `D` is the count of units. -/
structure Carried (D : PyDateTime → Nat) (same : PyDateTime → PyDateTime → Prop) (d : PyDateTime)
    (r : Except Exc PyDateTime) : Prop where
  out : (∃ n : PyDateTime, r = .ok n ∧ same n d ∧ n.utc = d.utc ∧ n.Valid ∧ D d < D n ∧
      ∀ b : PyDateTime, b.Valid → D d < D b → D n ≤ D b) ∨
    ((∃ e, r = .error e) ∧ ∀ b : PyDateTime, b.Valid → D b ≤ D d)

/-- units counted so far -/
def dayC (d : PyDateTime) : Nat := (d.year * 13 + d.month) * 32 + d.day
def hourC (d : PyDateTime) : Nat := dayC d * 24 + d.hour
def minC (d : PyDateTime) : Nat := hourC d * 60 + d.minute
def secC (d : PyDateTime) : Nat := minC d * 60 + d.second

theorem nextHour_spec (hd : d.Valid) :
    Carried hourC (fun n d => n.minute = d.minute ∧ n.second = d.second ∧ n.micro = d.micro) d d.nextHour := by
  have hd' := d.valid_iff.1 hd
  unfold PyDateTime.nextHour
  by_cases h1 : d.hour < 23
  · refine ⟨.inl ⟨{ d with hour := d.hour + 1 }, by simp [h1], ⟨rfl, rfl, rfl⟩, rfl, ?_, ?_, ?_⟩⟩
    · rw [PyDateTime.valid_iff]; simp only; omega
    · simp only [hourC, dayC]; omega
    · intro b hv; simp only [hourC, dayC]; omega
  · simp only [h1, if_false]
    have hz : PyDateTime.Valid { d with hour := 0 } := by rw [PyDateTime.valid_iff]; simp only; omega
    rcases nextDay_spec hz with ⟨n, e, k1, k2, k3, k4, k5, k6, k7, k8⟩ | ⟨e, k⟩
    · refine ⟨.inl ⟨n, e, ⟨k2, k3, k4⟩, k5, k6, ?_, ?_⟩⟩
      · simp only [hourC, dayC] at *; omega
      · intro b hv hlt
        have hb := b.valid_iff.1 hv
        have := k8 b hv
        simp only [hourC, dayC] at *; omega
    · refine ⟨.inr ⟨e, ?_⟩⟩
      intro b hv
      have hb := b.valid_iff.1 hv
      have := k b hv
      simp only [hourC, dayC] at *; omega

theorem nextMin_spec (hd : d.Valid) :
    Carried minC (fun n d => n.second = d.second ∧ n.micro = d.micro) d d.nextMin := by
  have hd' := d.valid_iff.1 hd
  unfold PyDateTime.nextMin
  by_cases h1 : d.minute < 59
  · refine ⟨.inl ⟨{ d with minute := d.minute + 1 }, by simp [h1], ⟨rfl, rfl⟩, rfl, ?_, ?_, ?_⟩⟩
    · rw [PyDateTime.valid_iff]; simp only; omega
    · simp only [minC, hourC, dayC]; omega
    · intro b hv; simp only [minC, hourC, dayC]; omega
  · simp only [h1, if_false]
    have hz : PyDateTime.Valid { d with minute := 0 } := by rw [PyDateTime.valid_iff]; simp only; omega
    have hh : hourC { d with minute := 0 } = hourC d := rfl
    rcases (nextHour_spec hz).out with ⟨n, e, ⟨k2, k3, k4⟩, k5, k6, k7, k8⟩ | ⟨e, k⟩
    · refine ⟨.inl ⟨n, e, ⟨k3, k4⟩, k5, k6, ?_, ?_⟩⟩
      · simp only [minC] at *; omega
      · intro b hv hlt
        have hb := b.valid_iff.1 hv
        have := k8 b hv
        simp only [minC] at *; omega
    · refine ⟨.inr ⟨e, ?_⟩⟩
      intro b hv
      have hb := b.valid_iff.1 hv
      have := k b hv
      simp only [minC] at *; omega

theorem nextSec_spec (hd : d.Valid) :
    Carried secC (fun n d => n.micro = d.micro) d d.nextSec := by
  have hd' := d.valid_iff.1 hd
  unfold PyDateTime.nextSec
  by_cases h1 : d.second < 59
  · refine ⟨.inl ⟨{ d with second := d.second + 1 }, by simp [h1], rfl, rfl, ?_, ?_, ?_⟩⟩
    · rw [PyDateTime.valid_iff]; simp only; omega
    · simp only [secC, minC, hourC, dayC]; omega
    · intro b hv; simp only [secC, minC, hourC, dayC]; omega
  · simp only [h1, if_false]
    have hz : PyDateTime.Valid { d with second := 0 } := by rw [PyDateTime.valid_iff]; simp only; omega
    have hh : minC { d with second := 0 } = minC d := rfl
    rcases (nextMin_spec hz).out with ⟨n, e, ⟨k3, k4⟩, k5, k6, k7, k8⟩ | ⟨e, k⟩
    · refine ⟨.inl ⟨n, e, k4, k5, k6, ?_, ?_⟩⟩
      · simp only [secC] at *; omega
      · intro b hv hlt
        have hb := b.valid_iff.1 hv
        have := k8 b hv
        simp only [secC] at *; omega
    · refine ⟨.inr ⟨e, ?_⟩⟩
      intro b hv
      have hb := b.valid_iff.1 hv
      have := k b hv
      simp only [secC] at *; omega

theorem stamp_secC (d : PyDateTime) : stamp d = secC d * 1000000 + d.micro := rfl

theorem nextMonth_spec {m : Nat} (h1 : 1 ≤ m) (h2 : m ≤ 12) :
    nextMonth m = if m = 12 then (1, 1) else (0, m + 1) := by
  have : m = 1 ∨ m = 2 ∨ m = 3 ∨ m = 4 ∨ m = 5 ∨ m = 6 ∨ m = 7 ∨ m = 8 ∨ m = 9 ∨ m = 10 ∨ m = 11 ∨ m = 12 := by omega
  rcases this with rfl | rfl | rfl | rfl | rfl | rfl | rfl | rfl | rfl | rfl | rfl | rfl <;> rfl

/-- **C14**: going to the next period gives the earliest period start after the value; it
raises only if the calendar has none (at the end of year 9999). -/
theorem tonext_spec (u : Period) (hv : c.val = .dt d) (hd : d.Valid) :
    (∃ r : PyDateTime, u.tonext.transform h c = .ok (.dt r) ∧ NextStart u d r) ∨
    ((∃ e, u.tonext.transform h c = .error e) ∧ ∀ b : PyDateTime, b.Valid → u.Starts b → ¬ Earlier d b) := by
  have hd' := d.valid_iff.1 hd
  have noStart : (∀ b : PyDateTime, b.Valid → u.Starts b → stamp b ≤ stamp d) →
      ∀ b : PyDateTime, b.Valid → u.Starts b → ¬ Earlier d b := by
    intro hk b hb hs
    rw [earlier_iff hd.bounded hb.bounded]
    have := hk b hb hs; omega
  cases u
  case sec =>
    rcases (nextSec_spec hd).out with ⟨n, e, k1, k2, k3, k4, k5⟩ | ⟨⟨e, he⟩, k⟩
    · left
      refine ⟨{ n with micro := 0 }, by simp [Period.tonext, tonextsecMod, calMod, hv, e, pure, Except.pure], ?_⟩
      have kv := n.valid_iff.1 k3
      refine .of_stamp hd (by rw [PyDateTime.valid_iff]; simp only; omega) k2 rfl ?_ ?_
      · simp only [stamp_secC]
        have : secC { n with micro := 0 } = secC n := rfl
        omega
      · intro b hb hs
        have hb' := b.valid_iff.1 hb
        have := k5 b hb
        have e2 : secC { n with micro := 0 } = secC n := rfl
        simp only [Period.Starts] at hs
        simp only [stamp_secC]; omega
    · right
      refine ⟨⟨e, by simp only [Period.tonext, tonextsecMod, calMod, hv, he]; rfl⟩, noStart ?_⟩
      intro b hb hs
      have := k b hb
      simp only [Period.Starts] at hs
      simp only [stamp_secC]; omega
  case min =>
    rcases (nextMin_spec hd).out with ⟨n, e, k1, k2, k3, k4, k5⟩ | ⟨⟨e, he⟩, k⟩
    · left
      refine ⟨{ n with micro := 0, second := 0 }, by simp [Period.tonext, tonextminMod, calMod, hv, e, pure, Except.pure], ?_⟩
      have kv := n.valid_iff.1 k3
      have e2 : minC { n with micro := 0, second := 0 } = minC n := rfl
      refine .of_stamp hd (by rw [PyDateTime.valid_iff]; simp only; omega) k2 ⟨rfl, rfl⟩ ?_ ?_
      · simp only [stamp_secC, secC]; omega
      · intro b hb hs
        have hb' := b.valid_iff.1 hb
        have := k5 b hb
        simp only [Period.Starts] at hs
        simp only [stamp_secC, secC]; omega
    · right
      refine ⟨⟨e, by simp only [Period.tonext, tonextminMod, calMod, hv, he]; rfl⟩, noStart ?_⟩
      intro b hb hs
      have := k b hb
      simp only [Period.Starts] at hs
      simp only [stamp_secC, secC]; omega
  case hour =>
    rcases (nextHour_spec hd).out with ⟨n, e, k1, k2, k3, k4, k5⟩ | ⟨⟨e, he⟩, k⟩
    · left
      refine ⟨{ n with micro := 0, second := 0, minute := 0 }, by simp [Period.tonext, tonexthourMod, calMod, hv, e, pure, Except.pure], ?_⟩
      have kv := n.valid_iff.1 k3
      have e2 : hourC { n with micro := 0, second := 0, minute := 0 } = hourC n := rfl
      refine .of_stamp hd (by rw [PyDateTime.valid_iff]; simp only; omega) k2 ⟨rfl, rfl, rfl⟩ ?_ ?_
      · simp only [stamp_secC, secC, minC]; omega
      · intro b hb hs
        have hb' := b.valid_iff.1 hb
        have := k5 b hb
        simp only [Period.Starts] at hs
        simp only [stamp_secC, secC, minC]; omega
    · right
      refine ⟨⟨e, by simp only [Period.tonext, tonexthourMod, calMod, hv, he]; rfl⟩, noStart ?_⟩
      intro b hb hs
      have := k b hb
      simp only [Period.Starts] at hs
      simp only [stamp_secC, secC, minC]; omega
  case day =>
    rcases nextDay_spec hd with ⟨n, e, k1, k2, k3, k4, ku, kv, k7, k8⟩ | ⟨⟨e, he⟩, k⟩
    · left
      refine ⟨{ n with micro := 0, second := 0, minute := 0, hour := 0 }, by simp [Period.tonext, tonextdayMod, calMod, hv, e, pure, Except.pure], ?_⟩
      have kv' := n.valid_iff.1 kv
      refine .of_stamp hd (by rw [PyDateTime.valid_iff]; simp only; omega) ku ⟨rfl, rfl, rfl, rfl⟩ ?_ ?_
      · simp only [stamp]; omega
      · intro b hb hs
        have hb' := b.valid_iff.1 hb
        have := k8 b hb
        simp only [Period.Starts] at hs
        simp only [stamp]; omega
    · right
      refine ⟨⟨e, by simp only [Period.tonext, tonextdayMod, calMod, hv, he]; rfl⟩, noStart ?_⟩
      intro b hb hs
      have := k b hb
      simp only [Period.Starts] at hs
      simp only [stamp]; omega
  case mon =>
    have hdb := hd.bounded
    unfold PyDateTime.Bounded at hdb
    have hm := nextMonth_spec (m := d.month) (by omega) (by omega)
    by_cases h12 : d.month = 12
    · rw [if_pos h12] at hm
      by_cases hy : d.year < 9999
      · left
        have b1 := daysIn_bounds (d.year + 1) 1
        have hval : PyDateTime.Valid ⟨d.year + 1, 1, 1, 0, 0, 0, 0, d.utc⟩ := by
          rw [PyDateTime.valid_iff]; simp only; omega
        refine ⟨⟨d.year + 1, 1, 1, 0, 0, 0, 0, d.utc⟩, ?_, ?_⟩
        · simp only [Period.tonext, tonextmonMod, calMod, hv, hm]
          rw [mkDateTime_valid hval]; rfl
        · refine .of_stamp hd hval rfl ⟨rfl, rfl, rfl, rfl, rfl⟩ ?_ ?_
          · simp only [stamp]; omega
          · intro b hb hs
            have hb' := b.valid_iff.1 hb
            simp only [Period.Starts] at hs
            simp only [stamp]; omega
      · right
        refine ⟨⟨.valueError, ?_⟩, noStart ?_⟩
        · have : ¬ d.year + 1 ≤ 9999 := by omega
          simp only [Period.tonext, tonextmonMod, calMod, hv, hm, mkDateTime, this, false_and, and_false, if_false]; rfl
        · intro b hb hs
          have hb' := b.valid_iff.1 hb
          simp only [Period.Starts] at hs
          simp only [stamp]; omega
    · rw [if_neg h12] at hm
      left
      have b1 := daysIn_bounds d.year (d.month + 1)
      have hval : PyDateTime.Valid ⟨d.year + 0, d.month + 1, 1, 0, 0, 0, 0, d.utc⟩ := by
        rw [PyDateTime.valid_iff]; simp only [Nat.add_zero]; omega
      refine ⟨⟨d.year + 0, d.month + 1, 1, 0, 0, 0, 0, d.utc⟩, ?_, ?_⟩
      · simp only [Period.tonext, tonextmonMod, calMod, hv, hm]
        rw [mkDateTime_valid hval]; rfl
      · refine .of_stamp hd hval rfl ⟨rfl, rfl, rfl, rfl, rfl⟩ ?_ ?_
        · simp only [stamp]; omega
        · intro b hb hs
          have hb' := b.valid_iff.1 hb
          simp only [Period.Starts] at hs
          simp only [stamp]; omega
  case year =>
    have hdb := hd.bounded
    unfold PyDateTime.Bounded at hdb
    by_cases hy : d.year < 9999
    · left
      have b1 := daysIn_bounds (d.year + 1) 1
      have hval : PyDateTime.Valid ⟨d.year + 1, 1, 1, 0, 0, 0, 0, d.utc⟩ := by
        rw [PyDateTime.valid_iff]; simp only; omega
      refine ⟨⟨d.year + 1, 1, 1, 0, 0, 0, 0, d.utc⟩, ?_, ?_⟩
      · simp only [Period.tonext, tonextyearMod, calMod, hv]
        rw [mkDateTime_valid hval]; rfl
      · refine .of_stamp hd hval rfl ⟨rfl, rfl, rfl, rfl, rfl, rfl⟩ ?_ ?_
        · simp only [stamp]; omega
        · intro b hb hs
          have hb' := b.valid_iff.1 hb
          simp only [Period.Starts] at hs
          simp only [stamp]; omega
    · right
      refine ⟨⟨.valueError, ?_⟩, noStart ?_⟩
      · have : ¬ d.year + 1 ≤ 9999 := by omega
        simp only [Period.tonext, tonextyearMod, calMod, hv, mkDateTime, this, false_and, and_false, if_false]; rfl
      · intro b hb hs
        have hb' := b.valid_iff.1 hb
        simp only [Period.Starts] at hs
        simp only [stamp]; omega

/-- a leap day is carried correctly -/
example : tonextdayMod.transform (fun _ => {}) { val := .dt ⟨2024, 2, 28, 23, 59, 59, 1, true⟩ } =
    .ok (.dt ⟨2024, 2, 29, 0, 0, 0, 0, true⟩) := rfl
example : PyDateTime.Valid ⟨2024, 2, 29, 23, 59, 59, 999999, true⟩ := by rw [PyDateTime.valid_iff]; decide

/-! dates -/

/-- The same transforms on plain dates agree with those on midnight. -/
def dateOf : Val → Option PyDate
  | .date d => some d
  | .dt d => some ⟨d.year, d.month, d.day⟩
  | _ => none

/-- **C14** for dates: the result is the date of the result for the midnight of that date;
`tobo` hour and smaller leave dates alone. -/
theorem tobo_date (u : Period) {e : PyDate} (hv : c.val = .date e) :
    ∃ r : PyDate, u.tobo.transform h c = .ok (.date r) ∧
      u.tobo.transform h (c.nval (.dt ⟨e.year, e.month, e.day, 0, 0, 0, 0, false⟩)) =
        .ok (.dt ⟨r.year, r.month, r.day, 0, 0, 0, 0, false⟩) := by
  cases u <;>
    simp [Period.tobo, tobosecMod, tobominMod, tobohourMod, tobodayMod, tobomonMod, toboyearMod, calMod, hv, Ctx.nval,
      pure, Except.pure, toboSec, toboMin, toboHour, toboDay, toboMon, toboYear]

/-- periods of at least a day -/
def Period.Long : Period → Prop
  | .day => True | .mon => True | .year => True | _ => False

theorem tonext_date (u : Period) (hu : u.Long) {e : PyDate} (hv : c.val = .date e) (he : e.Valid) :
    (∃ r : PyDate, u.tonext.transform h c = .ok (.date r) ∧
      u.tonext.transform h (c.nval (.dt ⟨e.year, e.month, e.day, 0, 0, 0, 0, false⟩)) =
        .ok (.dt ⟨r.year, r.month, r.day, 0, 0, 0, 0, false⟩)) ∨
    ((∃ x, u.tonext.transform h c = .error x) ∧
      ∃ x, u.tonext.transform h (c.nval (.dt ⟨e.year, e.month, e.day, 0, 0, 0, 0, false⟩)) = .error x) := by
  cases u <;> try exact hu.elim
  · simp only [Period.tonext, tonextdayMod, calMod, hv, Ctx.nval, PyDateTime.nextDay, PyDateTime.date]
    cases hn : PyDate.nextDay ⟨e.year, e.month, e.day⟩ with
    | ok n => exact .inl ⟨n, rfl, rfl⟩
    | error x => exact .inr ⟨⟨x, rfl⟩, x, rfl⟩
  · have hm := (nextMonth_spec (m := e.month) ((e.valid_iff.1 he).2.2.1) ((e.valid_iff.1 he).2.2.2.1))
    simp only [Period.tonext, tonextmonMod, calMod, hv, Ctx.nval, mkDate, mkDateTime]
    by_cases hc : 1 ≤ e.year + (nextMonth e.month).1 ∧ e.year + (nextMonth e.month).1 ≤ 9999 ∧
        1 ≤ (nextMonth e.month).2 ∧ (nextMonth e.month).2 ≤ 12 ∧ 1 ≤ 1 ∧
        1 ≤ daysIn (e.year + (nextMonth e.month).1) (nextMonth e.month).2
    · left
      refine ⟨⟨e.year + (nextMonth e.month).1, (nextMonth e.month).2, 1⟩, by rw [if_pos hc]; rfl, ?_⟩
      rw [if_pos (by refine ⟨hc.1, hc.2.1, hc.2.2.1, hc.2.2.2.1, hc.2.2.2.2.1, hc.2.2.2.2.2, by omega, by omega, by omega, by omega⟩)]
      rfl
    · right
      refine ⟨⟨.valueError, by rw [if_neg hc]; rfl⟩, .valueError, ?_⟩
      rw [if_neg (by intro hh; exact hc ⟨hh.1, hh.2.1, hh.2.2.1, hh.2.2.2.1, hh.2.2.2.2.1, hh.2.2.2.2.2.1⟩)]
      rfl
  · simp only [Period.tonext, tonextyearMod, calMod, hv, Ctx.nval, mkDate, mkDateTime]
    by_cases hc : 1 ≤ e.year + 1 ∧ e.year + 1 ≤ 9999 ∧ 1 ≤ 1 ∧ 1 ≤ 12 ∧ 1 ≤ 1 ∧ 1 ≤ daysIn (e.year + 1) 1
    · left
      refine ⟨⟨e.year + 1, 1, 1⟩, by rw [if_pos hc]; rfl, ?_⟩
      rw [if_pos (by refine ⟨hc.1, hc.2.1, hc.2.2.1, hc.2.2.2.1, hc.2.2.2.2.1, hc.2.2.2.2.2, by omega, by omega, by omega, by omega⟩)]
      rfl
    · right
      refine ⟨⟨.valueError, by rw [if_neg hc]; rfl⟩, .valueError, ?_⟩
      rw [if_neg (by intro hh; exact hc ⟨hh.1, hh.2.1, hh.2.2.1, hh.2.2.2.1, hh.2.2.2.2.1, hh.2.2.2.2.2.1⟩)]
      rfl

/-! ### C15, C16 -/

theorem digitChar_cases (n : Nat) : digitVal (digitChar n) = some (n % 10) ∧ isSign (digitChar n) = false ∧
    (digitChar n != 'Z') = true := by
  have : n % 10 < 10 := Nat.mod_lt _ (by decide)
  unfold digitChar
  generalize n % 10 = k at this
  have : k = 0 ∨ k = 1 ∨ k = 2 ∨ k = 3 ∨ k = 4 ∨ k = 5 ∨ k = 6 ∨ k = 7 ∨ k = 8 ∨ k = 9 := by omega
  rcases this with rfl | rfl | rfl | rfl | rfl | rfl | rfl | rfl | rfl | rfl <;> decide

@[simp] theorem digitVal_digitChar (n : Nat) : digitVal (digitChar n) = some (n % 10) := (digitChar_cases n).1
@[simp] theorem isSign_digitChar (n : Nat) : isSign (digitChar n) = false := (digitChar_cases n).2.1
@[simp] theorem digitChar_ne_Z (n : Nat) : (digitChar n != 'Z') = true := (digitChar_cases n).2.2

theorem parse_pad2 {n : Nat} (hn : n < 100) : parseNat [digitChar (n / 10), digitChar n] = some n := by
  simp [parseNat]; omega
theorem parse_pad3 {n : Nat} (hn : n < 1000) : parseNat [digitChar (n / 100), digitChar (n / 10), digitChar n] = some n := by
  simp [parseNat]; omega
theorem parse_pad4 {n : Nat} (hn : n < 10000) :
    parseNat [digitChar (n / 100 / 10), digitChar (n / 100), digitChar (n / 10), digitChar n] = some n := by
  simp [parseNat]; omega

theorem iso_date_eq (d : PyDate) : d.iso =
    [digitChar (d.year / 100 / 10), digitChar (d.year / 100), digitChar (d.year / 10), digitChar d.year, '-',
      digitChar (d.month / 10), digitChar d.month, '-', digitChar (d.day / 10), digitChar d.day] := rfl

theorem parseDate_iso {d : PyDate} (hd : d.Valid) : parseDate d.iso = .ok d := by
  have h := d.valid_iff.1 hd
  have := daysIn_bounds d.year d.month
  rw [iso_date_eq]
  simp only [parseDate]
  rw [parse_pad4 (by omega), parse_pad2 (by omega), parse_pad2 (by omega)]
  exact mkDate_valid hd

/-- **C15**: every valid date survives the JSON round trip. -/
theorem date_roundtrip {d : PyDate} (hv : c.val = .date d) (hd : d.Valid) :
    ∃ j, dateMod.tojson h c = .ok j ∧ dateMod.transform h (c.nval j) = .ok (.date d) := by
  refine ⟨.str (String.ofList (d.iso ++ "T00:00:00.000Z".toList)), by simp [dateMod, hv], ?_⟩
  simp only [dateMod, Ctx.nval, String.toList_ofList]
  have : (d.iso ++ "T00:00:00.000Z".toList).take 10 = d.iso := by rw [iso_date_eq]; rfl
  rw [this, parseDate_iso hd]; rfl

/-- C16 on the full domain: the value truncated to milliseconds comes back. -/
def truncMs (d : PyDateTime) : PyDateTime := { d with micro := d.micro / 1000 * 1000, utc := true }

def DatetimeRoundTrip : Prop := ∀ (h : Heap) (c : Ctx) (d : PyDateTime), c.val = .dt d → d.Valid → d.utc = true →
  ∃ j, datetimeMod.tojson h c = .ok j ∧ datetimeMod.transform h (c.nval j) = .ok (.dt (truncMs d))

theorem parse_iso23 {d : PyDateTime} (hd : d.Valid) (hm : d.micro ≠ 0) :
    parseDateTime ((d.iso.take 23 ++ ['Z']).filter (· != 'Z')) = .ok (truncMs d) := by
  have hv := d.valid_iff.1 hd
  have hb := daysIn_bounds d.year d.month
  have e : (d.iso.take 23 ++ ['Z']).filter (· != 'Z') = d.date.iso ++ 'T' :: (pad2 d.hour ++ ':' :: (pad2 d.minute ++
      ':' :: (pad2 d.second ++ '.' :: pad3 (d.micro / 1000)))) := by
    unfold PyDateTime.iso
    rw [if_neg hm]
    simp only [PyDate.iso, pad2, pad3, pad4, pad6, List.cons_append, List.nil_append, List.take_succ_cons, List.take_zero]
    simp
  rw [e]
  unfold parseDateTime
  have e1 : (d.date.iso ++ 'T' :: (pad2 d.hour ++ ':' :: (pad2 d.minute ++ ':' :: (pad2 d.second ++ '.' :: pad3 (d.micro / 1000))))).take 10 =
      d.date.iso := by rw [iso_date_eq]; rfl
  have e2 : (d.date.iso ++ 'T' :: (pad2 d.hour ++ ':' :: (pad2 d.minute ++ ':' :: (pad2 d.second ++ '.' :: pad3 (d.micro / 1000))))).drop 10 =
      'T' :: [digitChar (d.hour / 10), digitChar d.hour, ':', digitChar (d.minute / 10), digitChar d.minute, ':',
        digitChar (d.second / 10), digitChar d.second, '.', digitChar (d.micro / 1000 / 100), digitChar (d.micro / 1000 / 10),
        digitChar (d.micro / 1000)] := by rw [iso_date_eq]; rfl
  rw [e1, e2, show parseDate d.date.iso = .ok d.date from parseDate_iso hd.1]
  have s1 : isSign ':' = false := rfl
  have s2 : isSign '.' = false := rfl
  simp only [Except.bind_ok_eq, List.takeWhile, List.dropWhile, isSign_digitChar, s1, s2, Bool.not_false, parseTime,
    parse_pad2 (show d.hour < 100 by omega), parse_pad2 (show d.minute < 100 by omega),
    parse_pad2 (show d.second < 100 by omega), parse_pad3 (show d.micro / 1000 < 1000 by omega)]
  have hval : PyDateTime.Valid (truncMs d) := by
    rw [PyDateTime.valid_iff]; simp only [truncMs]; omega
  exact mkDateTime_valid hval

/-- **C16** for all datetimes whose microsecond is not 0. -/
theorem datetime_roundtrip_partial {d : PyDateTime} (hv : c.val = .dt d) (hd : d.Valid) (hm : d.micro ≠ 0) :
    ∃ j, datetimeMod.tojson h c = .ok j ∧ datetimeMod.transform h (c.nval j) = .ok (.dt (truncMs d)) := by
  refine ⟨.str (String.ofList (d.iso.take 23 ++ ['Z'])), by simp [datetimeMod, hv], ?_⟩
  simp only [datetimeMod, Ctx.nval, String.toList_ofList, parse_iso23 hd hm]; rfl

/-- **C16** for naive datetimes at a whole second (read back as UTC). -/
theorem datetime_roundtrip_naive {d : PyDateTime} (hv : c.val = .dt d) (hd : d.Valid) (hu : d.utc = false) :
    ∃ j, datetimeMod.tojson h c = .ok j ∧ datetimeMod.transform h (c.nval j) = .ok (.dt (truncMs d)) := by
  by_cases hm : d.micro = 0
  · have hvd := d.valid_iff.1 hd
    refine ⟨.str (String.ofList (d.iso.take 23 ++ ['Z'])), by simp [datetimeMod, hv], ?_⟩
    simp only [datetimeMod, Ctx.nval, String.toList_ofList]
    have e : (d.iso.take 23 ++ ['Z']).filter (· != 'Z') = d.date.iso ++ 'T' :: (pad2 d.hour ++ ':' :: (pad2 d.minute ++
        ':' :: pad2 d.second)) := by
      unfold PyDateTime.iso
      rw [if_pos hm, hu]
      simp only [PyDate.iso, pad2, pad4, List.cons_append, List.nil_append, List.take_succ_cons, List.take_nil,
        Bool.false_eq_true, if_false]
      simp
    rw [e]
    have : parseDateTime (d.date.iso ++ 'T' :: (pad2 d.hour ++ ':' :: (pad2 d.minute ++ ':' :: pad2 d.second))) =
        .ok (truncMs d) := by
      unfold parseDateTime
      have e1 : (d.date.iso ++ 'T' :: (pad2 d.hour ++ ':' :: (pad2 d.minute ++ ':' :: pad2 d.second))).take 10 =
          d.date.iso := by rw [iso_date_eq]; rfl
      have e2 : (d.date.iso ++ 'T' :: (pad2 d.hour ++ ':' :: (pad2 d.minute ++ ':' :: pad2 d.second))).drop 10 =
          'T' :: [digitChar (d.hour / 10), digitChar d.hour, ':', digitChar (d.minute / 10), digitChar d.minute, ':',
            digitChar (d.second / 10), digitChar d.second] := by rw [iso_date_eq]; rfl
      rw [e1, e2, show parseDate d.date.iso = .ok d.date from parseDate_iso hd.1]
      have s1 : isSign ':' = false := rfl
      simp only [Except.bind_ok_eq, List.takeWhile, List.dropWhile, isSign_digitChar, s1, Bool.not_false, parseTime,
        parse_pad2 (show d.hour < 100 by omega), parse_pad2 (show d.minute < 100 by omega),
        parse_pad2 (show d.second < 100 by omega)]
      have hval : PyDateTime.Valid (truncMs d) := by
        rw [PyDateTime.valid_iff]; simp only [truncMs]; omega
      have he : truncMs d = ⟨d.year, d.month, d.day, d.hour, d.minute, d.second, 0, true⟩ := by
        simp [truncMs, hm]
      have := mkDateTime_valid hval
      rw [he] at this ⊢
      exact this
    rw [this]; rfl
  · exact datetime_roundtrip_partial hv hd hm

/-- **C16** violated: no UTC datetime at a whole second survives. The JSON text is
malformed and reading it back is a validation error. -/
theorem datetime_whole_second_lost {d : PyDateTime} (hv : c.val = .dt d) (hd : d.Valid) (hu : d.utc = true) (hm : d.micro = 0) :
    ∃ j m, datetimeMod.tojson h c = .ok j ∧
      datetimeMod.transform h (c.nval j) = .error (.validation [(dotJoin (c.fkeypathr.map Key.str), m)]) := by
  refine ⟨.str (String.ofList (d.iso.take 23 ++ ['Z'])), "wrong datetime format", by simp [datetimeMod, hv], ?_⟩
  have e : (d.iso.take 23 ++ ['Z']).filter (· != 'Z') = d.date.iso ++ 'T' :: (pad2 d.hour ++ ':' :: (pad2 d.minute ++
      ':' :: (pad2 d.second ++ ['+', '0', '0', ':']))) := by
    unfold PyDateTime.iso
    rw [if_pos hm, hu]
    have s : "+00:00".toList = ['+', '0', '0', ':', '0', '0'] := rfl
    simp only [PyDate.iso, pad2, pad4, s, List.cons_append, List.nil_append, List.take_succ_cons, List.take_zero, if_true]
    simp
  have hp : parseDateTime ((d.iso.take 23 ++ ['Z']).filter (· != 'Z')) = .error .valueError := by
    rw [e]
    unfold parseDateTime
    have e1 : (d.date.iso ++ 'T' :: (pad2 d.hour ++ ':' :: (pad2 d.minute ++ ':' :: (pad2 d.second ++ ['+', '0', '0', ':'])))).take 10 =
        d.date.iso := by rw [iso_date_eq]; rfl
    have e2 : (d.date.iso ++ 'T' :: (pad2 d.hour ++ ':' :: (pad2 d.minute ++ ':' :: (pad2 d.second ++ ['+', '0', '0', ':'])))).drop 10 =
        'T' :: [digitChar (d.hour / 10), digitChar d.hour, ':', digitChar (d.minute / 10), digitChar d.minute, ':',
          digitChar (d.second / 10), digitChar d.second, '+', '0', '0', ':'] := by rw [iso_date_eq]; rfl
    rw [e1, e2, show parseDate d.date.iso = .ok d.date from parseDate_iso hd.1]
    have s1 : isSign ':' = false := rfl
    have s2 : isSign '+' = true := rfl
    simp only [Except.bind_ok_eq, List.takeWhile, List.dropWhile, isSign_digitChar, s1, s2, Bool.not_false, Bool.not_true,
      parseOffset]
    split
    · next hh => cases hh
    · rfl
  simp only [datetimeMod, Ctx.nval, String.toList_ofList, hp]
  rfl

theorem datetime_roundtrip_false : ¬ DatetimeRoundTrip := by
  intro hr
  let d : PyDateTime := ⟨2024, 2, 29, 12, 30, 15, 0, true⟩
  have hd : d.Valid := by rw [PyDateTime.valid_iff]; decide
  obtain ⟨j, h1, h2⟩ := hr (fun _ => {}) { val := .dt d } d rfl hd rfl
  obtain ⟨j', m, h3, h4⟩ := datetime_whole_second_lost (h := fun _ => {}) (c := { val := .dt d }) rfl hd rfl rfl
  rw [h1] at h3; cases h3
  rw [h2] at h4; cases h4

/-- A finding: the offset of an input text is dropped, not applied: noon at `+08:00` is
read as noon UTC. -/
theorem datetime_offset_dropped :
    datetimeMod.transform (fun _ => {}) { val := .str "2024-02-29T12:00:00+08:00" } =
      .ok (.dt ⟨2024, 2, 29, 12, 0, 0, 0, true⟩) ∧
    datetimeMod.transform (fun _ => {}) { val := .str "2024-02-29T12:00:00Z" } =
      .ok (.dt ⟨2024, 2, 29, 12, 0, 0, 0, true⟩) := ⟨rfl, rfl⟩

example : ∃ j, datetimeMod.tojson (fun _ => {}) { val := .dt ⟨2024, 2, 29, 12, 30, 15, 123456, true⟩ } = .ok j ∧
    datetimeMod.transform (fun _ => {}) { val := j } = .ok (.dt ⟨2024, 2, 29, 12, 30, 15, 123000, true⟩) :=
  datetime_roundtrip_partial (c := { val := .dt ⟨2024, 2, 29, 12, 30, 15, 123456, true⟩ }) rfl
    (by rw [PyDateTime.valid_iff]; decide) (by decide)
example : ∃ j, dateMod.tojson (fun _ => {}) { val := .date ⟨44, 3, 15⟩ } = .ok j ∧
    dateMod.transform (fun _ => {}) { val := j } = .ok (.date ⟨44, 3, 15⟩) :=
  date_roundtrip (c := { val := .date ⟨44, 3, 15⟩ }) rfl (by rw [PyDate.valid_iff]; decide)

/-! ### C51 -/

theorem lexLt_earlier (a b : PyDateTime) : lexLt a.fields b.fields = true ↔ Earlier a b := by
  simp [lexLt, PyDateTime.fields, Earlier]

/-- A date stands for its midnight; `PointIn v u t`: the value is the instant `t` of kind
`u` (UTC or naive). A plain date is naive. -/
inductive PointIn : Val → PyDateTime → Prop
  | dt (d : PyDateTime) : PointIn (.dt d) d
  | date (e : PyDate) : PointIn (.date e) ⟨e.year, e.month, e.day, 0, 0, 0, 0, false⟩

theorem PointIn.combine {v : Val} {t : PyDateTime} (hp : PointIn v t) : combine v = .dt t ∧ v.isNone = false := by
  cases hp <;> exact ⟨rfl, rfl⟩

/-- **C51**: `before(p)` accepts exactly the instants earlier than `p`, when both are naive
or both UTC. -/
theorem before_decides {p : Param} {pv : Val} {t q : PyDateTime} (hv : PointIn c.val t) (hp : p h c = .ok pv)
    (hq : PointIn pv q) (hu : t.utc = q.utc) : Decides (beforeMod p) h c (Earlier t q) := by
  apply Decides.of_reject (b := !(lexLt t.fields q.fields)) (msg := "value is too late")
  · simp [beforeMod, hv.combine.1, hv.combine.2, hq.combine.1, hq.combine.2, hp, valDtLt, dtLt, hu]
  · rw [Bool.not_eq_true', ← lexLt_earlier, Bool.not_eq_true]

/-- **C51**: `after(p)` accepts exactly the instants later than `p`. -/
theorem after_decides {p : Param} {pv : Val} {t q : PyDateTime} (hv : PointIn c.val t) (hp : p h c = .ok pv)
    (hq : PointIn pv q) (hu : t.utc = q.utc) : Decides (afterMod p) h c (Earlier q t) := by
  apply Decides.of_reject (b := !(lexLt q.fields t.fields)) (msg := "value is too early")
  · generalize hw : c.val = w at hv
    cases hv with
    | dt d =>
      cases hq with
      | dt e => simp [afterMod, hw, hp, Val.isNone, dtLt, hu]
      | date e => simp [afterMod, hw, hp, Val.isNone, combine, valDtLt, dtLt, hu, PyDate.midnight]
    | date d =>
      cases hq with
      | dt e => simp [afterMod, hw, hp, Val.isNone, combine, valDtLt, dtLt, ← hu, PyDate.midnight]
      | date e =>
        have e1 : dateLt e d = lexLt (PyDateTime.fields ⟨e.year, e.month, e.day, 0, 0, 0, 0, false⟩)
            (PyDateTime.fields ⟨d.year, d.month, d.day, 0, 0, 0, 0, false⟩) := by
          simp [dateLt, lexLt, PyDateTime.fields]
        simp only [afterMod, hw, hp, Val.isNone, combine, valDtLt, dtLt, PyDate.midnight, Except.bind_ok_eq, e1]
        cases lexLt (PyDateTime.fields ⟨e.year, e.month, e.day, 0, 0, 0, 0, false⟩)
            (PyDateTime.fields ⟨d.year, d.month, d.day, 0, 0, 0, 0, false⟩) <;> rfl
  · rw [Bool.not_eq_true', ← lexLt_earlier, Bool.not_eq_true]

/-- **C51** in full would compare a UTC datetime with a plain date too. -/
def BeforeAcceptsDatePoint : Prop := ∀ (h : Heap) (c : Ctx) (p : Param) (t : PyDateTime) (e : PyDate),
  c.val = .dt t → p h c = .ok (.date e) → ∃ P, Decides (beforeMod p) h c P

/-- A finding: a UTC datetime (what input always produces) compared with a plain date point
raises TypeError, with `before` and with `after`, for all values. -/
theorem before_date_point_raises {p : Param} {t : PyDateTime} {e : PyDate} (hv : c.val = .dt t) (hu : t.utc = true)
    (hp : p h c = .ok (.date e)) :
    (beforeMod p).validate h c = .error .typeError ∧ (afterMod p).validate h c = .error .typeError := by
  constructor
  · simp [beforeMod, hv, hp, Val.isNone, combine, valDtLt, dtLt, hu, PyDate.midnight]
  · simp [afterMod, hv, hp, Val.isNone, combine, valDtLt, dtLt, hu, PyDate.midnight]
theorem before_date_point_false : ¬ BeforeAcceptsDatePoint := by
  intro hb
  obtain ⟨P, h1, h2⟩ := hb (fun _ => {}) { val := .dt ⟨2024, 1, 1, 0, 0, 0, 0, true⟩ } (.const (.date ⟨2025, 1, 1⟩)) _ _ rfl rfl
  have := (before_date_point_raises (h := fun _ => {}) (c := { val := .dt ⟨2024, 1, 1, 0, 0, 0, 0, true⟩ })
    (p := .const (.date ⟨2025, 1, 1⟩)) rfl rfl rfl).1
  by_cases hP : P
  · rw [h1 hP] at this; cases this
  · obtain ⟨m, hm⟩ := h2 hP
    rw [hm] at this; cases this

example : (beforeMod (.const (.date ⟨2025, 1, 1⟩))).validate (fun _ => {}) { val := .date ⟨2024, 12, 31⟩ } = .ok () :=
  (before_decides (h := fun _ => {}) (c := { val := .date ⟨2024, 12, 31⟩ }) (p := .const (.date ⟨2025, 1, 1⟩))
    (.date ⟨2024, 12, 31⟩) rfl (.date ⟨2025, 1, 1⟩) rfl).1 (by simp [Earlier])

end JC
