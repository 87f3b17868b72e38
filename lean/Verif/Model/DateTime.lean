import Verif.Model.Numbers

/-
Dates and datetimes: the `date` and `datetime` types, the `tobo*` and `tonext*`
transforms, `before` and `after`. The calendar and the text formats are those of the
standard library module `datetime`, transcribed by hand. Datetimes are naive or UTC.
-/
namespace JC

/-! ### The standard library -/

/-- Gregorian leap year -/
def isLeap (y : Nat) : Bool := y % 4 == 0 && (y % 100 != 0 || y % 400 == 0)

/-- days of a month -/
def daysIn (y m : Nat) : Nat :=
  if m = 2 then (if isLeap y then 29 else 28)
  else if m = 4 ∨ m = 6 ∨ m = 9 ∨ m = 11 then 30 else 31

/-- `date(y, m, d)`: ValueError outside the calendar or the years 1..9999 -/
def mkDate (y m d : Nat) : Except Exc PyDate :=
  if 1 ≤ y ∧ y ≤ 9999 ∧ 1 ≤ m ∧ m ≤ 12 ∧ 1 ≤ d ∧ d ≤ daysIn y m then .ok ⟨y, m, d⟩ else .error .valueError

/-- `datetime(y, m, d, h, mi, s, us)` -/
def mkDateTime (y m d h mi s us : Nat) (utc : Bool) : Except Exc PyDateTime :=
  if 1 ≤ y ∧ y ≤ 9999 ∧ 1 ≤ m ∧ m ≤ 12 ∧ 1 ≤ d ∧ d ≤ daysIn y m ∧ h < 24 ∧ mi < 60 ∧ s < 60 ∧ us < 1000000
  then .ok ⟨y, m, d, h, mi, s, us, utc⟩ else .error .valueError

/-- `d + timedelta(days=1)`; past the last day OverflowError (here `other 1`) -/
def PyDate.nextDay (d : PyDate) : Except Exc PyDate :=
  if d.day < daysIn d.year d.month then .ok { d with day := d.day + 1 }
  else if d.month < 12 then .ok ⟨d.year, d.month + 1, 1⟩
  else if d.year < 9999 then .ok ⟨d.year + 1, 1, 1⟩
  else .error (.other 1)

/-- the date of a datetime -/
def PyDateTime.date (d : PyDateTime) : PyDate := ⟨d.year, d.month, d.day⟩

/-- `dt + timedelta(days=1)` -/
def PyDateTime.nextDay (d : PyDateTime) : Except Exc PyDateTime := do
  let n ← d.date.nextDay
  pure { d with year := n.year, month := n.month, day := n.day }

/-- `dt + timedelta(hours=1)` -/
def PyDateTime.nextHour (d : PyDateTime) : Except Exc PyDateTime :=
  if d.hour < 23 then .ok { d with hour := d.hour + 1 } else { d with hour := 0 }.nextDay

/-- `dt + timedelta(minutes=1)` -/
def PyDateTime.nextMin (d : PyDateTime) : Except Exc PyDateTime :=
  if d.minute < 59 then .ok { d with minute := d.minute + 1 } else { d with minute := 0 }.nextHour

/-- `dt + timedelta(seconds=1)` -/
def PyDateTime.nextSec (d : PyDateTime) : Except Exc PyDateTime :=
  if d.second < 59 then .ok { d with second := d.second + 1 } else { d with second := 0 }.nextMin

/-- lexicographic order of equally long tuples -/
def lexLt : List Nat → List Nat → Bool
  | a :: as, b :: bs => a < b || (a == b && lexLt as bs)
  | _, _ => false

/-- the fields of a datetime, most significant first -/
def PyDateTime.fields (d : PyDateTime) : List Nat :=
  [d.year, d.month, d.day, d.hour, d.minute, d.second, d.micro]

/-- `a < b` on datetimes: naive and aware ones cannot be ordered (TypeError) -/
def dtLt (a b : PyDateTime) : Except Exc Bool :=
  if a.utc = b.utc then .ok (lexLt a.fields b.fields) else .error .typeError

/-- `a < b` on dates -/
def dateLt (a b : PyDate) : Bool := lexLt [a.year, a.month, a.day] [b.year, b.month, b.day]

/-- `datetime.combine(d, datetime.min.time())` -/
def PyDate.midnight (d : PyDate) (utc : Bool) : PyDateTime := ⟨d.year, d.month, d.day, 0, 0, 0, 0, utc⟩

/-! text -/

/-- decimal digit -/
def digitChar (n : Nat) : Char := Char.ofNat (48 + n % 10)
/-- `%02d` -/
def pad2 (n : Nat) : List Char := [digitChar (n / 10), digitChar n]
/-- `%03d` -/
def pad3 (n : Nat) : List Char := [digitChar (n / 100), digitChar (n / 10), digitChar n]
/-- `%04d` -/
def pad4 (n : Nat) : List Char := pad2 (n / 100) ++ pad2 n
/-- `%06d` -/
def pad6 (n : Nat) : List Char := pad3 (n / 1000) ++ pad3 n

/-- `date.isoformat()` -/
def PyDate.iso (d : PyDate) : List Char := pad4 d.year ++ '-' :: (pad2 d.month ++ '-' :: pad2 d.day)

/-- `datetime.isoformat()` -/
def PyDateTime.iso (d : PyDateTime) : List Char :=
  d.date.iso ++ 'T' :: (pad2 d.hour ++ ':' :: (pad2 d.minute ++ ':' :: (pad2 d.second ++
    ((if d.micro = 0 then [] else '.' :: pad6 d.micro) ++ (if d.utc then "+00:00".toList else [])))))

/-- value of an ASCII digit -/
def digitVal (c : Char) : Option Nat := if 48 ≤ c.toNat ∧ c.toNat ≤ 57 then some (c.toNat - 48) else none

/-- digits to a number -/
def parseNat : List Char → Option Nat
  | cs => cs.foldl (fun acc c => match acc, digitVal c with
    | some n, some k => some (n * 10 + k)
    | _, _ => none) (some 0)

/-- `date.fromisoformat`: exactly `YYYY-MM-DD` (from Python 3.11 on other ISO forms are
accepted too; not modelled). -/
def parseDate : List Char → Except Exc PyDate
  | [y1, y2, y3, y4, '-', m1, m2, '-', d1, d2] =>
    match parseNat [y1, y2, y3, y4], parseNat [m1, m2], parseNat [d1, d2] with
    | some y, some m, some d => mkDate y m d
    | _, _, _ => .error .valueError
  | _ => .error .valueError

/-- the time part of `fromisoformat`: `HH[:MM[:SS[.fff[fff]]]]` -/
def parseTime : List Char → Option (Nat × Nat × Nat × Nat)
  | [h1, h2] => do
    let h ← parseNat [h1, h2]
    pure (h, 0, 0, 0)
  | [h1, h2, ':', m1, m2] => do
    let h ← parseNat [h1, h2]
    let m ← parseNat [m1, m2]
    pure (h, m, 0, 0)
  | [h1, h2, ':', m1, m2, ':', s1, s2] => do
    let h ← parseNat [h1, h2]
    let m ← parseNat [m1, m2]
    let s ← parseNat [s1, s2]
    pure (h, m, s, 0)
  | [h1, h2, ':', m1, m2, ':', s1, s2, '.', f1, f2, f3] => do
    let h ← parseNat [h1, h2]
    let m ← parseNat [m1, m2]
    let s ← parseNat [s1, s2]
    let f ← parseNat [f1, f2, f3]
    pure (h, m, s, f * 1000)
  | [h1, h2, ':', m1, m2, ':', s1, s2, '.', f1, f2, f3, f4, f5, f6] => do
    let h ← parseNat [h1, h2]
    let m ← parseNat [m1, m2]
    let s ← parseNat [s1, s2]
    let f ← parseNat [f1, f2, f3, f4, f5, f6]
    pure (h, m, s, f)
  | _ => none

/-- the offset part of `fromisoformat`: `HH:MM`, less than a day in all; the minutes alone
are not checked (offsets with seconds are not modelled) -/
def parseOffset : List Char → Bool
  | [h1, h2, ':', m1, m2] => match parseNat [h1, h2], parseNat [m1, m2] with
    | some h, some m => h * 60 + m < 1440
    | _, _ => false
  | _ => false

/-- a sign that starts the offset -/
def isSign (c : Char) : Bool := c == '+' || c == '-'

/-- `datetime.fromisoformat(s)` followed by `.replace(tzinfo=timezone.utc)`: the offset is
parsed and dropped. -/
def parseDateTime (s : List Char) : Except Exc PyDateTime := do
  let d ← parseDate (s.take 10)
  match s.drop 10 with
  | [] => mkDateTime d.year d.month d.day 0 0 0 0 true
  | _ :: t =>
    let time := t.takeWhile (fun c => !isSign c)
    let off := t.dropWhile (fun c => !isSign c)
    let okOff := match off with
      | [] => true
      | _ :: o => parseOffset o
    match parseTime time, okOff with
    | some (h, mi, se, us), true => mkDateTime d.year d.month d.day h mi se us true
    | _, _ => .error .valueError

/-! ### The modifiers -/

/-- `except ValueError: ctx.raise_vexc(msg)` -/
def valueToVexc {α : Type} (c : Ctx) (msg : String) : Except Exc α → Except Exc α
  | .error .valueError => .error (c.vexc msg)
  | r => r

/-- `DateModifier`: date_modifier.py:19-38, type_modifier.py:21-30 (`datetime` is a
subclass of `date`, so it passes validation). -/
def dateMod : Leaf where
  validate := fun _ c => match c.val with
    | .none => .ok ()
    | .date _ => .ok ()
    | .dt _ => .ok ()
    | _ => .error (c.vexc "value is not date")
  transform := fun _ c => match c.val with
    | .str s => do
      let d ← valueToVexc c "wrong date format" (parseDate (s.toList.take 10))
      pure (.date d)
    | .dt d => do
      let r ← mkDate d.year d.month d.day
      pure (.date r)
    | v => .ok v
  tojson := fun _ c => match c.val with
    | .none => .ok .none
    | .date d => .ok (.str (String.ofList (d.iso ++ "T00:00:00.000Z".toList)))
    | .dt d => .ok (.str (String.ofList (d.iso ++ "T00:00:00.000Z".toList)))
    | _ => .error .attributeError

/-- `DatetimeModifier`: datetime_modifier.py:19-37. -/
def datetimeMod : Leaf where
  validate := fun _ c => match c.val with
    | .none => .ok ()
    | .dt _ => .ok ()
    | _ => .error (c.vexc "value is not datetime")
  transform := fun _ c => match c.val with
    | .str s => do
      let d ← valueToVexc c "wrong datetime format" (parseDateTime (s.toList.filter (· != 'Z')))
      pure (.dt d)
    | .date d => do
      let r ← mkDateTime d.year d.month d.day 0 0 0 0 true
      pure (.dt r)
    | v => .ok v
  tojson := fun _ c => match c.val with
    | .none => .ok .none
    | .dt d => .ok (.str (String.ofList (d.iso.take 23 ++ ['Z'])))
    | .date d => .ok (.str (String.ofList (d.iso.take 23 ++ ['Z'])))
    | _ => .error .attributeError

/-- a transform defined on dates and datetimes only -/
def calMod (onDate : PyDate → Except Exc PyDate) (onDt : PyDateTime → Except Exc PyDateTime) : Leaf where
  transform := fun _ c => match c.val with
    | .dt d => do
      let r ← onDt d
      pure (.dt r)
    | .date d => do
      let r ← onDate d
      pure (.date r)
    | v => .ok v

/-- `ToBoSecModifier`: tobosec_modifier.py:14-15. -/
def toboSec (d : PyDateTime) : PyDateTime := { d with micro := 0 }
/-- `ToBoMinModifier`: tobomin_modifier.py:14-15. -/
def toboMin (d : PyDateTime) : PyDateTime := { d with micro := 0, second := 0 }
/-- `ToBoHourModifier`: tobohour_modifier.py:14-15. -/
def toboHour (d : PyDateTime) : PyDateTime := { d with micro := 0, second := 0, minute := 0 }
/-- `ToBoDayModifier`: toboday_modifier.py:15-21. -/
def toboDay (d : PyDateTime) : PyDateTime := { d with micro := 0, second := 0, minute := 0, hour := 0 }
/-- `ToBoMonModifier`: tobomon_modifier.py:15-21. -/
def toboMon (d : PyDateTime) : PyDateTime := { d with micro := 0, second := 0, minute := 0, hour := 0, day := 1 }
/-- `ToBoYearModifier`: toboyear_modifier.py:15-21. -/
def toboYear (d : PyDateTime) : PyDateTime :=
  { d with micro := 0, second := 0, minute := 0, hour := 0, day := 1, month := 1 }

/-- tobosec_modifier.py -/
def tobosecMod : Leaf := calMod .ok (fun d => .ok (toboSec d))
/-- tobomin_modifier.py -/
def tobominMod : Leaf := calMod .ok (fun d => .ok (toboMin d))
/-- tobohour_modifier.py -/
def tobohourMod : Leaf := calMod .ok (fun d => .ok (toboHour d))
/-- toboday_modifier.py -/
def tobodayMod : Leaf := calMod .ok (fun d => .ok (toboDay d))
/-- tobomon_modifier.py -/
def tobomonMod : Leaf := calMod (fun d => .ok { d with day := 1 }) (fun d => .ok (toboMon d))
/-- toboyear_modifier.py -/
def toboyearMod : Leaf := calMod (fun d => .ok { d with day := 1, month := 1 }) (fun d => .ok (toboYear d))

/-- `ToNextSecModifier`: tonextsec_modifier.py:12-13. -/
def tonextsecMod : Leaf := calMod .ok (fun d => do
  let n ← d.nextSec
  pure { n with micro := 0 })
/-- `ToNextMinModifier`: tonextmin_modifier.py:12-13. -/
def tonextminMod : Leaf := calMod .ok (fun d => do
  let n ← d.nextMin
  pure { n with micro := 0, second := 0 })
/-- `ToNextHourModifier`: tonexthour_modifier.py:12-13. -/
def tonexthourMod : Leaf := calMod .ok (fun d => do
  let n ← d.nextHour
  pure { n with micro := 0, second := 0, minute := 0 })
/-- `ToNextDayModifier`: tonextday_modifier.py:12-18. -/
def tonextdayMod : Leaf := calMod PyDate.nextDay (fun d => do
  let n ← d.nextDay
  pure { n with micro := 0, second := 0, minute := 0, hour := 0 })
/-- the year offset and month computed in tonextmon_modifier.py:13-17 and 20-24 -/
def nextMonth (m : Nat) : Nat × Nat :=
  let y := (m + 1) / 12
  let r := (m + 1) % 12
  if r = 0 then (y - 1, 12) else (y, r)
/-- `ToNextMonModifier`: tonextmon_modifier.py:12-28. -/
def tonextmonMod : Leaf := calMod
  (fun d => mkDate (d.year + (nextMonth d.month).1) (nextMonth d.month).2 1)
  (fun d => mkDateTime (d.year + (nextMonth d.month).1) (nextMonth d.month).2 1 0 0 0 0 d.utc)
/-- `ToNextYearModifier`: tonextyear_modifier.py:12-18. -/
def tonextyearMod : Leaf := calMod
  (fun d => mkDate (d.year + 1) 1 1)
  (fun d => mkDateTime (d.year + 1) 1 1 0 0 0 0 d.utc)

/-- a date as a naive datetime at midnight; other values unchanged -/
def combine : Val → Val
  | .date d => .dt (d.midnight false)
  | v => v

/-- `a < b` between datetimes (comparison with anything else is TypeError) -/
def valDtLt : Val → Val → Except Exc Bool
  | .dt a, .dt b => dtLt a b
  | _, _ => .error .typeError

/-- `BeforeModifier`: before_modifier.py:16-28 (values other than dates and datetimes
raise TypeError; numbers, which Python could order, are not modelled). -/
def beforeMod (p : Param) : Leaf where
  validate := fun h c => if c.val.isNone then .ok () else do
    let q ← p h c
    if q.isNone then .ok () else do
      let b ← valDtLt (combine c.val) (combine q)
      rejectIf c "value is too late" (!b)

/-- `AfterModifier`: after_modifier.py:17-36. -/
def afterMod (p : Param) : Leaf where
  validate := fun h c => if c.val.isNone then .ok () else do
    let q ← p h c
    let _ ← (match c.val, q with
      | .date a, .date b => rejectIf c "value is too early" (!(dateLt b a))
      | _, _ => .ok ())
    match c.val, q with
    | .dt a, .dt b => do
      let r ← dtLt b a
      rejectIf c "value is too early" (!r)
    | _, _ => do
      let r ← valDtLt (combine q) (combine c.val)
      rejectIf c "value is too early" (!r)

end JC
