import Verif.Props.DateTime

/-!
# C69: which texts a date or date-time field accepts, and what they mean

The accepted grammar is stated on its own, in terms of decimal numerals.
-/

namespace JC

/-- `cs` is written with the digits 0 to 9 only and stands for `n` in base ten. -/
def Numeral (cs : List Char) (n : Nat) : Prop :=
  (∀ c ∈ cs, '0' ≤ c ∧ c ≤ '9') ∧ n = cs.foldl (fun a c => 10 * a + (c.toNat - '0'.toNat)) 0

/-- A numeral of a given width. -/
def NumeralOf (w : Nat) (cs : List Char) (n : Nat) : Prop := cs.length = w ∧ Numeral cs n

/-- `YYYY-MM-DD`. -/
def DateText (s : List Char) (y m d : Nat) : Prop :=
  ∃ ys ms ds, NumeralOf 4 ys y ∧ NumeralOf 2 ms m ∧ NumeralOf 2 ds d ∧ s = ys ++ '-' :: (ms ++ '-' :: ds)

/-- `HH`, `HH:MM`, `HH:MM:SS`, with milliseconds or with microseconds; parts not written
are 0. -/
inductive TimeText : List Char → Nat → Nat → Nat → Nat → Prop
  | hour {a h} : NumeralOf 2 a h → TimeText a h 0 0 0
  | minute {a b h m} : NumeralOf 2 a h → NumeralOf 2 b m → TimeText (a ++ ':' :: b) h m 0 0
  | second {a b c h m s} : NumeralOf 2 a h → NumeralOf 2 b m → NumeralOf 2 c s →
      TimeText (a ++ ':' :: (b ++ ':' :: c)) h m s 0
  | milli {a b c f h m s k} : NumeralOf 2 a h → NumeralOf 2 b m → NumeralOf 2 c s → NumeralOf 3 f k →
      TimeText (a ++ ':' :: (b ++ ':' :: (c ++ '.' :: f))) h m s (1000 * k)
  | micro {a b c f h m s k} : NumeralOf 2 a h → NumeralOf 2 b m → NumeralOf 2 c s → NumeralOf 6 f k →
      TimeText (a ++ ':' :: (b ++ ':' :: (c ++ '.' :: f))) h m s k

/-- `+HH:MM` or `-HH:MM`, less than 24 hours; `east` is its length in minutes, negative for
`-`. The minutes may be 60 or more. -/
def OffsetText (o : List Char) (east : Int) : Prop :=
  ∃ (g : Char) (a b : List Char) (h m : Nat), (g = '+' ∧ east = h * 60 + m ∨ g = '-' ∧ east = -(h * 60 + m)) ∧ NumeralOf 2 a h ∧ NumeralOf 2 b m ∧
    h * 60 + m < 24 * 60 ∧ o = g :: (a ++ ':' :: b)

/-- A date alone, or a date, one separating character, a time and possibly an offset. The
offset has no part in the meaning. -/
def DateTimeText (s : List Char) (d : PyDateTime) : Prop :=
  ∃ ds, DateText ds d.year d.month d.day ∧
    ((s = ds ∧ d.hour = 0 ∧ d.minute = 0 ∧ d.second = 0 ∧ d.micro = 0) ∨
     (∃ sep ts os, TimeText ts d.hour d.minute d.second d.micro ∧ (os = [] ∨ ∃ e, OffsetText os e) ∧
       s = ds ++ sep :: (ts ++ os)))

theorem digitVal_iff {c : Char} {k : Nat} : digitVal c = some k ↔ ('0' ≤ c ∧ c ≤ '9') ∧ k = c.toNat - '0'.toNat := by
  have e : ('0' ≤ c ∧ c ≤ '9') ↔ (48 ≤ c.toNat ∧ c.toNat ≤ 57) := by
    rw [Char.le_def, Char.le_def, UInt32.le_iff_toNat_le, UInt32.le_iff_toNat_le]; rfl
  have z : '0'.toNat = 48 := rfl
  rw [e, z]; unfold digitVal
  split
  · simp [*]; exact ⟨fun h => h.symm, fun h => h.symm⟩
  · simp [*]

theorem parseNat_none (cs : List Char) : cs.foldl (fun acc c => match acc, digitVal c with
    | some n, some k => some (n * 10 + k)
    | _, _ => none) (none : Option Nat) = none := by
  induction cs with
  | nil => rfl
  | cons c cs ih => exact ih

theorem parseNat_from (cs : List Char) (a n : Nat) : cs.foldl (fun acc c => match acc, digitVal c with
    | some n, some k => some (n * 10 + k)
    | _, _ => none) (some a) = some n ↔
    (∀ c ∈ cs, '0' ≤ c ∧ c ≤ '9') ∧ n = cs.foldl (fun a c => 10 * a + (c.toNat - '0'.toNat)) a := by
  induction cs generalizing a with
  | nil => simp [eq_comm]
  | cons c cs ih =>
    simp only [List.foldl_cons, List.mem_cons, forall_eq_or_imp]
    cases hd : digitVal c with
    | none =>
      simp only [parseNat_none]
      refine ⟨fun h => by simp at h, fun h => ?_⟩
      rw [(digitVal_iff (c := c) (k := c.toNat - '0'.toNat)).2 ⟨h.1.1, rfl⟩] at hd; cases hd
    | some k =>
      obtain ⟨h1, h2⟩ := digitVal_iff.1 hd
      rw [ih, ← h2, Nat.mul_comm]
      exact ⟨fun h => ⟨⟨h1, h.1⟩, h.2⟩, fun h => ⟨h.1.2, h.2⟩⟩

theorem parseNat_iff {cs : List Char} {n : Nat} : parseNat cs = some n ↔ Numeral cs n := parseNat_from cs 0 n

theorem len2 {cs : List Char} (h : cs.length = 2) : ∃ a b, cs = [a, b] := by
  match cs, h with
  | [a, b], _ => exact ⟨a, b, rfl⟩
theorem len3 {cs : List Char} (h : cs.length = 3) : ∃ a b c, cs = [a, b, c] := by
  match cs, h with
  | [a, b, c], _ => exact ⟨a, b, c, rfl⟩
theorem len4 {cs : List Char} (h : cs.length = 4) : ∃ a b c d, cs = [a, b, c, d] := by
  match cs, h with
  | [a, b, c, d], _ => exact ⟨a, b, c, d, rfl⟩
theorem len6 {cs : List Char} (h : cs.length = 6) : ∃ a b c d e f, cs = [a, b, c, d, e, f] := by
  match cs, h with
  | [a, b, c, d, e, f], _ => exact ⟨a, b, c, d, e, f, rfl⟩

theorem parseDate_iff {s : List Char} {d : PyDate} : parseDate s = .ok d ↔
    DateText s d.year d.month d.day ∧ d.Valid := by
  constructor
  · intro h
    unfold parseDate at h
    split at h
    · rename_i y1 y2 y3 y4 m1 m2 d1 d2
      split at h
      · rename_i y m k hy hm hk
        unfold mkDate at h
        split at h
        · rename_i hv
          cases h
          refine ⟨⟨_, _, _, ⟨?_, parseNat_iff.1 hy⟩, ⟨?_, parseNat_iff.1 hm⟩, ⟨?_, parseNat_iff.1 hk⟩, rfl⟩, ?_⟩ <;> try rfl
          rw [PyDate.valid_iff]; exact hv
        · cases h
      · cases h
    · cases h
  · rintro ⟨⟨ys, ms, ds, ⟨ly, hy⟩, ⟨lm, hm⟩, ⟨ld, hd⟩, rfl⟩, hv⟩
    obtain ⟨y1, y2, y3, y4, rfl⟩ := len4 ly
    obtain ⟨m1, m2, rfl⟩ := len2 lm
    obtain ⟨d1, d2, rfl⟩ := len2 ld
    simp only [List.cons_append, List.nil_append, parseDate, parseNat_iff.2 hy, parseNat_iff.2 hm, parseNat_iff.2 hd]
    exact mkDate_valid hv

theorem parseTime_iff {s : List Char} {h m k u : Nat} : parseTime s = some (h, m, k, u) ↔ TimeText s h m k u := by
  constructor
  · intro e
    unfold parseTime at e
    split at e
    · simp only [Option.bind_eq_bind, Option.bind_eq_some_iff, Option.pure_def, Option.some.injEq, Prod.mk.injEq] at e
      obtain ⟨_, h1, rfl, rfl, rfl, rfl⟩ := e
      exact .hour ⟨rfl, parseNat_iff.1 h1⟩
    · simp only [Option.bind_eq_bind, Option.bind_eq_some_iff, Option.pure_def, Option.some.injEq, Prod.mk.injEq] at e
      obtain ⟨_, h1, _, h2, rfl, rfl, rfl, rfl⟩ := e
      exact .minute (a := [_, _]) ⟨rfl, parseNat_iff.1 h1⟩ ⟨rfl, parseNat_iff.1 h2⟩
    · simp only [Option.bind_eq_bind, Option.bind_eq_some_iff, Option.pure_def, Option.some.injEq, Prod.mk.injEq] at e
      obtain ⟨_, h1, _, h2, _, h3, rfl, rfl, rfl, rfl⟩ := e
      exact .second (a := [_, _]) (b := [_, _]) ⟨rfl, parseNat_iff.1 h1⟩ ⟨rfl, parseNat_iff.1 h2⟩ ⟨rfl, parseNat_iff.1 h3⟩
    · simp only [Option.bind_eq_bind, Option.bind_eq_some_iff, Option.pure_def, Option.some.injEq, Prod.mk.injEq] at e
      obtain ⟨_, h1, _, h2, _, h3, _, h4, rfl, rfl, rfl, rfl⟩ := e
      rw [Nat.mul_comm]
      exact .milli (a := [_, _]) (b := [_, _]) (c := [_, _]) ⟨rfl, parseNat_iff.1 h1⟩ ⟨rfl, parseNat_iff.1 h2⟩
        ⟨rfl, parseNat_iff.1 h3⟩ ⟨rfl, parseNat_iff.1 h4⟩
    · simp only [Option.bind_eq_bind, Option.bind_eq_some_iff, Option.pure_def, Option.some.injEq, Prod.mk.injEq] at e
      obtain ⟨_, h1, _, h2, _, h3, _, h4, rfl, rfl, rfl, rfl⟩ := e
      exact .micro (a := [_, _]) (b := [_, _]) (c := [_, _]) ⟨rfl, parseNat_iff.1 h1⟩ ⟨rfl, parseNat_iff.1 h2⟩
        ⟨rfl, parseNat_iff.1 h3⟩ ⟨rfl, parseNat_iff.1 h4⟩
    · cases e
  · intro e
    cases e with
    | hour ha =>
      obtain ⟨_, _, rfl⟩ := len2 ha.1
      simp [parseTime, parseNat_iff.2 ha.2]
    | minute ha hb =>
      obtain ⟨_, _, rfl⟩ := len2 ha.1
      obtain ⟨_, _, rfl⟩ := len2 hb.1
      simp [parseTime, parseNat_iff.2 ha.2, parseNat_iff.2 hb.2]
    | second ha hb hc =>
      obtain ⟨_, _, rfl⟩ := len2 ha.1
      obtain ⟨_, _, rfl⟩ := len2 hb.1
      obtain ⟨_, _, rfl⟩ := len2 hc.1
      simp [parseTime, parseNat_iff.2 ha.2, parseNat_iff.2 hb.2, parseNat_iff.2 hc.2]
    | milli ha hb hc hf =>
      obtain ⟨_, _, rfl⟩ := len2 ha.1
      obtain ⟨_, _, rfl⟩ := len2 hb.1
      obtain ⟨_, _, rfl⟩ := len2 hc.1
      obtain ⟨_, _, _, rfl⟩ := len3 hf.1
      simp [parseTime, parseNat_iff.2 ha.2, parseNat_iff.2 hb.2, parseNat_iff.2 hc.2, parseNat_iff.2 hf.2, Nat.mul_comm]
    | micro ha hb hc hf =>
      obtain ⟨_, _, rfl⟩ := len2 ha.1
      obtain ⟨_, _, rfl⟩ := len2 hb.1
      obtain ⟨_, _, rfl⟩ := len2 hc.1
      obtain ⟨_, _, _, _, _, _, rfl⟩ := len6 hf.1
      simp [parseTime, parseNat_iff.2 ha.2, parseNat_iff.2 hb.2, parseNat_iff.2 hc.2, parseNat_iff.2 hf.2]

theorem parseOffset_iff {o : List Char} : parseOffset o = true ↔
    ∃ a b h m, NumeralOf 2 a h ∧ NumeralOf 2 b m ∧ h * 60 + m < 24 * 60 ∧ o = a ++ ':' :: b := by
  constructor
  · intro e
    unfold parseOffset at e
    split at e
    · split at e
      · rename_i h m h1 h2
        simp only [decide_eq_true_eq] at e
        exact ⟨[_, _], [_, _], h, m, ⟨rfl, parseNat_iff.1 h1⟩, ⟨rfl, parseNat_iff.1 h2⟩, e, rfl⟩
      · cases e
    · cases e
  · rintro ⟨a, b, h, m, ha, hb, h1, rfl⟩
    obtain ⟨_, _, rfl⟩ := len2 ha.1
    obtain ⟨_, _, rfl⟩ := len2 hb.1
    simp [parseOffset, parseNat_iff.2 ha.2, parseNat_iff.2 hb.2, h1]

theorem isSign_iff {c : Char} : isSign c = true ↔ c = '+' ∨ c = '-' := by simp [isSign]

theorem numeral_no_sign {w : Nat} {cs : List Char} {n : Nat} (h : NumeralOf w cs n) : ∀ c ∈ cs, isSign c = false := by
  intro c hc
  obtain ⟨h1, h2⟩ := h.2.1 c hc
  cases e : isSign c with
  | false => rfl
  | true =>
    rcases isSign_iff.1 e with rfl | rfl
    · exact absurd h1 (by decide)
    · exact absurd h1 (by decide)

theorem time_no_sign {s : List Char} {h m k u : Nat} (t : TimeText s h m k u) : ∀ c ∈ s, isSign c = false := by
  have s1 : isSign ':' = false := rfl
  have s2 : isSign '.' = false := rfl
  cases t with
  | hour ha => exact numeral_no_sign ha
  | minute ha hb =>
    intro c hc
    simp only [List.mem_append, List.mem_cons] at hc
    rcases hc with hc | rfl | hc
    · exact numeral_no_sign ha c hc
    · exact s1
    · exact numeral_no_sign hb c hc
  | second ha hb hc' =>
    intro c hc
    simp only [List.mem_append, List.mem_cons] at hc
    rcases hc with hc | rfl | hc | rfl | hc
    · exact numeral_no_sign ha c hc
    · exact s1
    · exact numeral_no_sign hb c hc
    · exact s1
    · exact numeral_no_sign hc' c hc
  | milli ha hb hc' hf =>
    intro c hc
    simp only [List.mem_append, List.mem_cons] at hc
    rcases hc with hc | rfl | hc | rfl | hc | rfl | hc
    · exact numeral_no_sign ha c hc
    · exact s1
    · exact numeral_no_sign hb c hc
    · exact s1
    · exact numeral_no_sign hc' c hc
    · exact s2
    · exact numeral_no_sign hf c hc
  | micro ha hb hc' hf =>
    intro c hc
    simp only [List.mem_append, List.mem_cons] at hc
    rcases hc with hc | rfl | hc | rfl | hc | rfl | hc
    · exact numeral_no_sign ha c hc
    · exact s1
    · exact numeral_no_sign hb c hc
    · exact s1
    · exact numeral_no_sign hc' c hc
    · exact s2
    · exact numeral_no_sign hf c hc

theorem offset_iff {o : List Char} : (∃ e, OffsetText o e) ↔ ∃ c t, o = c :: t ∧ isSign c = true ∧ parseOffset t = true := by
  constructor
  · rintro ⟨e, g, a, b, h, m, hg, ha, hb, hlt, rfl⟩
    refine ⟨g, _, rfl, isSign_iff.2 ?_, parseOffset_iff.2 ⟨a, b, h, m, ha, hb, hlt, rfl⟩⟩
    rcases hg with hg | hg
    · exact .inl hg.1
    · exact .inr hg.1
  · rintro ⟨g, t, rfl, hg, hp⟩
    obtain ⟨a, b, h, m, ha, hb, hlt, rfl⟩ := parseOffset_iff.1 hp
    rcases isSign_iff.1 hg with rfl | rfl
    · exact ⟨h * 60 + m, _, a, b, h, m, .inl ⟨rfl, rfl⟩, ha, hb, hlt, rfl⟩
    · exact ⟨-(h * 60 + m), _, a, b, h, m, .inr ⟨rfl, rfl⟩, ha, hb, hlt, rfl⟩

theorem takeWhile_app {p : Char → Bool} {a b : List Char} (ha : ∀ c ∈ a, p c = true)
    (hb : b = [] ∨ ∃ c t, b = c :: t ∧ p c = false) : (a ++ b).takeWhile p = a ∧ (a ++ b).dropWhile p = b := by
  induction a with
  | nil =>
    rcases hb with rfl | ⟨c, t, rfl, hc⟩
    · exact ⟨rfl, rfl⟩
    · simp [hc]
  | cons x a ih =>
    have hx := ha x (by simp)
    have := ih (fun c hc => ha c (by simp [hc]))
    simp [hx, this.1, this.2]

theorem dropWhile_head {p : Char → Bool} (s : List Char) : s.dropWhile p = [] ∨ ∃ c t, s.dropWhile p = c :: t ∧ p c = false := by
  induction s with
  | nil => exact .inl rfl
  | cons x s ih =>
    cases hx : p x with
    | false => exact .inr ⟨x, s, by simp [List.dropWhile, hx], hx⟩
    | true => simpa [List.dropWhile, hx] using ih

theorem mkDateTime_iff {y m d h mi s u : Nat} {b : Bool} {r : PyDateTime} :
    mkDateTime y m d h mi s u b = .ok r ↔ r = ⟨y, m, d, h, mi, s, u, b⟩ ∧ r.Valid := by
  constructor
  · intro e
    unfold mkDateTime at e
    split at e
    · rename_i hv
      cases e
      refine ⟨rfl, ?_⟩
      rw [PyDateTime.valid_iff]; simp only; omega
    · cases e
  · rintro ⟨rfl, hv⟩
    exact mkDateTime_valid hv

theorem parseDateTime_iff {s : List Char} {d : PyDateTime} : parseDateTime s = .ok d ↔
    DateTimeText s d ∧ d.Valid ∧ d.utc = true := by
  constructor
  · intro e
    unfold parseDateTime at e
    cases hq : parseDate (s.take 10) with
    | error x => rw [hq] at e; cases e
    | ok q =>
    rw [hq] at e; simp only [Except.bind_ok_eq] at e
    obtain ⟨hdt, hqv⟩ := parseDate_iff.1 hq
    have hs : s.take 10 ++ s.drop 10 = s := List.take_append_drop 10 s
    split at e
    · rename_i hd
      obtain ⟨rfl, hv⟩ := mkDateTime_iff.1 e
      rw [hd, List.append_nil] at hs
      exact ⟨⟨_, hdt, .inl ⟨hs.symm, rfl, rfl, rfl, rfl⟩⟩, hv, rfl⟩
    · rename_i sep t hd
      split at e
      · rename_i h mi se us ht ho
        obtain ⟨rfl, hv⟩ := mkDateTime_iff.1 e
        refine ⟨⟨_, hdt, .inr ⟨sep, _, t.dropWhile (fun c => !isSign c), parseTime_iff.1 ht, ?_, ?_⟩⟩, hv, rfl⟩
        · rcases dropWhile_head (p := fun c => !isSign c) t with h0 | ⟨c, o, h0, hc⟩
          · exact .inl h0
          · rw [h0] at ho ⊢
            exact .inr (offset_iff.2 ⟨c, o, rfl, by simpa using hc, ho⟩)
        · rw [List.takeWhile_append_dropWhile, ← hd, hs]
      · cases e
  · rintro ⟨⟨ds, hdt, hcase⟩, hv, hu⟩
    have hlen : ds.length = 10 := by
      obtain ⟨ys, ms, dd, h1, h2, h3, rfl⟩ := hdt
      simp [h1.1, h2.1, h3.1]
    have hp : parseDate ds = .ok ⟨d.year, d.month, d.day⟩ := parseDate_iff.2 ⟨hdt, hv.1⟩
    unfold parseDateTime
    rcases hcase with ⟨rfl, h1, h2, h3, h4⟩ | ⟨sep, ts, os, ht, ho, rfl⟩
    · rw [List.take_of_length_le (by omega), List.drop_of_length_le (by omega), hp]
      simp only [Except.bind_ok_eq]
      refine mkDateTime_iff.2 ⟨?_, hv⟩
      cases d; simp_all
    · have e1 : (ds ++ sep :: (ts ++ os)).take 10 = ds := by rw [← hlen]; simp
      have e2 : (ds ++ sep :: (ts ++ os)).drop 10 = sep :: (ts ++ os) := by rw [← hlen]; simp
      have hoff : os = [] ∨ ∃ c t, os = c :: t ∧ (!isSign c) = false := by
        rcases ho with rfl | ho
        · exact .inl rfl
        · obtain ⟨c, t, rfl, hc, _⟩ := offset_iff.1 ho
          exact .inr ⟨c, t, rfl, by simp [hc]⟩
      obtain ⟨t1, t2⟩ := takeWhile_app (p := fun c => !isSign c) (fun c hc => by simp [time_no_sign ht c hc]) hoff
      rw [e1, e2, hp]
      simp only [Except.bind_ok_eq]
      rw [t1, t2, parseTime_iff.2 ht]
      have hgood : mkDateTime d.year d.month d.day d.hour d.minute d.second d.micro true = .ok d := by
        have := mkDateTime_valid hv
        rwa [hu] at this
      rcases ho with rfl | ho
      · exact hgood
      · obtain ⟨c, t, rfl, _, hpo⟩ := offset_iff.1 ho
        simp only [hpo]; exact hgood

theorem parseDate_err {s : List Char} {x : Exc} (h : parseDate s = .error x) : x = .valueError := by
  unfold parseDate at h
  split at h
  · split at h
    · unfold mkDate at h; split at h
      · cases h
      · cases h; rfl
    · cases h; rfl
  · cases h; rfl

theorem parseDateTime_err {s : List Char} {x : Exc} (h : parseDateTime s = .error x) : x = .valueError := by
  unfold parseDateTime at h
  have mk : ∀ {y m d a b c u : Nat} {z : Bool}, mkDateTime y m d a b c u z = .error x → x = .valueError := by
    intro y m d a b c u z e
    unfold mkDateTime at e; split at e
    · cases e
    · cases e; rfl
  cases hq : parseDate (s.take 10) with
  | error y => rw [hq] at h; cases h; exact parseDate_err hq
  | ok q =>
    rw [hq] at h; simp only [Except.bind_ok_eq] at h
    split at h
    · exact mk h
    · split at h
      · exact mk h
      · cases h; rfl

variable {h : Heap} {c : Ctx}

/-- **C69** a date-time field reads a text exactly when, with every `Z` taken out, it has
the form above and names a moment of the calendar; the result is that moment as UTC, the
parts not written being 0. -/
theorem datetime_reads_iff {s : String} {v : Val} (hs : c.val = .str s) :
    datetimeMod.transform h c = .ok v ↔
      ∃ d, v = .dt d ∧ DateTimeText (s.toList.filter (· != 'Z')) d ∧ d.Valid ∧ d.utc = true := by
  simp only [datetimeMod, hs]
  cases hp : parseDateTime (s.toList.filter (· != 'Z')) with
  | ok d =>
    have hd := parseDateTime_iff.1 hp
    simp only [valueToVexc, Except.bind_ok_eq]
    constructor
    · intro e; cases e; exact ⟨d, rfl, hd⟩
    · rintro ⟨d', rfl, hd'⟩
      rw [parseDateTime_iff.2 hd'] at hp
      cases hp; rfl
  | error x =>
    cases parseDateTime_err hp
    refine ⟨(fun e => by cases e), ?_⟩
    rintro ⟨d', rfl, hd'⟩
    rw [parseDateTime_iff.2 hd'] at hp; cases hp

/-- **C69** every other text is a validation error at the field. -/
theorem datetime_rejects {s : String} (hs : c.val = .str s)
    (hno : ∀ d : PyDateTime, d.Valid → ¬ DateTimeText (s.toList.filter (· != 'Z')) d) :
    datetimeMod.transform h c = .error (.validation [(dotJoin (c.fkeypathr.map Key.str), "wrong datetime format")]) := by
  simp only [datetimeMod, hs]
  cases hp : parseDateTime (s.toList.filter (· != 'Z')) with
  | ok d => exact absurd (parseDateTime_iff.1 hp).1 (hno d (parseDateTime_iff.1 hp).2.1)
  | error x => cases parseDateTime_err hp; rfl

/-- **C69** a date field reads the first ten characters of a text, whatever follows. -/
theorem date_reads_iff {s : String} {v : Val} (hs : c.val = .str s) :
    dateMod.transform h c = .ok v ↔
      ∃ d, v = .date d ∧ DateText (s.toList.take 10) d.year d.month d.day ∧ d.Valid := by
  simp only [dateMod, hs]
  cases hp : parseDate (s.toList.take 10) with
  | ok d =>
    have hd := parseDate_iff.1 hp
    simp only [valueToVexc, Except.bind_ok_eq]
    constructor
    · intro e; cases e; exact ⟨d, rfl, hd⟩
    · rintro ⟨d', rfl, hd'⟩
      rw [parseDate_iff.2 hd'] at hp
      cases hp; rfl
  | error x =>
    cases parseDate_err hp
    refine ⟨(fun e => by cases e), ?_⟩
    rintro ⟨d', rfl, hd'⟩
    rw [parseDate_iff.2 hd'] at hp; cases hp

/-- **C69** every other text is a validation error at the field. -/
theorem date_rejects {s : String} (hs : c.val = .str s)
    (hno : ∀ d : PyDate, d.Valid → ¬ DateText (s.toList.take 10) d.year d.month d.day) :
    dateMod.transform h c = .error (.validation [(dotJoin (c.fkeypathr.map Key.str), "wrong date format")]) := by
  simp only [dateMod, hs]
  cases hp : parseDate (s.toList.take 10) with
  | ok d => exact absurd (parseDate_iff.1 hp).1 (hno d (parseDate_iff.1 hp).2)
  | error x => cases parseDate_err hp; rfl

/-- **C69** a date-time field turns a plain date into its first moment, in UTC. -/
theorem datetime_of_date {d : PyDate} (hv : c.val = .date d) (hd : d.Valid) :
    datetimeMod.transform h c = .ok (.dt ⟨d.year, d.month, d.day, 0, 0, 0, 0, true⟩) := by
  have : mkDateTime d.year d.month d.day 0 0 0 0 true = .ok ⟨d.year, d.month, d.day, 0, 0, 0, 0, true⟩ :=
    mkDateTime_iff.2 ⟨rfl, hd, (by simp)⟩
  simp only [datetimeMod, hv, this]; rfl

/-- **C69** a date field keeps the day of a date-time. -/
theorem date_of_datetime {d : PyDateTime} (hv : c.val = .dt d) (hd : d.Valid) :
    dateMod.transform h c = .ok (.date ⟨d.year, d.month, d.day⟩) := by
  have : mkDate d.year d.month d.day = .ok ⟨d.year, d.month, d.day⟩ := mkDate_valid (d := ⟨d.year, d.month, d.day⟩) hd.1
  simp only [dateMod, hv, this]; rfl

/-- **C69** violated for offsets: whatever date-time text is accepted with an offset, the
same text without it gives the same moment, so an offset other than zero moves the moment
by its whole length. -/
theorem datetime_offset_ignored {ds ts os : List Char} {sep : Char} {e : Int} {d : PyDateTime}
    (hd : DateText ds d.year d.month d.day) (ht : TimeText ts d.hour d.minute d.second d.micro)
    (ho : OffsetText os e) (hv : d.Valid) (hu : d.utc = true) (hz : ∀ x ∈ ds ++ sep :: (ts ++ os), x ≠ 'Z')
    (hs : c.val = .str (String.ofList (ds ++ sep :: (ts ++ os)))) :
    datetimeMod.transform h c = .ok (.dt d) ∧
    datetimeMod.transform h (c.nval (.str (String.ofList (ds ++ sep :: ts)))) = .ok (.dt d) := by
  constructor
  · refine (datetime_reads_iff hs).2 ⟨d, rfl, ⟨ds, hd, .inr ⟨sep, ts, os, ht, .inr ⟨e, ho⟩, ?_⟩⟩, hv, hu⟩
    rw [String.toList_ofList, List.filter_eq_self]
    intro x hx; simpa using hz x hx
  · refine (datetime_reads_iff rfl).2 ⟨d, rfl, ⟨ds, hd, .inr ⟨sep, ts, [], ht, .inl rfl, ?_⟩⟩, hv, hu⟩
    rw [String.toList_ofList, List.append_nil, List.filter_eq_self]
    intro x hx
    have : x ∈ ds ++ sep :: (ts ++ os) := by
      simp only [List.mem_append, List.mem_cons] at hx ⊢
      rcases hx with hx | hx | hx <;> simp [hx]
    simpa using hz x this

/-! ### Cases -/

theorem numeralOf_of {w : Nat} {cs : List Char} {n : Nat} (h1 : cs.length = w)
    (h2 : cs.all (fun c => decide ('0' ≤ c) && decide (c ≤ '9')) = true)
    (h3 : n = cs.foldl (fun a c => 10 * a + (c.toNat - '0'.toNat)) 0) : NumeralOf w cs n :=
  ⟨h1, fun c hc => by simpa using List.all_eq_true.1 h2 c hc, h3⟩

/-- half past eight on a leap day, the seconds not written -/
example : datetimeMod.transform (fun _ => {}) { val := .str "2024-02-29 08:30Z" } = .ok (.dt ⟨2024, 2, 29, 8, 30, 0, 0, true⟩) :=
  (datetime_reads_iff rfl).2 ⟨_, rfl,
    ⟨"2024-02-29".toList, ⟨"2024".toList, "02".toList, "29".toList, numeralOf_of rfl rfl rfl, numeralOf_of rfl rfl rfl,
      numeralOf_of rfl rfl rfl, rfl⟩,
      .inr ⟨' ', "08".toList ++ ':' :: "30".toList, [], .minute (numeralOf_of rfl rfl rfl) (numeralOf_of rfl rfl rfl),
        .inl rfl, rfl⟩⟩, by rw [PyDateTime.valid_iff]; decide, rfl⟩

/-- noon in Shanghai is read as noon UTC -/
example : datetimeMod.transform (fun _ => {}) { val := .str "2024-02-29T12+08:00" } = .ok (.dt ⟨2024, 2, 29, 12, 0, 0, 0, true⟩) :=
  (datetime_offset_ignored (ds := "2024-02-29".toList) (sep := 'T') (ts := "12".toList) (os := "+08:00".toList) (e := 480)
    (d := ⟨2024, 2, 29, 12, 0, 0, 0, true⟩)
    ⟨"2024".toList, "02".toList, "29".toList, numeralOf_of rfl rfl rfl, numeralOf_of rfl rfl rfl, numeralOf_of rfl rfl rfl, rfl⟩
    (.hour (numeralOf_of rfl rfl rfl))
    ⟨'+', "08".toList, "00".toList, 8, 0, .inl ⟨rfl, rfl⟩, numeralOf_of rfl rfl rfl, numeralOf_of rfl rfl rfl, by decide, rfl⟩
    (by rw [PyDateTime.valid_iff]; decide) rfl (by decide) rfl).1

/-- the 29th of February 2023 does not exist -/
example : dateMod.transform (fun _ => {}) { val := .str "2023-02-29" } = .error (.validation [("", "wrong date format")]) := by
  refine date_rejects (s := "2023-02-29") rfl ?_
  rintro ⟨y, m, d⟩ hv ht
  have := parseDate_iff.2 ⟨ht, hv⟩
  cases this

end JC
