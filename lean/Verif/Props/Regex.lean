import Verif.Model.Regex
import Verif.Props.Strings
import Mathlib.Data.List.Forall2
import Mathlib.Tactic.Tauto

/-
C63: text patterns. `match`, `replacer` and the built-in formats (`email`, `url`, `hexcolor`,
`securepw`, `alpha`, `digit`, `numeric`, `alnum`) accept exactly the strings described below;
the descriptions do not mention regular expressions, except that `match` and `replacer` take
the language of the given pattern.
-/
namespace JC

/-! ### The language of a pattern -/

/-- Patterns without `^`, `$`, `\b` and look-ahead: what they match does not depend on the
text around. The limits of a repetition are in order, as `re` requires. -/
def Rx.Plain : Rx → Prop
  | .bol | .eol | .bnd | .look _ => False
  | .seq a b | .alt a b => a.Plain ∧ b.Plain
  | .rep a lo hi => a.Plain ∧ ∀ m, hi = some m → lo ≤ m
  | .grp _ a => a.Plain
  | _ => True

/-- The texts a pattern stands for. -/
def Rx.Lang (U : Uni) (ci : Bool) : Rx → List Char → Prop
  | .chr d, w => ∃ c, w = [c] ∧ d ∈ variants ci c
  | .cls items, w => ∃ c, w = [c] ∧ ∃ x ∈ variants ci c, ∃ i ∈ items, i.has x = true
  | .dot, w => ∃ c, w = [c] ∧ c ≠ '\n'
  | .dec, w => ∃ c, w = [c] ∧ U.decimal c = true
  | .nonspace, w => ∃ c, w = [c] ∧ isSpace c = false
  | .bol, _ | .eol, _ | .bnd, _ | .look _, _ => False
  | .emp, w => w = []
  | .seq a b, w => ∃ u v, w = u ++ v ∧ a.Lang U ci u ∧ b.Lang U ci v
  | .alt a b, w => a.Lang U ci w ∨ b.Lang U ci w
  | .rep a lo hi, w => ∃ ws : List (List Char), w = ws.flatten ∧ (∀ v ∈ ws, a.Lang U ci v) ∧ lo ≤ ws.length ∧
      ∀ m, hi = some m → ws.length ≤ m
  | .grp _ a, w => a.Lang U ci w

/-- the function steps over exactly the texts of a language -/
def Steps (f : Spot → List Spot) (P : List Char → Prop) : Prop :=
  ∀ s t : Spot, t ∈ f s ↔ ∃ w, P w ∧ s.after = w ++ t.after ∧ t.before = w.reverse ++ s.before

theorem spot_ext {s t : Spot} (h1 : s.before = t.before) (h2 : s.after = t.after) : s = t := by
  cases s; cases t; simp_all

theorem steps_stepIf (p : Char → Bool) : Steps (stepIf p) (fun w => ∃ c, w = [c] ∧ p c = true) := by
  intro s t
  obtain ⟨b, a⟩ := s
  cases a with
  | nil =>
    simp only [stepIf, List.not_mem_nil, false_iff]
    rintro ⟨w, ⟨c, rfl, _⟩, h, _⟩
    simp at h
  | cons c a =>
    simp only [stepIf]
    constructor
    · intro ht
      by_cases hp : p c = true
      · simp [hp] at ht; subst ht; exact ⟨[c], ⟨c, rfl, hp⟩, rfl, rfl⟩
      · simp [hp] at ht
    · rintro ⟨w, ⟨c', rfl, hp⟩, h1, h2⟩
      simp at h1
      obtain ⟨rfl, rfl⟩ := h1
      simp [hp]
      exact spot_ext h2 rfl

theorem steps_nil : Steps (fun s => [s]) (fun w => w = []) := by
  intro s t
  constructor
  · intro h; simp at h; subst h; exact ⟨[], rfl, rfl, rfl⟩
  · rintro ⟨w, rfl, h1, h2⟩
    simp at h1 h2 ⊢
    exact spot_ext h2 h1.symm

theorem steps_seq {f g : Spot → List Spot} {P Q : List Char → Prop} (hf : Steps f P) (hg : Steps g Q) :
    Steps (fun s => (f s).flatMap g) (fun w => ∃ u v, w = u ++ v ∧ P u ∧ Q v) := by
  intro s t
  simp only [List.mem_flatMap]
  constructor
  · rintro ⟨m, hm, ht⟩
    obtain ⟨u, hu, h1, h2⟩ := (hf s m).1 hm
    obtain ⟨v, hv, h3, h4⟩ := (hg m t).1 ht
    exact ⟨u ++ v, ⟨u, v, rfl, hu, hv⟩, by rw [h1, h3, List.append_assoc], by rw [h4, h2]; simp⟩
  · rintro ⟨w, ⟨u, v, rfl, hu, hv⟩, h1, h2⟩
    refine ⟨⟨u.reverse ++ s.before, v ++ t.after⟩, (hf _ _).2 ⟨u, hu, by simp [h1], rfl⟩, (hg _ _).2 ⟨v, hv, rfl, ?_⟩⟩
    simp [h2]

theorem steps_alt {f g : Spot → List Spot} {P Q : List Char → Prop} (hf : Steps f P) (hg : Steps g Q) :
    Steps (fun s => f s ++ g s) (fun w => P w ∨ Q w) := by
  intro s t
  simp only [List.mem_append, hf s t, hg s t]
  constructor
  · rintro (⟨w, h, r⟩ | ⟨w, h, r⟩)
    · exact ⟨w, .inl h, r⟩
    · exact ⟨w, .inr h, r⟩
  · rintro ⟨w, h | h, r⟩
    · exact .inl ⟨w, h, r⟩
    · exact .inr ⟨w, h, r⟩

theorem steps_congr {f : Spot → List Spot} {P Q : List Char → Prop} (hf : Steps f P) (h : ∀ w, P w ↔ Q w) :
    Steps f Q := fun s t => by
  rw [hf s t]
  exact ⟨fun ⟨w, a, b⟩ => ⟨w, (h w).1 a, b⟩, fun ⟨w, a, b⟩ => ⟨w, (h w).2 a, b⟩⟩

theorem steps_times {f : Spot → List Spot} {P : List Char → Prop} (hf : Steps f P) (n : Nat) :
    Steps (timesR f n) (fun w => ∃ ws : List (List Char), w = ws.flatten ∧ (∀ v ∈ ws, P v) ∧ ws.length = n) := by
  induction n with
  | zero =>
    refine steps_congr steps_nil fun w => ?_
    constructor
    · rintro rfl; exact ⟨[], rfl, by simp, rfl⟩
    · rintro ⟨ws, rfl, _, h⟩; simp [List.length_eq_zero_iff.1 h]
  | succ n ih =>
    refine steps_congr (steps_seq hf ih) fun w => ?_
    constructor
    · rintro ⟨u, v, rfl, hu, ws, rfl, h1, h2⟩
      exact ⟨u :: ws, rfl, by simpa using ⟨hu, h1⟩, by simp [h2]⟩
    · rintro ⟨ws, rfl, h1, h2⟩
      cases ws with
      | nil => simp at h2
      | cons u ws =>
        exact ⟨u, ws.flatten, rfl, h1 u (by simp), ws, rfl, fun v hv => h1 v (by simp [hv]), by simpa using h2⟩

theorem steps_upTo {f : Spot → List Spot} {P : List Char → Prop} (hf : Steps f P) (n : Nat) :
    Steps (upToR f n) (fun w => ∃ ws : List (List Char), w = ws.flatten ∧ (∀ v ∈ ws, P v ∧ v ≠ []) ∧ ws.length ≤ n) := by
  induction n with
  | zero =>
    refine steps_congr steps_nil fun w => ?_
    constructor
    · rintro rfl; exact ⟨[], rfl, by simp, by simp⟩
    · rintro ⟨ws, rfl, _, h⟩; simp [List.length_eq_zero_iff.1 (by omega : ws.length = 0)]
  | succ n ih =>
    have hp : Steps (fun s => (f s).filter (fun t => decide (t.after.length < s.after.length)))
        (fun w => P w ∧ w ≠ []) := by
      intro s t
      simp only [List.mem_filter, decide_eq_true_eq, hf s t]
      constructor
      · rintro ⟨⟨w, h1, h2, h3⟩, h4⟩
        refine ⟨w, ⟨h1, ?_⟩, h2, h3⟩
        rintro rfl
        simp [h2] at h4
      · rintro ⟨w, ⟨h1, h4⟩, h2, h3⟩
        refine ⟨⟨w, h1, h2, h3⟩, ?_⟩
        rw [h2, List.length_append]
        have := List.length_pos_of_ne_nil h4
        omega
    refine steps_congr (steps_alt (steps_seq hp ih) steps_nil) fun w => ?_
    constructor
    · rintro (⟨u, v, rfl, hu, ws, rfl, h1, h2⟩ | rfl)
      · exact ⟨u :: ws, rfl, by simpa using ⟨hu, h1⟩, by simp; omega⟩
      · exact ⟨[], rfl, by simp, by simp⟩
    · rintro ⟨ws, rfl, h1, h2⟩
      cases ws with
      | nil => exact .inr rfl
      | cons u ws =>
        refine .inl ⟨u, ws.flatten, rfl, h1 u (by simp), ws, rfl, fun v hv => h1 v (by simp [hv]), ?_⟩
        simp at h2; omega

theorem flatten_nonempty (ws : List (List Char)) :
    (ws.filter (fun v => !v.isEmpty)).flatten = ws.flatten := by
  induction ws with
  | nil => rfl
  | cons w ws ih => cases w <;> simp [ih]

theorem length_flatten_ge {ws : List (List Char)} (h : ∀ v ∈ ws, v ≠ []) : ws.length ≤ ws.flatten.length := by
  induction ws with
  | nil => simp
  | cons w ws ih =>
    have := ih fun v hv => h v (by simp [hv])
    have := List.length_pos_of_ne_nil (h w (by simp))
    simp at *; omega

/-- at most `n` rounds, empty ones allowed -/
theorem steps_upTo' {f : Spot → List Spot} {P : List Char → Prop} (hf : Steps f P) (n : Nat) :
    Steps (upToR f n) (fun w => ∃ ws : List (List Char), w = ws.flatten ∧ (∀ v ∈ ws, P v) ∧ ws.length ≤ n) := by
  refine steps_congr (steps_upTo hf n) fun w => ?_
  constructor
  · rintro ⟨ws, h1, h2, h3⟩; exact ⟨ws, h1, fun v hv => (h2 v hv).1, h3⟩
  · rintro ⟨ws, h1, h2, h3⟩
    refine ⟨ws.filter (fun v => !v.isEmpty), by rw [flatten_nonempty, h1], ?_, ?_⟩
    · intro v hv
      simp at hv
      exact ⟨h2 v hv.1, hv.2⟩
    · exact Nat.le_trans (List.length_filter_le _ _) h3

theorem steps_star {f : Spot → List Spot} {P : List Char → Prop} (hf : Steps f P) :
    Steps (fun s => upToR f s.after.length s) (fun w => ∃ ws : List (List Char), w = ws.flatten ∧ (∀ v ∈ ws, P v)) := by
  intro s t
  rw [steps_upTo hf s.after.length s t]
  constructor
  · rintro ⟨w, ⟨ws, h1, h2, h3⟩, h4⟩; exact ⟨w, ⟨ws, h1, fun v hv => (h2 v hv).1⟩, h4⟩
  · rintro ⟨w, ⟨ws, h1, h2⟩, h4⟩
    have hne : ∀ v ∈ ws.filter (fun v => !v.isEmpty), v ≠ [] := by intro v hv; simp at hv; exact hv.2
    refine ⟨w, ⟨ws.filter (fun v => !v.isEmpty), by rw [flatten_nonempty, h1], ?_, ?_⟩, h4⟩
    · intro v hv
      refine ⟨?_, hne v hv⟩
      simp at hv
      exact h2 v hv.1
    · have := length_flatten_ge hne
      rw [flatten_nonempty, ← h1] at this
      rw [h4.1, List.length_append]; omega

/-- The matcher finds exactly the texts of the language. -/
theorem ends_plain (U : Uni) (ci : Bool) {r : Rx} (hr : r.Plain) : Steps (r.ends U ci) (r.Lang U ci) := by
  induction r with
  | chr d =>
    refine steps_congr (steps_stepIf _) fun w => ?_
    simp [Rx.Lang]
  | cls items =>
    refine steps_congr (steps_stepIf _) fun w => ?_
    simp [Rx.Lang]
  | dot =>
    refine steps_congr (steps_stepIf _) fun w => ?_
    simp [Rx.Lang]
  | dec => exact steps_stepIf _
  | nonspace =>
    refine steps_congr (steps_stepIf _) fun w => ?_
    simp [Rx.Lang]
  | bol => exact hr.elim
  | eol => exact hr.elim
  | bnd => exact hr.elim
  | look a => exact hr.elim
  | emp => exact steps_nil
  | seq a b iha ihb => exact steps_seq (iha hr.1) (ihb hr.2)
  | alt a b iha ihb => exact steps_alt (iha hr.1) (ihb hr.2)
  | grp k a iha => exact iha hr
  | rep a lo hi iha =>
    have ha := iha hr.1
    cases hi with
    | none =>
      refine steps_congr (steps_seq (steps_times ha lo) (steps_star ha)) fun w => ?_
      constructor
      · rintro ⟨u, v, rfl, ⟨us, rfl, h1, h2⟩, vs, rfl, h3⟩
        refine ⟨us ++ vs, by simp, ?_, by simp; omega, fun _ h => nomatch h⟩
        intro x hx
        rcases List.mem_append.1 hx with h | h
        · exact h1 x h
        · exact h3 x h
      · rintro ⟨ws, rfl, h1, h2, _⟩
        refine ⟨(ws.take lo).flatten, (ws.drop lo).flatten, by rw [← List.flatten_append, List.take_append_drop],
          ⟨_, rfl, fun v hv => h1 v (List.mem_of_mem_take hv), by simp; omega⟩,
          _, rfl, fun v hv => h1 v (List.mem_of_mem_drop hv)⟩
    | some m =>
      have hm := hr.2 m rfl
      refine steps_congr (steps_seq (steps_times ha lo) (steps_upTo' ha (m - lo))) fun w => ?_
      constructor
      · rintro ⟨u, v, rfl, ⟨us, rfl, h1, h2⟩, vs, rfl, h3, h4⟩
        refine ⟨us ++ vs, by simp, ?_, by simp; omega, ?_⟩
        · intro x hx
          rcases List.mem_append.1 hx with h | h
          · exact h1 x h
          · exact h3 x h
        · intro m' e; cases e; simp; omega
      · rintro ⟨ws, rfl, h1, h2, h3⟩
        have h3 := h3 m rfl
        refine ⟨(ws.take lo).flatten, (ws.drop lo).flatten, by rw [← List.flatten_append, List.take_append_drop],
          ⟨_, rfl, fun v hv => h1 v (List.mem_of_mem_take hv), by simp; omega⟩,
          _, rfl, fun v hv => h1 v (List.mem_of_mem_drop hv), by simp; omega⟩

/-! ### `match` -/

variable {U : Uni} {h : Heap} {c : Ctx}

theorem mem_seq {ci : Bool} {a b : Rx} {s t : Spot} :
    t ∈ (Rx.seq a b).ends U ci s ↔ ∃ m, m ∈ a.ends U ci s ∧ t ∈ b.ends U ci m := by
  rw [Rx.ends, List.mem_flatMap]

theorem mem_grp {ci k : Bool} {a : Rx} {s t : Spot} : t ∈ (Rx.grp k a).ends U ci s ↔ t ∈ a.ends U ci s := by
  rw [Rx.ends]

theorem mem_look {ci : Bool} {a : Rx} {s t : Spot} :
    t ∈ (Rx.look a).ends U ci s ↔ t = s ∧ ∃ m, m ∈ a.ends U ci s := by
  rw [Rx.ends]
  cases a.ends U ci s <;> simp

theorem isEmpty_ends {l : List Spot} : (!l.isEmpty) = true ↔ ∃ t, t ∈ l := by
  cases l <;> simp

theorem searchFrom_iff {ci : Bool} {r : Rx} (a : List Char) : ∀ b : List Char,
    searchFrom U ci r b a = true ↔ ∃ pre post, a = pre ++ post ∧ ∃ t, t ∈ r.ends U ci ⟨pre.reverse ++ b, post⟩ := by
  induction a with
  | nil =>
    intro b
    rw [searchFrom, isEmpty_ends]
    constructor
    · rintro ⟨t, ht⟩; exact ⟨[], [], rfl, t, ht⟩
    · rintro ⟨pre, post, e, t, ht⟩
      obtain ⟨rfl, rfl⟩ := List.append_eq_nil_iff.1 e.symm
      exact ⟨t, ht⟩
  | cons c a ih =>
    intro b
    rw [searchFrom, Bool.or_eq_true, isEmpty_ends, ih]
    constructor
    · rintro (⟨t, ht⟩ | ⟨pre, post, rfl, t, ht⟩)
      · exact ⟨[], c :: a, rfl, t, ht⟩
      · exact ⟨c :: pre, post, rfl, t, by simpa using ht⟩
    · rintro ⟨pre, post, e, t, ht⟩
      cases pre with
      | nil => simp at e; subst e; exact .inl ⟨t, ht⟩
      | cons d pre =>
        simp at e
        obtain ⟨rfl, rfl⟩ := e
        exact .inr ⟨pre, post, rfl, t, by simpa using ht⟩

theorem reSearch_iff {ci : Bool} {r : Rx} {s : List Char} :
    reSearch U ci r s = true ↔ ∃ pre post, s = pre ++ post ∧ ∃ t, t ∈ r.ends U ci ⟨pre.reverse, post⟩ := by
  simpa [reSearch] using searchFrom_iff (U := U) (ci := ci) (r := r) s []

theorem reSearch_plain {ci : Bool} {r : Rx} (hr : r.Plain) {s : List Char} :
    reSearch U ci r s = true ↔ ∃ pre w post, s = pre ++ w ++ post ∧ r.Lang U ci w := by
  rw [reSearch_iff]
  constructor
  · rintro ⟨pre, post, rfl, t, ht⟩
    obtain ⟨w, hw, h1, _⟩ := (ends_plain U ci hr _ _).1 ht
    simp only at h1
    exact ⟨pre, w, t.after, by rw [h1]; simp, hw⟩
  · rintro ⟨pre, w, post, rfl, hw⟩
    exact ⟨pre, w ++ post, by simp, ⟨w.reverse ++ pre.reverse, post⟩, (ends_plain U ci hr _ _).2 ⟨w, hw, rfl, rfl⟩⟩

theorem strCheck_iff {msg : String} {ok : List Char → Bool} {s : String} (hv : c.val = .str s) :
    (strCheck msg ok).validate h c = .ok () ↔ ok s.toList = true := by
  simp only [strCheck, hv, rejectIf]
  cases ok s.toList <;> simp

/-- **C63**: `match(pattern)` passes exactly the strings that contain a text of the pattern
somewhere. -/
theorem match_finds {parse : String → Except Exc Rx} {p : Param} {r : Rx} {t s : String} (hp : p h c = .ok (.str t))
    (hparse : parse t = .ok r) (hr : r.Plain) (hv : c.val = .str s) :
    (matchMod U parse p).validate h c = .ok () ↔
      ∃ pre w post, s.toList = pre ++ w ++ post ∧ r.Lang U false w := by
  rw [← reSearch_plain hr]
  simp only [matchMod, hp, hv, hparse, bind, Except.bind, rejectIf]
  cases reSearch U false r s.toList <;> simp

theorem ends_anchored {ci : Bool} {r : Rx} (hr : r.Plain) {s : List Char} :
    reSearch U ci (.row [.bol, r, .eol]) s = true ↔ ∃ w, r.Lang U ci w ∧ (s = w ∨ s = w ++ ['\n']) := by
  rw [reSearch_iff]
  simp only [Rx.row, Rx.ends]
  constructor
  · rintro ⟨pre, post, rfl, t, ht⟩
    simp only [List.mem_flatMap] at ht
    obtain ⟨t1, h1, t2, h2, h3⟩ := ht
    by_cases hb : pre.reverse.isEmpty
    · simp [hb] at h1
      subst h1
      obtain ⟨w, hw, g1, g2⟩ := (ends_plain U ci hr _ _).1 h2
      simp at hb
      subst hb
      refine ⟨w, hw, ?_⟩
      by_cases he : (t2.after.isEmpty || t2.after == ['\n']) = true
      · simp at he
        simp only at g1
        rcases he with he | he
        · left; simp [g1, he]
        · right; simp [g1, he]
      · simp only [he] at h3; simp at h3
    · simp [hb] at h1
  · rintro ⟨w, hw, hs⟩
    refine ⟨[], s, rfl, ?_⟩
    obtain ⟨z, hz, rfl⟩ : ∃ z, (z = [] ∨ z = ['\n']) ∧ s = w ++ z := by
      rcases hs with rfl | rfl
      · exact ⟨[], .inl rfl, by simp⟩
      · exact ⟨_, .inr rfl, rfl⟩
    refine ⟨⟨w.reverse ++ [], z⟩, ?_⟩
    simp only [List.mem_flatMap]
    refine ⟨⟨[], w ++ z⟩, by simp, ⟨w.reverse ++ [], z⟩, (ends_plain U ci hr _ _).2 ⟨w, hw, rfl, rfl⟩, ?_⟩
    rcases hz with rfl | rfl <;> simp

/-- **C63**: an anchored pattern `^r$` passes the texts of `r`, and also those texts followed
by one line break. -/
theorem match_anchored {parse : String → Except Exc Rx} {p : Param} {r : Rx} {t s : String} (hp : p h c = .ok (.str t))
    (hparse : parse t = .ok (.row [.bol, r, .eol])) (hr : r.Plain) (hv : c.val = .str s) :
    (matchMod U parse p).validate h c = .ok () ↔
      ∃ w, r.Lang U false w ∧ (s.toList = w ∨ s.toList = w ++ ['\n']) := by
  rw [← ends_anchored hr]
  simp only [matchMod, hp, hv, hparse, bind, Except.bind, rejectIf]
  cases reSearch U false (.row [.bol, r, .eol]) s.toList <;> simp

/-- **C63**: values that are not strings pass every pattern. -/
theorem match_others {parse : String → Except Exc Rx} {p : Param} {v : Val} (hp : p h c = .ok v)
    (hv : ∀ s, c.val ≠ .str s) : (matchMod U parse p).validate h c = .ok () := by
  simp only [matchMod, hp, bind, Except.bind]

/-! ### Character classes -/

theorem has_upper (x : Char) : upperR.has x = x.isUpper := by
  simp only [upperR, CItem.has, Char.isUpper, UInt32.le_iff_toNat_le, ge_iff_le, Char.toNat]
  rw [Bool.decide_and]
theorem has_lower (x : Char) : lowerR.has x = x.isLower := by
  simp only [lowerR, CItem.has, Char.isLower, UInt32.le_iff_toNat_le, ge_iff_le, Char.toNat]
theorem has_digit (x : Char) : digitR.has x = x.isDigit := by
  simp only [digitR, CItem.has, Char.isDigit, UInt32.le_iff_toNat_le, ge_iff_le, Char.toNat]

/-- a repetition of single characters -/
theorem lang_rep_one {ci : Bool} {r : Rx} {P : Char → Prop} (hr : ∀ w, r.Lang U ci w ↔ ∃ c, w = [c] ∧ P c)
    {lo : Nat} {hi : Option Nat} {w : List Char} :
    (Rx.rep r lo hi).Lang U ci w ↔ (∀ c ∈ w, P c) ∧ lo ≤ w.length ∧ ∀ m, hi = some m → w.length ≤ m := by
  have key : ∀ ws : List (List Char), (∀ v ∈ ws, r.Lang U ci v) → (∀ c ∈ ws.flatten, P c) ∧ ws.flatten.length = ws.length := by
    intro ws
    induction ws with
    | nil => intro _; simp
    | cons v ws ih =>
      intro hws
      obtain ⟨c, rfl, hc⟩ := (hr v).1 (hws v (by simp))
      obtain ⟨h1, h2⟩ := ih fun v hv => hws v (by simp [hv])
      constructor
      · intro d hd
        simp only [List.flatten_cons, List.mem_append, List.mem_singleton] at hd
        rcases hd with rfl | hd
        · exact hc
        · exact h1 d hd
      · simp only [List.flatten_cons, List.length_append, List.length_cons, List.length_nil, h2]
        omega
  constructor
  · rintro ⟨ws, rfl, h1, h2, h3⟩
    obtain ⟨k1, k2⟩ := key ws h1
    exact ⟨k1, by omega, fun m e => by have := h3 m e; omega⟩
  · rintro ⟨h1, h2, h3⟩
    refine ⟨w.map (fun c => [c]), by simp [← List.flatMap_def], ?_, by simpa using h2, by simpa using h3⟩
    intro v hv
    obtain ⟨c, hc, rfl⟩ := List.mem_map.1 hv
    exact (hr _).2 ⟨c, rfl, h1 c hc⟩

theorem lang_cls {items : List CItem} {w : List Char} :
    (Rx.cls items).Lang U false w ↔ ∃ c, w = [c] ∧ (items.any (fun i => i.has c)) = true := by
  simp [Rx.Lang, variants]

theorem lang_chr {d : Char} {w : List Char} : (Rx.chr d).Lang U false w ↔ w = [d] := by
  simp [Rx.Lang, variants]

/-! ### `hexcolor` -/

/-- a hexadecimal digit -/
def IsHex (c : Char) : Prop := c.isDigit = true ∨ c ∈ ['a', 'b', 'c', 'd', 'e', 'f', 'A', 'B', 'C', 'D', 'E', 'F']

theorem has_hex (x : Char) : ([digitR, .range 'a' 'f', .range 'A' 'F'].any fun i => i.has x) = true ↔ IsHex x := by
  have e : ∀ d : Char, x = d ↔ x.toNat = d.toNat := fun d => ⟨fun h => by rw [h], fun h => Char.toNat_inj.1 h⟩
  simp only [List.any_cons, List.any_nil, Bool.or_false, Bool.or_eq_true, has_digit, IsHex, List.mem_cons,
    List.not_mem_nil, or_false, e]
  simp only [CItem.has, Bool.and_eq_true, decide_eq_true_eq]
  have h1 : 'a'.toNat = 97 := rfl
  have h2 : 'f'.toNat = 102 := rfl
  have h3 : 'A'.toNat = 65 := rfl
  have h4 : 'F'.toNat = 70 := rfl
  have h5 : 'b'.toNat = 98 := rfl
  have h6 : 'c'.toNat = 99 := rfl
  have h7 : 'd'.toNat = 100 := rfl
  have h8 : 'e'.toNat = 101 := rfl
  have h9 : 'B'.toNat = 66 := rfl
  have h10 : 'C'.toNat = 67 := rfl
  have h11 : 'D'.toNat = 68 := rfl
  have h12 : 'E'.toNat = 69 := rfl
  rw [h1, h2, h3, h4, h5, h6, h7, h8, h9, h10, h11, h12]
  have : ∀ P Q R : Prop, (Q ↔ R) → ((P ∨ Q) ↔ (P ∨ R)) := fun _ _ _ h => by rw [h]
  apply this
  omega

theorem reMatch_plain {ci : Bool} {r : Rx} (hr : r.Plain) {s : List Char} :
    reMatch U ci r s = true ↔ ∃ w post, s = w ++ post ∧ r.Lang U ci w := by
  rw [reMatch, isEmpty_ends]
  constructor
  · rintro ⟨t, ht⟩
    obtain ⟨w, hw, h1, _⟩ := (ends_plain U ci hr _ _).1 ht
    exact ⟨w, t.after, h1, hw⟩
  · rintro ⟨w, post, rfl, hw⟩
    exact ⟨⟨w.reverse ++ [], post⟩, (ends_plain U ci hr _ _).2 ⟨w, hw, rfl, rfl⟩⟩

/-- **C63**: a string passes `hexcolor` exactly when it begins with six hexadecimal digits. -/
theorem hexcolor_passes {s : String} (hv : c.val = .str s) :
    (hexcolorMod U).validate h c = .ok () ↔
      ∃ six rest, s.toList = six ++ rest ∧ six.length = 6 ∧ ∀ x ∈ six, IsHex x := by
  have hr : hexRx.Plain := ⟨trivial, fun m e => by cases e; exact Nat.le_refl _⟩
  show (strCheck _ _).validate h c = .ok () ↔ _
  rw [strCheck_iff hv, reMatch_plain hr]
  constructor
  · rintro ⟨w, post, e, hw⟩
    obtain ⟨h1, h2, h3⟩ := (lang_rep_one (fun _ => lang_cls)).1 hw
    exact ⟨w, post, e, Nat.le_antisymm (h3 6 rfl) h2, fun x hx => (has_hex x).1 (h1 x hx)⟩
  · rintro ⟨six, rest, e, h1, h2⟩
    exact ⟨six, rest, e, (lang_rep_one (fun _ => lang_cls)).2 ⟨fun x hx => (has_hex x).2 (h2 x hx), by omega,
      fun m hm => by cases hm; omega⟩⟩

/-- **C63**: one leading `#` is removed on input, everything else is kept. -/
theorem hexcolor_input {s : String} (hv : c.val = .str s) :
    (∀ r, s.toList = '#' :: r → (hexcolorMod U).transform h c = .ok (.str (String.ofList r))) ∧
    ((∀ r, s.toList ≠ '#' :: r) → (hexcolorMod U).transform h c = .ok (.str s)) := by
  constructor
  · intro r e; simp [hexcolorMod, hv, e]
  · intro e
    simp only [hexcolorMod, hv]

/-- **C63** does not hold as one would expect: text after the six digits is not looked at. -/
theorem hexcolor_tail_broken (U : Uni) (rest : String) :
    (hexcolorMod U).validate (fun _ => {}) { val := .str ("ff8800" ++ rest) } = .ok () := by
  rw [hexcolor_passes rfl]
  refine ⟨c!"ff8800", rest.toList, by simp, rfl, ?_⟩
  intro x hx
  simp at hx
  rcases hx with rfl | rfl | rfl | rfl | rfl | rfl <;> simp [IsHex]

/-! ### `alpha`, `digit`, `numeric`, `alnum` -/

theorem allOf_iff {p : Char → Bool} {s : List Char} : allOf p s = true ↔ s ≠ [] ∧ ∀ x ∈ s, p x = true := by
  simp [allOf]

/-- **C63**: `alpha`, `digit`, `numeric` and `alnum` pass exactly the non-empty strings whose
characters are all of that kind. -/
theorem kinds_pass {s : String} (hv : c.val = .str s) :
    ((alphaMod U).validate h c = .ok () ↔ s.toList ≠ [] ∧ ∀ x ∈ s.toList, U.alpha x = true) ∧
    ((digitMod U).validate h c = .ok () ↔ s.toList ≠ [] ∧ ∀ x ∈ s.toList, U.digit x = true) ∧
    ((numericMod U).validate h c = .ok () ↔ s.toList ≠ [] ∧ ∀ x ∈ s.toList, U.numeric x = true) ∧
    ((alnumMod U).validate h c = .ok () ↔
      s.toList ≠ [] ∧ ∀ x ∈ s.toList, U.alpha x = true ∨ U.numeric x = true) := by
  refine ⟨by rw [alphaMod, strCheck_iff hv, allOf_iff], by rw [digitMod, strCheck_iff hv, allOf_iff],
    by rw [numericMod, strCheck_iff hv, allOf_iff], ?_⟩
  rw [alnumMod, strCheck_iff hv, allOf_iff]
  have e : ∀ x, U.alnum x = true ↔ U.alpha x = true ∨ U.numeric x = true := by
    intro x
    have h1 := U.decimal_digit x
    have h2 := U.digit_numeric x
    simp only [Uni.alnum, Bool.or_eq_true]
    tauto
  simp only [e]

/-- **C63**: on ASCII strings these are the letters, the digits `0`-`9`, the same digits, and
both. -/
theorem kinds_ascii {s : String} (hv : c.val = .str s) (ha : ∀ x ∈ s.toList, x.toNat < 128) :
    ((alphaMod U).validate h c = .ok () ↔ s.toList ≠ [] ∧ ∀ x ∈ s.toList, x.isAlpha = true) ∧
    ((digitMod U).validate h c = .ok () ↔ s.toList ≠ [] ∧ ∀ x ∈ s.toList, x.isDigit = true) ∧
    ((numericMod U).validate h c = .ok () ↔ s.toList ≠ [] ∧ ∀ x ∈ s.toList, x.isDigit = true) ∧
    ((alnumMod U).validate h c = .ok () ↔ s.toList ≠ [] ∧ ∀ x ∈ s.toList, x.isAlphanum = true) := by
  have e3 : ∀ x : Char, x.toNat < 128 → U.digit x = x.isDigit := by
    intro x hx
    have h1 := U.decimal_digit x
    have h2 := U.digit_numeric x
    rw [U.ascii_decimal x hx] at h1
    rw [U.ascii_numeric x hx] at h2
    cases hd : U.digit x <;> cases hx : x.isDigit <;> simp_all
  obtain ⟨k1, k2, k3, k4⟩ := kinds_pass (U := U) (h := h) hv
  rw [k1, k2, k3, k4]
  have g : ∀ {p q : Char → Prop}, (∀ x : Char, x.toNat < 128 → (p x ↔ q x)) →
      ((s.toList ≠ [] ∧ ∀ x ∈ s.toList, p x) ↔ (s.toList ≠ [] ∧ ∀ x ∈ s.toList, q x)) := fun hpq =>
    and_congr Iff.rfl ⟨fun k x hx => (hpq x (ha x hx)).1 (k x hx), fun k x hx => (hpq x (ha x hx)).2 (k x hx)⟩
  refine ⟨g fun x hx => by rw [U.ascii_alpha x hx], g fun x hx => by rw [e3 x hx],
    g fun x hx => by rw [U.ascii_numeric x hx], g fun x hx => ?_⟩
  rw [U.ascii_alpha x hx, U.ascii_numeric x hx, Char.isAlphanum, Bool.or_eq_true]

/-- **C63**: values that are not strings pass all the format checks. -/
theorem formats_others (hv : ∀ s, c.val ≠ .str s) :
    (emailMod U).validate h c = .ok () ∧ (urlMod U).validate h c = .ok () ∧
    (securepwMod U).validate h c = .ok () ∧ (hexcolorMod U).validate h c = .ok () ∧
    (alphaMod U).validate h c = .ok () ∧ (digitMod U).validate h c = .ok () ∧
    (numericMod U).validate h c = .ok () ∧ (alnumMod U).validate h c = .ok () := by
  have k : ∀ msg ok, (strCheck msg ok).validate h c = .ok () := by
    intro msg ok
    simp only [strCheck]
  exact ⟨k _ _, k _ _, k _ _, k _ _, k _ _, k _ _, k _ _, k _ _⟩

/-! ### `securepw` -/

/-- the characters that count as symbols -/
def pwSymbolChars : List Char := c!"!@#$&*`~()-_+=[]{}:;'\",<>.?\\|/"

theorem has_symbol (x : Char) : (pwSymbols.any fun i => i.has x) = true ↔ x ∈ pwSymbolChars := by
  simp [pwSymbols, pwSymbolChars, CItem.has]

theorem lang_dots {w : List Char} : (Rx.rep .dot 0 none).Lang U false w ↔ '\n' ∉ w := by
  rw [lang_rep_one (P := fun c => c ≠ '\n') (fun _ => Iff.rfl)]
  constructor
  · rintro ⟨h1, _⟩ h; exact h1 _ h rfl
  · intro h1; exact ⟨fun x hx e => h1 (e ▸ hx), by simp, fun _ e => nomatch e⟩

theorem look_dots {items : List CItem} {b s : List Char} :
    (∃ t, t ∈ (Rx.look (.seq (.rep .dot 0 none) (.cls items))).ends U false ⟨b, s⟩) ↔
    ∃ w x rest, s = w ++ x :: rest ∧ '\n' ∉ w ∧ (items.any fun i => i.has x) = true := by
  have hp : (Rx.seq (.rep .dot 0 none) (.cls items)).Plain := ⟨⟨trivial, fun _ e => nomatch e⟩, trivial⟩
  have hs := ends_plain U false hp
  have e : (∃ t, t ∈ (Rx.look (.seq (.rep .dot 0 none) (.cls items))).ends U false ⟨b, s⟩) ↔
      ∃ t, t ∈ (Rx.seq (.rep .dot 0 none) (.cls items)).ends U false ⟨b, s⟩ := by
    simp only [mem_look]
    exact ⟨fun ⟨_, _, k⟩ => k, fun k => ⟨_, rfl, k⟩⟩
  rw [e]
  constructor
  · rintro ⟨t, ht⟩
    obtain ⟨w, ⟨u, v, rfl, hu, hv⟩, h1, _⟩ := (hs _ _).1 ht
    obtain ⟨x, rfl, hx⟩ := lang_cls.1 hv
    exact ⟨u, x, t.after, by simpa using h1, lang_dots.1 hu, hx⟩
  · rintro ⟨w, x, rest, rfl, h1, h2⟩
    exact ⟨⟨(w ++ [x]).reverse ++ b, rest⟩, (hs _ _).2 ⟨w ++ [x], ⟨w, [x], rfl, lang_dots.2 h1, lang_cls.2 ⟨x, rfl, h2⟩⟩,
      by simp, rfl⟩⟩

theorem look_stays {a : Rx} {s t : Spot} (ht : t ∈ (Rx.look a).ends U false s) : t = s := (mem_look.1 ht).1

theorem pwRx_ends {b s : List Char} :
    (∃ t, t ∈ pwRx.ends U false ⟨b, s⟩) ↔ b = [] ∧
      (∃ w x rest, s = w ++ x :: rest ∧ '\n' ∉ w ∧ x.isUpper = true) ∧
      (∃ w x rest, s = w ++ x :: rest ∧ '\n' ∉ w ∧ x ∈ pwSymbolChars) ∧
      (∃ w x rest, s = w ++ x :: rest ∧ '\n' ∉ w ∧ x.isDigit = true) ∧
      (∃ w x rest, s = w ++ x :: rest ∧ '\n' ∉ w ∧ x.isLower = true) ∧
      ∃ w, '\n' ∉ w ∧ (s = w ∨ s = w ++ ['\n']) := by
  have hd : Steps ((Rx.rep .dot 0 none).ends U false) (fun w => '\n' ∉ w) :=
    steps_congr (ends_plain U false ⟨trivial, fun _ e => nomatch e⟩) fun _ => lang_dots
  have eU : ∀ x, ([upperR].any fun i => i.has x) = true ↔ x.isUpper = true := fun x => by simp [has_upper]
  have eD : ∀ x, ([digitR].any fun i => i.has x) = true ↔ x.isDigit = true := fun x => by simp [has_digit]
  have eL : ∀ x, ([lowerR].any fun i => i.has x) = true ↔ x.isLower = true := fun x => by simp [has_lower]
  have l1 := look_dots (U := U) (items := [upperR]) (b := b) (s := s)
  have l2 := look_dots (U := U) (items := pwSymbols) (b := b) (s := s)
  have l3 := look_dots (U := U) (items := [digitR]) (b := b) (s := s)
  have l4 := look_dots (U := U) (items := [lowerR]) (b := b) (s := s)
  simp only [eU] at l1
  simp only [has_symbol] at l2
  simp only [eD] at l3
  simp only [eL] at l4
  rw [← l1, ← l2, ← l3, ← l4]
  have unf : ∀ t, t ∈ pwRx.ends U false ⟨b, s⟩ ↔ ∃ t0, t0 ∈ Rx.bol.ends U false ⟨b, s⟩ ∧
      ∃ t1, t1 ∈ (Rx.look (.seq (.rep .dot 0 none) (.cls [upperR]))).ends U false t0 ∧
      ∃ t2, t2 ∈ (Rx.look (.seq (.rep .dot 0 none) (.cls pwSymbols))).ends U false t1 ∧
      ∃ t3, t3 ∈ (Rx.look (.seq (.rep .dot 0 none) (.cls [digitR]))).ends U false t2 ∧
      ∃ t4, t4 ∈ (Rx.look (.seq (.rep .dot 0 none) (.cls [lowerR]))).ends U false t3 ∧
      ∃ t5, t5 ∈ (Rx.rep .dot 0 none).ends U false t4 ∧ t ∈ Rx.eol.ends U false t5 := by
    intro t
    simp only [pwRx, Rx.row, mem_grp, mem_seq]
  constructor
  · rintro ⟨t, ht⟩
    obtain ⟨t0, h0, t1, h1, t2, h2, t3, h3, t4, h4, t5, h5, h6⟩ := (unf t).1 ht
    have hb : b = [] ∧ t0 = ⟨b, s⟩ := by
      rw [Rx.ends] at h0
      split at h0
      · rename_i hb; simp at h0 hb; exact ⟨hb, h0⟩
      · simp at h0
    obtain ⟨hb, rfl⟩ := hb
    obtain rfl := look_stays h1
    obtain rfl := look_stays h2
    obtain rfl := look_stays h3
    obtain rfl := look_stays h4
    refine ⟨hb, ⟨_, h1⟩, ⟨_, h2⟩, ⟨_, h3⟩, ⟨_, h4⟩, ?_⟩
    obtain ⟨w, hw, g1, _⟩ := (hd _ _).1 h5
    refine ⟨w, hw, ?_⟩
    rw [Rx.ends] at h6
    split at h6
    · rename_i he
      simp at he
      simp only at g1
      rcases he with he | he
      · left; simp [g1, he]
      · right; simp [g1, he]
    · simp at h6
  · rintro ⟨rfl, ⟨t1, h1⟩, ⟨t2, h2⟩, ⟨t3, h3⟩, ⟨t4, h4⟩, w, hw, hs⟩
    obtain ⟨z, hz, e⟩ : ∃ z, (z = [] ∨ z = ['\n']) ∧ s = w ++ z := by
      rcases hs with rfl | rfl
      · exact ⟨[], .inl rfl, by simp⟩
      · exact ⟨_, .inr rfl, rfl⟩
    obtain rfl := look_stays h1
    obtain rfl := look_stays h2
    obtain rfl := look_stays h3
    obtain rfl := look_stays h4
    refine ⟨⟨w.reverse ++ [], z⟩, (unf _).2 ⟨_, ?_, _, h1, _, h2, _, h3, _, h4, ⟨w.reverse ++ [], z⟩,
      (hd _ _).2 ⟨w, hw, e, rfl⟩, ?_⟩⟩
    · simp [Rx.ends]
    · rcases hz with rfl | rfl <;> simp [Rx.ends]

/-- **C63**: a string passes `securepw` exactly when it is one line (a final line break
apart) that contains an ASCII upper-case letter, an ASCII lower-case letter, an ASCII digit
and one of the listed symbols. -/
theorem securepw_passes {s : String} (hv : c.val = .str s) :
    (securepwMod U).validate h c = .ok () ↔
      ∃ line, (s.toList = line ∨ s.toList = line ++ ['\n']) ∧ '\n' ∉ line ∧
        (∃ x ∈ line, x.isUpper = true) ∧ (∃ x ∈ line, x.isLower = true) ∧
        (∃ x ∈ line, x.isDigit = true) ∧ ∃ x ∈ line, x ∈ pwSymbolChars := by
  rw [securepwMod, strCheck_iff hv, reSearch_iff]
  have fwd : ∀ {P : Char → Prop} {line txt : List Char}, ¬ P '\n' → (txt = line ∨ txt = line ++ ['\n']) →
      (∃ w x rest, txt = w ++ x :: rest ∧ '\n' ∉ w ∧ P x) → ∃ x ∈ line, P x := by
    rintro P line txt hn ht ⟨w, x, rest, e, hw, hx⟩
    have hm : x ∈ txt := by rw [e]; simp
    rcases ht with rfl | rfl
    · exact ⟨x, hm, hx⟩
    · rcases List.mem_append.1 hm with hm | hm
      · exact ⟨x, hm, hx⟩
      · simp at hm; subst hm; exact absurd hx hn
  have bwd : ∀ {P : Char → Prop} {line txt : List Char}, '\n' ∉ line → (txt = line ∨ txt = line ++ ['\n']) →
      (∃ x ∈ line, P x) → ∃ w x rest, txt = w ++ x :: rest ∧ '\n' ∉ w ∧ P x := by
    rintro P line txt hn ht ⟨x, hm, hx⟩
    obtain ⟨u, v, rfl⟩ := List.append_of_mem hm
    rcases ht with rfl | rfl
    · exact ⟨u, x, v, rfl, fun k => hn (by simp [k]), hx⟩
    · exact ⟨u, x, v ++ ['\n'], by simp, fun k => hn (by simp [k]), hx⟩
  constructor
  · rintro ⟨pre, post, e, ht⟩
    obtain ⟨hb, h1, h2, h3, h4, line, hl, hs⟩ := pwRx_ends.1 ht
    simp at hb
    subst hb
    simp only [List.nil_append] at e
    rw [e]
    exact ⟨line, hs, hl, fwd (by decide) hs h1, fwd (by decide) hs h4, fwd (by decide) hs h3, fwd (by decide) hs h2⟩
  · rintro ⟨line, hs, hl, h1, h2, h3, h4⟩
    exact ⟨[], s.toList, rfl, pwRx_ends.2 ⟨rfl, bwd hl hs h1, bwd hl hs h4, bwd hl hs h3, bwd hl hs h2, line, hl, hs⟩⟩

/-! ### `email` -/

/-- the characters before the `@`, after it, and of the last label -/
def UserChar (x : Char) : Prop := x.isAlphanum = true ∨ x ∈ ['.', '_', '%', '+', '-']
def HostChar (x : Char) : Prop := x.isAlphanum = true ∨ x ∈ ['.', '-']
def TopChar (x : Char) : Prop := x.isAlpha = true ∨ x = '|'

theorem has_ch (d x : Char) : (CItem.ch d).has x = (x == d) := rfl

theorem has_user (x : Char) : ([upperR, lowerR, digitR, .ch '.', .ch '_', .ch '%', .ch '+', .ch '-'].any
    fun i => i.has x) = true ↔ UserChar x := by
  simp [has_upper, has_lower, has_digit, has_ch, UserChar, Char.isAlphanum, Char.isAlpha, or_assoc]
theorem has_host (x : Char) : ([upperR, lowerR, digitR, .ch '.', .ch '-'].any
    fun i => i.has x) = true ↔ HostChar x := by
  simp [has_upper, has_lower, has_digit, has_ch, HostChar, Char.isAlphanum, Char.isAlpha, or_assoc]
theorem has_top (x : Char) : ([upperR, .ch '|', lowerR].any fun i => i.has x) = true ↔ TopChar x := by
  simp [has_upper, has_lower, has_ch, TopChar, Char.isAlpha]
  tauto

theorem isAlpha_ascii {x : Char} (hx : x.isAlphanum = true) : x.toNat < 128 := by
  simp [Char.isAlphanum, Char.isAlpha, Char.isUpper, Char.isLower, Char.isDigit, UInt32.le_iff_toNat_le] at hx
  simp only [Char.toNat] at *
  omega

theorem word_alnum (U : Uni) {x : Char} (hx : x.isAlphanum = true) : U.word x = true := by
  have ha := isAlpha_ascii hx
  simp only [Char.isAlphanum, Bool.or_eq_true] at hx
  simp only [Uni.word, Uni.alnum, U.ascii_alpha x ha, U.ascii_numeric x ha, Bool.or_eq_true]
  tauto

theorem word_ascii (U : Uni) {x : Char} (ha : x.toNat < 128) : U.word x = true ↔ x.isAlphanum = true ∨ x = '_' := by
  constructor
  · intro hw
    have h1 := U.decimal_digit x
    have h2 := U.digit_numeric x
    rw [U.ascii_numeric x ha] at h2
    simp only [Uni.word, Uni.alnum, Bool.or_eq_true, U.ascii_alpha x ha, U.ascii_numeric x ha, beq_iff_eq] at hw
    simp only [Char.isAlphanum, Bool.or_eq_true]
    tauto
  · rintro (hx | rfl)
    · exact word_alnum U hx
    · simp [Uni.word]

theorem mem_bnd {ci : Bool} {s t : Spot} :
    t ∈ Rx.bnd.ends U ci s ↔ t = s ∧ wordAt U s.before ≠ wordAt U s.after := by
  rw [Rx.ends]
  by_cases hb : wordAt U s.before = wordAt U s.after <;> simp [hb]

/-- **C63**: a string passes `email` exactly when it begins with a user name, an `@`, a host
name and a dot with a last label of at least two letters or bars, such that the user name
begins with a letter, digit or underscore and the label ends at a word boundary. -/
theorem email_passes {s : String} (hv : c.val = .str s) :
    (emailMod U).validate h c = .ok () ↔
      ∃ first user host top rest, s.toList = first :: user ++ '@' :: host ++ '.' :: top ++ rest ∧
        (first.isAlphanum = true ∨ first = '_') ∧ (∀ x ∈ user, UserChar x) ∧
        host ≠ [] ∧ (∀ x ∈ host, HostChar x) ∧ 2 ≤ top.length ∧ (∀ x ∈ top, TopChar x) ∧
        (top.getLast? = some '|' ↔ ∃ y ys, rest = y :: ys ∧ U.word y = true) := by
  rw [emailMod, strCheck_iff hv, reMatch, isEmpty_ends]
  generalize s.toList = s
  have s1 : Steps ((Rx.rep (.cls [upperR, lowerR, digitR, .ch '.', .ch '_', .ch '%', .ch '+', .ch '-']) 1 none).ends U false)
      (fun w => (∀ x ∈ w, UserChar x) ∧ 1 ≤ w.length) := by
    refine steps_congr (ends_plain U false ⟨trivial, fun _ e => nomatch e⟩) fun w => ?_
    rw [lang_rep_one (fun _ => lang_cls)]
    simp only [has_user]
    exact ⟨fun ⟨a, b, _⟩ => ⟨a, b⟩, fun ⟨a, b⟩ => ⟨a, b, fun _ e => nomatch e⟩⟩
  have s2 : Steps ((Rx.rep (.cls [upperR, lowerR, digitR, .ch '.', .ch '-']) 1 none).ends U false)
      (fun w => (∀ x ∈ w, HostChar x) ∧ 1 ≤ w.length) := by
    refine steps_congr (ends_plain U false ⟨trivial, fun _ e => nomatch e⟩) fun w => ?_
    rw [lang_rep_one (fun _ => lang_cls)]
    simp only [has_host]
    exact ⟨fun ⟨a, b, _⟩ => ⟨a, b⟩, fun ⟨a, b⟩ => ⟨a, b, fun _ e => nomatch e⟩⟩
  have s3 : Steps ((Rx.rep (.cls [upperR, .ch '|', lowerR]) 2 none).ends U false)
      (fun w => (∀ x ∈ w, TopChar x) ∧ 2 ≤ w.length) := by
    refine steps_congr (ends_plain U false ⟨trivial, fun _ e => nomatch e⟩) fun w => ?_
    rw [lang_rep_one (fun _ => lang_cls)]
    simp only [has_top]
    exact ⟨fun ⟨a, b, _⟩ => ⟨a, b⟩, fun ⟨a, b⟩ => ⟨a, b, fun _ e => nomatch e⟩⟩
  have s4 : Steps ((Rx.chr '@').ends U false) (fun w => w = ['@']) :=
    steps_congr (ends_plain U false trivial) fun w => lang_chr
  have s5 : Steps ((Rx.chr '.').ends U false) (fun w => w = ['.']) :=
    steps_congr (ends_plain U false trivial) fun w => lang_chr
  have hall := steps_seq s1 (steps_seq s4 (steps_seq s2 (steps_seq s5 s3)))
  have wb : ∀ {x : Char} {l : List Char}, UserChar x → (wordAt U [] ≠ wordAt U (x :: l) ↔ x.isAlphanum = true ∨ x = '_') := by
    intro x l hx
    have ha : x.toNat < 128 := by
      rcases hx with hx | hx
      · exact isAlpha_ascii hx
      · simp at hx; rcases hx with rfl | rfl | rfl | rfl | rfl <;> decide
    rw [← word_ascii U ha]
    simp [wordAt]
  have we : ∀ {top rest b : List Char}, (∀ x ∈ top, TopChar x) → 2 ≤ top.length →
      (wordAt U (top.reverse ++ b) ≠ wordAt U rest ↔
        (top.getLast? = some '|' ↔ ∃ y ys, rest = y :: ys ∧ U.word y = true)) := by
    intro top rest b ht hl
    obtain ⟨init, l, rfl⟩ : ∃ init l, top = init ++ [l] := by
      have hne : top ≠ [] := by rintro rfl; simp at hl
      exact ⟨top.dropLast, top.getLast hne, (List.dropLast_append_getLast hne).symm⟩
    have hr : (∃ y ys, rest = y :: ys ∧ U.word y = true) ↔ wordAt U rest = true := by
      cases rest <;> simp [wordAt]
    rw [hr]
    simp only [List.reverse_append, List.reverse_cons, List.reverse_nil, List.nil_append, List.cons_append,
      List.getLast?_append, List.getLast?_singleton, Option.some_or, Option.some.injEq]
    rw [wordAt]
    rcases ht l (by simp) with hx | rfl
    · have hn : l ≠ '|' := by rintro rfl; exact absurd hx (by decide)
      rw [word_alnum U (by simp [Char.isAlphanum, hx])]
      cases wordAt U rest <;> simp [hn]
    · have : U.word '|' = false := by
        rw [← Bool.not_eq_true, word_ascii U (by decide)]; decide
      rw [this]
      cases wordAt U rest <;> simp
  have unf : ∀ t, t ∈ emailRx.ends U false ⟨[], s⟩ ↔ ∃ t0, t0 ∈ Rx.bnd.ends U false ⟨[], s⟩ ∧
      ∃ t1, (∃ w, (∃ u v, w = u ++ v ∧ ((∀ x ∈ u, UserChar x) ∧ 1 ≤ u.length) ∧
        ∃ u2 v2, v = u2 ++ v2 ∧ u2 = ['@'] ∧
        ∃ u3 v3, v2 = u3 ++ v3 ∧ ((∀ x ∈ u3, HostChar x) ∧ 1 ≤ u3.length) ∧
        ∃ u4 v4, v3 = u4 ++ v4 ∧ u4 = ['.'] ∧ ((∀ x ∈ v4, TopChar x) ∧ 2 ≤ v4.length)) ∧
        t0.after = w ++ t1.after ∧ t1.before = w.reverse ++ t0.before) ∧ t ∈ Rx.bnd.ends U false t1 := by
    intro t
    simp only [emailRx, Rx.row, mem_seq, ← hall _ _, List.mem_flatMap]
    constructor
    · rintro ⟨t0, h0, t1, h1, t2, h2, t3, h3, t4, h4, t5, h5, h6⟩
      exact ⟨t0, h0, t5, ⟨t1, h1, t2, h2, t3, h3, t4, h4, h5⟩, h6⟩
    · rintro ⟨t0, h0, t5, ⟨t1, h1, t2, h2, t3, h3, t4, h4, h5⟩, h6⟩
      exact ⟨t0, h0, t1, h1, t2, h2, t3, h3, t4, h4, t5, h5, h6⟩
  constructor
  · rintro ⟨t, ht⟩
    obtain ⟨t0, h0, t1, ⟨w, ⟨u, v, rfl, ⟨k1, k2⟩, _, v2, rfl, rfl, host, v3, rfl, ⟨k3, k4⟩, _, top, rfl, rfl, k5, k6⟩,
      g1, g2⟩, h2⟩ := (unf t).1 ht
    obtain ⟨rfl, b0⟩ := mem_bnd.1 h0
    obtain ⟨rfl, b1⟩ := mem_bnd.1 h2
    cases u with
    | nil => simp at k2
    | cons first user =>
      simp only at g1
      rw [g1] at b0
      refine ⟨first, user, host, top, t.after, by rw [g1]; simp, (wb (k1 first (by simp))).1 b0,
        fun x hx => k1 x (by simp [hx]), ?_, k3, k6, k5, ?_⟩
      · rintro rfl; simp at k4
      · rw [g2] at b1
        refine (we (b := '.' :: (host.reverse ++ '@' :: (user.reverse ++ [first]))) k5 k6).1 ?_
        simpa using b1
  · rintro ⟨first, user, host, top, rest, rfl, h1, h2, h3, h4, h5, h6, h7⟩
    have hf : UserChar first := by
      rcases h1 with h1 | rfl
      · exact .inl h1
      · right; simp
    let w := first :: user ++ '@' :: host ++ '.' :: top
    refine ⟨⟨w.reverse ++ [], rest⟩, (unf _).2 ⟨⟨[], w ++ rest⟩, mem_bnd.2 ⟨rfl, (wb hf).2 h1⟩, ⟨w.reverse ++ [], rest⟩,
      ⟨w, ⟨first :: user, '@' :: host ++ '.' :: top, by simp [w], ⟨?_, by simp⟩, ['@'], host ++ '.' :: top, by simp, rfl,
        host, '.' :: top, rfl, ⟨h4, ?_⟩, ['.'], top, rfl, rfl, h6, h5⟩, rfl, rfl⟩, mem_bnd.2 ⟨rfl, ?_⟩⟩⟩
    · intro x hx
      rcases List.mem_cons.1 hx with rfl | hx
      · exact hf
      · exact h2 x hx
    · exact List.length_pos_of_ne_nil h3
    · have := (we (b := '.' :: (host.reverse ++ '@' :: (user.reverse ++ [first]))) (rest := rest) h6 h5).2 h7
      simpa [w] using this

/-- **C63** does not hold as one would expect: whatever follows an address is not looked at
if it does not begin with a word character. -/
theorem email_tail_broken (U : Uni) (rest : String) :
    (emailMod U).validate (fun _ => {}) { val := .str ("bob@example.com, " ++ rest) } = .ok () := by
  rw [email_passes rfl]
  refine ⟨'b', c!"ob", c!"example", c!"com", c!", " ++ rest.toList, by simp, by decide, ?_, by simp, ?_, by simp, ?_, ?_⟩
  · intro x hx; simp at hx; rcases hx with rfl | rfl <;> exact .inl (by decide)
  · intro x hx; simp at hx; rcases hx with rfl | rfl | rfl | rfl | rfl | rfl | rfl <;> exact .inl (by decide)
  · intro x hx; simp at hx; rcases hx with rfl | rfl | rfl <;> exact .inl (by decide)
  · have : U.word ',' = false := by rw [← Bool.not_eq_true, word_ascii U (by decide)]; decide
    simp [this]

/-- **C63** does not hold as one would expect: the last label may contain bars. -/
theorem email_bar_broken (U : Uni) :
    (emailMod U).validate (fun _ => {}) { val := .str "bob@example.c|m" } = .ok () := by
  rw [email_passes rfl]
  refine ⟨'b', c!"ob", c!"example", c!"c|m", [], by simp, by decide, ?_, by simp, ?_, by simp, ?_, ?_⟩
  · intro x hx; simp at hx; rcases hx with rfl | rfl <;> exact .inl (by decide)
  · intro x hx; simp at hx; rcases hx with rfl | rfl | rfl | rfl | rfl | rfl | rfl <;> exact .inl (by decide)
  · intro x hx; simp at hx; rcases hx with rfl | rfl | rfl <;> first | exact .inl (by decide) | exact .inr rfl
  · simp

/-! ### `url` -/

/-- A letter or digit of a host name. Case does not matter, and with IGNORECASE `re` counts
four letters outside ASCII in: the dotless and the dotted i, the long s and the Kelvin sign. -/
def UrlAlnum (x : Char) : Prop := x.isAlphanum = true ∨ x ∈ ['ı', 'İ', 'ſ', '\u212A']

/-- the same word up to case; the long s counts as an s -/
def SameWord (w target : List Char) : Prop :=
  List.Forall₂ (fun x d => x.toLower = d ∨ (d = 's' ∧ x = 'ſ')) w target

/-- `http`, `https`, `ftp`, `ftps` -/
def UrlScheme (w : List Char) : Prop :=
  SameWord w c!"http" ∨ SameWord w c!"https" ∨ SameWord w c!"ftp" ∨ SameWord w c!"ftps"

/-- a label: at most 63 letters, digits and hyphens, not beginning or ending with a hyphen -/
def UrlLabel (w : List Char) : Prop :=
  w.length ≤ 63 ∧ (∃ x, w.head? = some x ∧ UrlAlnum x) ∧ (∃ x, w.getLast? = some x ∧ UrlAlnum x) ∧
  ∀ x ∈ w, UrlAlnum x ∨ x = '-'

/-- one to three decimal digits -/
def UrlOctet (U : Uni) (w : List Char) : Prop := 1 ≤ w.length ∧ w.length ≤ 3 ∧ ∀ x ∈ w, U.decimal x = true

/-- a domain name, `localhost`, or four groups of digits -/
def UrlHost (U : Uni) (w : List Char) : Prop :=
  (∃ labels top dot, labels ≠ [] ∧ (∀ l ∈ labels, UrlLabel l) ∧ 2 ≤ top.length ∧
    (∀ x ∈ top, UrlAlnum x ∨ x = '-') ∧ (dot = [] ∨ dot = ['.']) ∧
    w = (labels.map (fun l => l ++ ['.'])).flatten ++ top ++ dot) ∨
  SameWord w c!"localhost" ∨
  ∃ a b c d, UrlOctet U a ∧ UrlOctet U b ∧ UrlOctet U c ∧ UrlOctet U d ∧
    w = a ++ '.' :: b ++ '.' :: c ++ '.' :: d

/-- nothing, or a colon and digits -/
def UrlPort (U : Uni) (w : List Char) : Prop :=
  w = [] ∨ ∃ ds, ds ≠ [] ∧ (∀ x ∈ ds, U.decimal x = true) ∧ w = ':' :: ds

/-- nothing, a slash, or a slash or question mark and text without blanks -/
def UrlTail (w : List Char) : Prop :=
  w = [] ∨ w = ['/'] ∨ ∃ x txt, (x = '/' ∨ x = '?') ∧ txt ≠ [] ∧ (∀ y ∈ txt, isSpace y = false) ∧ w = x :: txt

theorem ascii_forall {P : Char → Prop} [DecidablePred P] (h : ∀ n : Fin 128, P (Char.ofNat n)) {c : Char}
    (hc : c.toNat < 128) : P c := by
  have := h ⟨c.toNat, hc⟩
  simpa using this

theorem not_upper {c : Char} (hc : ¬ c.toNat < 128) : c.isUpper = false ∧ c.isLower = false ∧ c.isDigit = false := by
  have : ¬ c.isAlphanum = true := fun h => hc (isAlpha_ascii h)
  simp only [Char.isAlphanum, Char.isAlpha, Bool.or_eq_true, not_or, Bool.not_eq_true] at this
  exact ⟨this.1.1, this.1.2, this.2⟩

theorem toLower_high {c : Char} (hc : ¬ c.toNat < 128) : c.toLower = c := by
  have := (not_upper hc).1
  unfold Char.toLower
  split
  · rename_i h
    simp [Char.isUpper] at this
    exact absurd h.2 (by have := this h.1; simpa [UInt32.not_le] using this)
  · rfl

theorem sameCase_high {c : Char} (hc : ¬ c.toNat < 128) : sameCase c =
    if c = 'ı' || c = 'İ' then ['i', 'I', 'ı', 'İ'] else if c = 'ſ' then ['s', 'S', 'ſ']
    else if c = '\u212A' then ['k', 'K', '\u212A'] else [c] := by
  obtain ⟨h1, h2, _⟩ := not_upper hc
  have e : ∀ d : Char, d.toNat < 128 → c ≠ d := fun d hd e => hc (e ▸ hd)
  simp [sameCase, h1, h2, e 'i' (by decide), e 'I' (by decide), e 's' (by decide), e 'S' (by decide),
    e 'k' (by decide), e 'K' (by decide)]

theorem ascii_self : ∀ n : Fin 128, Char.ofNat n ∈ sameCase (Char.ofNat n) := by decide
theorem ascii_lower : ∀ n : Fin 128, (Char.ofNat n).toLower ∈ sameCase (Char.ofNat n) := by decide
set_option maxRecDepth 8000 in
theorem ascii_other : ∀ n : Fin 128, ∀ x ∈ sameCase (Char.ofNat n), x.toNat < 128 → x.isAlpha = false →
    x = Char.ofNat n := by decide
set_option maxRecDepth 8000 in
theorem ascii_lower' : ∀ n : Fin 128, ∀ x ∈ sameCase (Char.ofNat n), x.isLower = true → x ≠ 'i' → x ≠ 'k' →
    (Char.ofNat n).toLower = x := by decide

/-- membership for the characters that have no case -/
theorem sameCase_sym {d c : Char} (hd : d.toNat < 128) (hn : d.isAlpha = false) : d ∈ sameCase c ↔ c = d := by
  by_cases hc : c.toNat < 128
  · have k1 := ascii_self ⟨c.toNat, hc⟩
    have k2 := ascii_other ⟨c.toNat, hc⟩
    simp only [Char.ofNat_toNat] at k1 k2
    exact ⟨fun hm => (k2 d hm hd hn).symm, fun e => e ▸ k1⟩
  · rw [sameCase_high hc]
    have hne : ∀ x : Char, x.isAlpha = true → d ≠ x := by rintro x hx rfl; rw [hn] at hx; cases hx
    have hhi : ∀ x : Char, ¬ x.toNat < 128 → d ≠ x := by rintro x hx rfl; exact hx hd
    have hcd : c ≠ d := fun e => hc (e ▸ hd)
    split
    · simp [hne 'i' (by decide), hne 'I' (by decide), hhi 'ı' (by decide), hhi 'İ' (by decide), hcd]
    · split
      · simp [hne 's' (by decide), hne 'S' (by decide), hhi 'ſ' (by decide), hcd]
      · split
        · simp [hne 'k' (by decide), hne 'K' (by decide), hhi '\u212A' (by decide), hcd]
        · simp [hcd.symm, hcd]

/-- membership for lower-case letters other than i and k -/
theorem sameCase_lower {d c : Char} (hd : d.isLower = true) (hi : d ≠ 'i') (hk : d ≠ 'k') :
    d ∈ sameCase c ↔ c.toLower = d ∨ (d = 's' ∧ c = 'ſ') := by
  have hd' : d.toNat < 128 := isAlpha_ascii (by simp [Char.isAlphanum, Char.isAlpha, hd])
  by_cases hc : c.toNat < 128
  · have k1 := ascii_lower ⟨c.toNat, hc⟩
    have k2 := ascii_lower' ⟨c.toNat, hc⟩
    simp only [Char.ofNat_toNat] at k1 k2
    refine ⟨fun hm => .inl (k2 d hm hd hi hk), ?_⟩
    rintro (rfl | ⟨_, rfl⟩)
    · exact k1
    · exact absurd hc (by decide)
  · rw [sameCase_high hc, toLower_high hc]
    have hhi : ∀ x : Char, ¬ x.toNat < 128 → d ≠ x := by rintro x hx rfl; exact hx hd'
    have hlo : ∀ x : Char, x.isLower = false → d ≠ x := by rintro x hx rfl; rw [hd] at hx; cases hx
    have hcd : c ≠ d := fun e => hc (e ▸ hd')
    split
    · rename_i e
      have : c ≠ 'ſ' := by
        simp at e
        rcases e with rfl | rfl <;> decide
      simp [hi, hlo 'I' (by decide), hhi 'ı' (by decide), hhi 'İ' (by decide), hcd, this]
    · split
      · rename_i e
        subst e
        simp [hlo 'S' (by decide), hhi 'ſ' (by decide), hcd]
      · split
        · rename_i e1 e2
          simp [hk, hlo 'K' (by decide), hhi '\u212A' (by decide), hcd, e1]
        · rename_i e1 e2
          simp [hcd.symm, hcd, e1]

theorem sameCase_alnum {c : Char} :
    (∃ x ∈ sameCase c, ∃ i ∈ [upperR, digitR], i.has x = true) ↔ UrlAlnum c := by
  have e : (∃ x ∈ sameCase c, ∃ i ∈ [upperR, digitR], i.has x = true) ↔
      (sameCase c).any (fun x => x.isUpper || x.isDigit) = true := by
    simp [has_upper, has_digit]
  rw [e]
  unfold UrlAlnum
  by_cases hc : c.toNat < 128
  · have key : ∀ n : Fin 128, ((sameCase (Char.ofNat n)).any (fun x => x.isUpper || x.isDigit) = true ↔
        ((Char.ofNat n).isAlphanum = true ∨ Char.ofNat n ∈ ['ı', 'İ', 'ſ', '\u212A'])) := by decide
    have := key ⟨c.toNat, hc⟩
    simpa only [Char.ofNat_toNat] using this
  · obtain ⟨h1, h2, h3⟩ := not_upper hc
    rw [sameCase_high hc]
    have ha : c.isAlphanum = false := by simp [Char.isAlphanum, Char.isAlpha, h1, h2, h3]
    by_cases k1 : c = 'ı'
    · subst k1; decide
    · by_cases k2 : c = 'İ'
      · subst k2; decide
      · by_cases k3 : c = 'ſ'
        · subst k3; decide
        · by_cases k4 : c = '\u212A'
          · subst k4; decide
          · simp [k1, k2, k3, k4, h1, h3, ha]

theorem langci_chr {d : Char} {w : List Char} (hd : d.toNat < 128) (hn : d.isAlpha = false) :
    (Rx.chr d).Lang U true w ↔ w = [d] := by
  simp only [Rx.Lang, variants, if_true, sameCase_sym hd hn]
  exact ⟨fun ⟨_, e, e'⟩ => by rw [e, e'], fun e => ⟨d, e, rfl⟩⟩

theorem langci_alnum {w : List Char} : alnumC.Lang U true w ↔ ∃ c, w = [c] ∧ UrlAlnum c := by
  simp only [alnumC, Rx.Lang, variants, if_true, sameCase_alnum]

theorem langci_dash {w : List Char} : alnumDashC.Lang U true w ↔ ∃ c, w = [c] ∧ (UrlAlnum c ∨ c = '-') := by
  simp only [alnumDashC, Rx.Lang, variants, if_true]
  refine exists_congr fun c => and_congr Iff.rfl ?_
  rw [← sameCase_alnum, ← sameCase_sym (d := '-') (by decide) (by decide)]
  simp only [List.mem_cons, List.not_mem_nil, or_false, exists_eq_or_imp, exists_eq_left, has_ch, beq_iff_eq]
  constructor
  · rintro ⟨x, hx, h | h | rfl⟩
    · exact .inl ⟨x, hx, .inl h⟩
    · exact .inl ⟨x, hx, .inr h⟩
    · exact .inr hx
  · rintro (⟨x, hx, h | h⟩ | h)
    · exact ⟨x, hx, .inl h⟩
    · exact ⟨x, hx, .inr (.inl h)⟩
    · exact ⟨_, h, .inr (.inr rfl)⟩

theorem lang_grp {ci k : Bool} {a : Rx} {w : List Char} : (Rx.grp k a).Lang U ci w ↔ a.Lang U ci w := Iff.rfl
theorem lang_row_nil {ci : Bool} {w : List Char} : (Rx.row []).Lang U ci w ↔ w = [] := Iff.rfl
theorem lang_row_cons {ci : Bool} {a : Rx} {r : List Rx} {w : List Char} :
    (Rx.row (a :: r)).Lang U ci w ↔ ∃ u v, w = u ++ v ∧ a.Lang U ci u ∧ (Rx.row r).Lang U ci v := by
  cases r with
  | nil =>
    simp only [Rx.row]
    constructor
    · intro hw; exact ⟨w, [], by simp, hw, rfl⟩
    · rintro ⟨u, v, rfl, hu, hv⟩; cases hv; simpa using hu
  | cons b r => exact Iff.rfl

/-- a word of letters, read without regard to case -/
theorem langci_word {t : List Char} (ht : ∀ d ∈ t, d.isLower = true ∧ d ≠ 'i' ∧ d ≠ 'k') :
    ∀ w, (Rx.word t).Lang U true w ↔ SameWord w t := by
  induction t with
  | nil => intro w; simp [Rx.word, SameWord, lang_row_nil]
  | cons d t ih =>
    intro w
    have ih := ih fun x hx => ht x (by simp [hx])
    obtain ⟨h1, h2, h3⟩ := ht d (by simp)
    simp only [Rx.word, List.map_cons, lang_row_cons] at ih ⊢
    simp only [Rx.Lang, variants, if_true, sameCase_lower h1 h2 h3]
    constructor
    · rintro ⟨_, v, rfl, ⟨x, rfl, hx⟩, hv⟩
      exact List.Forall₂.cons hx ((ih v).1 hv)
    · intro hw
      unfold SameWord at hw
      cases hw with
      | cons hx hr => exact ⟨[_], _, rfl, ⟨_, rfl, hx⟩, (ih _).2 hr⟩

theorem lang_opt {ci : Bool} {a : Rx} {w : List Char} :
    (Rx.rep a 0 (some 1)).Lang U ci w ↔ w = [] ∨ a.Lang U ci w := by
  constructor
  · rintro ⟨ws, rfl, h1, _, h3⟩
    have := h3 1 rfl
    match ws, this with
    | [], _ => exact .inl rfl
    | [v], _ => right; simpa using h1 v (by simp)
  · rintro (rfl | hw)
    · exact ⟨[], rfl, by simp, by simp, fun _ e => by cases e; simp⟩
    · exact ⟨[w], by simp, by simpa using hw, by simp, fun _ e => by cases e; simp⟩

theorem langci_label {w : List Char} : labelRx.Lang U true w ↔ ∃ l, UrlLabel l ∧ w = l ++ ['.'] := by
  rw [labelRx, lang_grp]
  simp only [lang_row_cons, lang_row_nil, lang_opt, langci_alnum, langci_chr (show '.'.toNat < 128 by decide) (by decide)]
  have hg : ∀ u, (Rx.grp false (.seq (.rep alnumDashC 0 (some 61)) alnumC)).Lang U true u ↔
      ∃ mid z, u = mid ++ [z] ∧ mid.length ≤ 61 ∧ (∀ x ∈ mid, UrlAlnum x ∨ x = '-') ∧ UrlAlnum z := by
    intro u
    constructor
    · rintro ⟨mid, v, rfl, hm, hv⟩
      obtain ⟨z, rfl, hz⟩ := langci_alnum.1 hv
      obtain ⟨k1, _, k3⟩ := (lang_rep_one (fun _ => langci_dash)).1 hm
      exact ⟨mid, z, rfl, k3 61 rfl, k1, hz⟩
    · rintro ⟨mid, z, rfl, k1, k2, k3⟩
      exact ⟨mid, [z], rfl, (lang_rep_one (fun _ => langci_dash)).2 ⟨k2, by simp, fun m e => by cases e; exact k1⟩,
        langci_alnum.2 ⟨z, rfl, k3⟩⟩
  simp only [hg]
  constructor
  · rintro ⟨_, v, rfl, ⟨x, rfl, hx⟩, m, v', rfl, hm, _, _, rfl, rfl, rfl⟩
    rcases hm with rfl | ⟨mid, z, rfl, k1, k2, k3⟩
    · exact ⟨[x], ⟨by simp, ⟨x, rfl, hx⟩, ⟨x, rfl, hx⟩, by simp [hx]⟩, by simp⟩
    · refine ⟨x :: (mid ++ [z]), ⟨by simp; omega, ⟨x, rfl, hx⟩, ⟨z, ?_, k3⟩, ?_⟩, by simp⟩
      · rw [← List.cons_append, List.getLast?_append]; simp
      · intro y hy
        simp only [List.mem_cons, List.mem_append, List.not_mem_nil, or_false] at hy
        rcases hy with rfl | hy | rfl
        · exact .inl hx
        · exact k2 y hy
        · exact .inl k3
  · rintro ⟨l, ⟨k1, ⟨x, hx, k2⟩, ⟨z, hz, k3⟩, k4⟩, rfl⟩
    cases l with
    | nil => simp at hx
    | cons x' l =>
      simp at hx; subst hx
      refine ⟨[x'], l ++ ['.'], rfl, ⟨x', rfl, k2⟩, l, ['.'], rfl, ?_, ['.'], [], rfl, rfl, rfl⟩
      by_cases hl : l = []
      · exact .inl hl
      · right
        refine ⟨l.dropLast, l.getLast hl, (List.dropLast_append_getLast hl).symm, ?_, ?_, ?_⟩
        · simp at k1 ⊢; omega
        · intro y hy; exact k4 y (List.mem_cons_of_mem _ (List.dropLast_subset _ hy))
        · rw [List.getLast?_cons, List.getLast?_eq_some_getLast hl] at hz
          simp at hz; rw [hz]; exact k3

theorem langci_top {w : List Char} : topRx.Lang U true w ↔
    ∃ top dot, 2 ≤ top.length ∧ (∀ x ∈ top, UrlAlnum x ∨ x = '-') ∧ (dot = [] ∨ dot = ['.']) ∧ w = top ++ dot := by
  have hd : ∀ u, (Rx.rep (.chr '.') 0 (some 1)).Lang U true u ↔ u = [] ∨ u = ['.'] := fun u => by
    rw [lang_opt, langci_chr (by decide) (by decide)]
  constructor
  · rintro (⟨top, dot, rfl, ht, hdot⟩ | ⟨top, dot, rfl, ht, hdot⟩)
    · obtain ⟨k1, k2, _⟩ := (lang_rep_one (r := .cls [upperR]) (fun _ => Iff.rfl)).1 ht
      refine ⟨top, dot, k2, fun x hx => .inl ?_, (hd dot).1 hdot, rfl⟩
      obtain ⟨y, hy, i, hi, hh⟩ := k1 x hx
      simp only [variants, if_true] at hy
      refine sameCase_alnum.1 ⟨y, hy, i, ?_, hh⟩
      simp at hi; simp [hi]
    · obtain ⟨k1, k2, _⟩ := (lang_rep_one (fun _ => langci_dash)).1 ht
      exact ⟨top, dot, k2, k1, (hd dot).1 hdot, rfl⟩
  · rintro ⟨top, dot, k1, k2, k3, rfl⟩
    exact .inr ⟨top, dot, rfl, (lang_rep_one (fun _ => langci_dash)).2 ⟨k2, k1, fun _ e => nomatch e⟩, (hd dot).2 k3⟩

theorem langci_octet {w : List Char} : octetRx.Lang U true w ↔ UrlOctet U w := by
  rw [octetRx, lang_rep_one (P := fun c => U.decimal c = true) (fun _ => Iff.rfl)]
  exact ⟨fun ⟨a, b, c⟩ => ⟨b, c 3 rfl, a⟩, fun ⟨a, b, c⟩ => ⟨c, a, fun m e => by cases e; exact b⟩⟩

theorem langci_labels {w : List Char} : (Rx.rep labelRx 1 none).Lang U true w ↔
    ∃ labels, labels ≠ [] ∧ (∀ l ∈ labels, UrlLabel l) ∧ w = (labels.map (fun l => l ++ ['.'])).flatten := by
  constructor
  · rintro ⟨ws, rfl, h1, h2, _⟩
    have : ∀ ws : List (List Char), (∀ v ∈ ws, labelRx.Lang U true v) →
        ∃ labels : List (List Char), labels.length = ws.length ∧ (∀ l ∈ labels, UrlLabel l) ∧
          ws = labels.map (fun l => l ++ ['.']) := by
      intro ws
      induction ws with
      | nil => intro _; exact ⟨[], rfl, by simp, rfl⟩
      | cons v ws ih =>
        intro hws
        obtain ⟨l, hl, rfl⟩ := langci_label.1 (hws v (by simp))
        obtain ⟨ls, k1, k2, k3⟩ := ih fun v hv => hws v (by simp [hv])
        exact ⟨l :: ls, by simp [k1], by simpa using ⟨hl, k2⟩, by simp [k3]⟩
    obtain ⟨ls, k1, k2, k3⟩ := this ws h1
    refine ⟨ls, ?_, k2, by rw [k3]⟩
    rintro rfl; simp at k1; omega
  · rintro ⟨ls, h1, h2, rfl⟩
    refine ⟨ls.map (fun l => l ++ ['.']), rfl, ?_, ?_, fun _ e => nomatch e⟩
    · intro v hv
      obtain ⟨l, hl, rfl⟩ := List.mem_map.1 hv
      exact langci_label.2 ⟨l, h2 l hl, rfl⟩
    · have := List.length_pos_of_ne_nil h1
      rw [List.length_map]; omega

theorem langci_host {w : List Char} : hostRx.Lang U true w ↔ UrlHost U w := by
  have e : hostRx.Lang U true w ↔ (∃ u v, w = u ++ v ∧ (Rx.rep labelRx 1 none).Lang U true u ∧ topRx.Lang U true v) ∨
      (Rx.word c!"localhost").Lang U true w ∨
      (Rx.row [octetRx, .chr '.', octetRx, .chr '.', octetRx, .chr '.', octetRx]).Lang U true w := Iff.rfl
  rw [e, langci_word (by decide)]
  unfold UrlHost
  refine or_congr ?_ (or_congr Iff.rfl ?_)
  · simp only [langci_labels, langci_top]
    constructor
    · rintro ⟨_, _, rfl, ⟨ls, h1, h2, rfl⟩, top, dot, h3, h4, h5, rfl⟩
      exact ⟨ls, top, dot, h1, h2, h3, h4, h5, by simp⟩
    · rintro ⟨ls, top, dot, h1, h2, h3, h4, h5, rfl⟩
      exact ⟨_, top ++ dot, by simp, ⟨ls, h1, h2, rfl⟩, top, dot, h3, h4, h5, rfl⟩
  · simp only [lang_row_cons, lang_row_nil, langci_octet, langci_chr (show '.'.toNat < 128 by decide) (by decide)]
    constructor
    · rintro ⟨a, _, rfl, ha, _, _, rfl, rfl, b, _, rfl, hb, _, _, rfl, rfl, c, _, rfl, hc, _, _, rfl, rfl, d, _, rfl, hd, rfl⟩
      exact ⟨a, b, c, d, ha, hb, hc, hd, by simp⟩
    · rintro ⟨a, b, c, d, ha, hb, hc, hd, rfl⟩
      exact ⟨a, '.' :: (b ++ '.' :: (c ++ '.' :: d)), by simp, ha, ['.'], b ++ '.' :: (c ++ '.' :: d), rfl, rfl,
        b, '.' :: (c ++ '.' :: d), rfl, hb, ['.'], c ++ '.' :: d, rfl, rfl, c, '.' :: d, rfl, hc,
        ['.'], d, rfl, rfl, d, [], by simp, hd, rfl⟩

theorem langci_port {w : List Char} : portRx.Lang U true w ↔ UrlPort U w := by
  rw [portRx, lang_opt]
  refine or_congr Iff.rfl ?_
  constructor
  · rintro ⟨u, v, rfl, hu, hv⟩
    rw [langci_chr (by decide) (by decide)] at hu
    obtain ⟨k1, k2, _⟩ := (lang_rep_one (P := fun c => U.decimal c = true) (fun _ => Iff.rfl)).1 hv
    refine ⟨v, ?_, k1, by rw [hu]; rfl⟩
    rintro rfl; simp at k2
  · rintro ⟨ds, h1, h2, rfl⟩
    exact ⟨[':'], ds, rfl, (langci_chr (by decide) (by decide)).2 rfl,
      (lang_rep_one (P := fun c => U.decimal c = true) (fun _ => Iff.rfl)).2 ⟨h2, List.length_pos_of_ne_nil h1, fun _ e => nomatch e⟩⟩

theorem langci_tail {w : List Char} : tailRx.Lang U true w ↔ UrlTail w := by
  have hc : ∀ u, (Rx.cls [.ch '/', .ch '?']).Lang U true u ↔ ∃ c, u = [c] ∧ (c = '/' ∨ c = '?') := by
    intro u
    simp only [Rx.Lang, variants, if_true]
    refine exists_congr fun c => and_congr Iff.rfl ?_
    rw [← sameCase_sym (c := c) (d := '/') (by decide) (by decide), ← sameCase_sym (c := c) (d := '?') (by decide) (by decide)]
    simp only [List.mem_cons, List.not_mem_nil, or_false, exists_eq_or_imp, exists_eq_left, has_ch, beq_iff_eq]
    constructor
    · rintro ⟨x, hx, rfl | rfl⟩
      · exact .inl hx
      · exact .inr hx
    · rintro (h | h)
      · exact ⟨_, h, .inl rfl⟩
      · exact ⟨_, h, .inr rfl⟩
  have e : tailRx.Lang U true w ↔ (Rx.rep (.chr '/') 0 (some 1)).Lang U true w ∨
      ∃ u v, w = u ++ v ∧ (Rx.cls [.ch '/', .ch '?']).Lang U true u ∧ (Rx.rep .nonspace 1 none).Lang U true v := Iff.rfl
  rw [e, lang_opt, langci_chr (by decide) (by decide), or_assoc]
  unfold UrlTail
  refine or_congr Iff.rfl (or_congr Iff.rfl ?_)
  simp only [hc]
  constructor
  · rintro ⟨_, v, rfl, ⟨x, rfl, hx⟩, hv⟩
    obtain ⟨k1, k2, _⟩ := (lang_rep_one (P := fun c => isSpace c = false) (fun _ => Iff.rfl)).1 hv
    refine ⟨x, v, hx, ?_, k1, rfl⟩
    rintro rfl; simp at k2
  · rintro ⟨x, txt, hx, h1, h2, rfl⟩
    exact ⟨[x], txt, rfl, ⟨x, rfl, hx⟩, (lang_rep_one (P := fun c => isSpace c = false) (fun _ => Iff.rfl)).2
      ⟨h2, List.length_pos_of_ne_nil h1, fun _ e => nomatch e⟩⟩

theorem sameWord_snoc {w t : List Char} {d : Char} :
    SameWord w (t ++ [d]) ↔ ∃ u x, w = u ++ [x] ∧ SameWord u t ∧ (x.toLower = d ∨ (d = 's' ∧ x = 'ſ')) := by
  unfold SameWord
  constructor
  · intro hw
    induction t generalizing w with
    | nil =>
      cases hw with
      | cons hx hr => cases hr; exact ⟨[], _, rfl, .nil, hx⟩
    | cons e t ih =>
      cases hw with
      | cons hx hr =>
        obtain ⟨u, x, rfl, k1, k2⟩ := ih hr
        exact ⟨_ :: u, x, rfl, .cons hx k1, k2⟩
  · rintro ⟨u, x, rfl, k1, k2⟩
    induction k1 with
    | nil => exact .cons k2 .nil
    | cons hx _ ih => exact .cons hx ih

theorem langci_scheme {w : List Char} : schemeRx.Lang U true w ↔ ∃ sc, UrlScheme sc ∧ w = sc ++ c!"://" := by
  simp only [schemeRx, lang_row_cons, lang_row_nil, lang_opt, Rx.word, List.map_cons, List.map_nil,
    langci_chr (show ':'.toNat < 128 by decide) (by decide), langci_chr (show '/'.toNat < 128 by decide) (by decide)]
  have hg : ∀ u, (Rx.grp false (.alt (.row [.chr 'h', .chr 't', .chr 't', .chr 'p']) (.row [.chr 'f', .chr 't', .chr 'p']))).Lang
      U true u ↔ SameWord u c!"http" ∨ SameWord u c!"ftp" := fun u =>
    or_congr (langci_word (t := c!"http") (by decide) u) (langci_word (t := c!"ftp") (by decide) u)
  have hs : ∀ u, (Rx.chr 's').Lang U true u ↔ ∃ x, u = [x] ∧ (x.toLower = 's' ∨ x = 'ſ') := fun u => by
    simp only [Rx.Lang, variants, if_true, sameCase_lower (d := 's') (by decide) (by decide) (by decide), true_and]
  simp only [hg, hs]
  have e1 := fun w => sameWord_snoc (w := w) (t := c!"http") (d := 's')
  have e2 := fun w => sameWord_snoc (w := w) (t := c!"ftp") (d := 's')
  simp only [true_and, List.cons_append, List.nil_append] at e1 e2
  unfold UrlScheme
  constructor
  · rintro ⟨a, _, rfl, ha, b, _, rfl, hb, _, _, rfl, ⟨_, _, rfl, rfl, _, _, rfl, rfl, _, _, rfl, rfl, rfl⟩, rfl⟩
    refine ⟨a ++ b, ?_, by simp⟩
    rcases hb with rfl | ⟨x, rfl, hx⟩
    · simp only [List.append_nil]
      rcases ha with ha | ha
      · exact .inl ha
      · exact .inr (.inr (.inl ha))
    · rcases ha with ha | ha
      · exact .inr (.inl ((e1 _).2 ⟨a, x, rfl, ha, hx⟩))
      · exact .inr (.inr (.inr ((e2 _).2 ⟨a, x, rfl, ha, hx⟩)))
  · rintro ⟨sc, hsc, rfl⟩
    obtain ⟨a, b, rfl, ha, hb⟩ : ∃ a b, sc = a ++ b ∧ (SameWord a c!"http" ∨ SameWord a c!"ftp") ∧
        (b = [] ∨ ∃ x, b = [x] ∧ (x.toLower = 's' ∨ x = 'ſ')) := by
      rcases hsc with hk | hk | hk | hk
      · exact ⟨sc, [], by simp, .inl hk, .inl rfl⟩
      · obtain ⟨u, x, rfl, k1, k2⟩ := (e1 _).1 hk; exact ⟨u, [x], rfl, .inl k1, .inr ⟨x, rfl, k2⟩⟩
      · exact ⟨sc, [], by simp, .inr hk, .inl rfl⟩
      · obtain ⟨u, x, rfl, k1, k2⟩ := (e2 _).1 hk; exact ⟨u, [x], rfl, .inr k1, .inr ⟨x, rfl, k2⟩⟩
    exact ⟨a, b ++ c!"://", by simp, ha, b, c!"://", rfl, hb, c!"://", [], rfl,
      ⟨[':'], c!"//", rfl, rfl, ['/'], ['/'], rfl, rfl, ['/'], [], rfl, rfl, rfl⟩, rfl⟩

theorem mem_bol {ci : Bool} {s t : Spot} : t ∈ Rx.bol.ends U ci s ↔ t = s ∧ s.before = [] := by
  rw [Rx.ends]
  cases s.before <;> simp

theorem mem_eol {ci : Bool} {s t : Spot} : t ∈ Rx.eol.ends U ci s ↔ t = s ∧ (s.after = [] ∨ s.after = ['\n']) := by
  rw [Rx.ends]
  by_cases e : s.after = [] ∨ s.after = ['\n']
  · rcases e with e | e <;> simp [e]
  · rw [not_or] at e; simp [e.1, e.2]

/-- **C63**: a string passes `url` exactly when it is made of a scheme, `://`, a host, an
optional port and an optional path or query as described above; one final line break is
ignored. -/
theorem url_passes {s : String} (hv : c.val = .str s) :
    (urlMod U).validate h c = .ok () ↔
      ∃ scheme host port tail nl, s.toList = scheme ++ c!"://" ++ host ++ port ++ tail ++ nl ∧
        UrlScheme scheme ∧ UrlHost U host ∧ UrlPort U port ∧ UrlTail tail ∧ (nl = [] ∨ nl = ['\n']) := by
  rw [urlMod, strCheck_iff hv, reMatch, isEmpty_ends]
  generalize s.toList = s
  have p1 : schemeRx.Plain := by simp [schemeRx, Rx.row, Rx.word, Rx.Plain]
  have p2 : hostRx.Plain := by
    simp [hostRx, labelRx, topRx, octetRx, alnumC, alnumDashC, Rx.row, Rx.word, Rx.Plain]
  have p3 : portRx.Plain := by simp [portRx, Rx.Plain]
  have p4 : tailRx.Plain := by simp [tailRx, Rx.Plain]
  have s1 := steps_congr (ends_plain U true p1) (fun w => langci_scheme)
  have s2 := steps_congr (ends_plain U true p2) (fun w => langci_host)
  have s3 := steps_congr (ends_plain U true p3) (fun w => langci_port)
  have s4 := steps_congr (ends_plain U true p4) (fun w => langci_tail)
  have hall := steps_seq s1 (steps_seq s2 (steps_seq s3 s4))
  simp only [urlRx, Rx.row, mem_seq, mem_bol, mem_eol]
  constructor
  · rintro ⟨t, _, ⟨rfl, _⟩, t1, h1, t2, h2, t3, h3, t4, h4, rfl, he⟩
    obtain ⟨w, ⟨_, v, rfl, ⟨sc, hsc, rfl⟩, host, v2, rfl, hh, port, tail, rfl, hp, ht⟩, g1, _⟩ :=
      (hall ⟨[], s⟩ t).1 (by
        simp only [List.mem_flatMap]
        exact ⟨t1, h1, t2, h2, t3, h3, h4⟩)
    exact ⟨sc, host, port, tail, t.after, by simpa using g1, hsc, hh, hp, ht, he⟩
  · rintro ⟨sc, host, port, tail, nl, rfl, hsc, hh, hp, ht, hn⟩
    have := (hall ⟨[], sc ++ c!"://" ++ host ++ port ++ tail ++ nl⟩
      ⟨(sc ++ c!"://" ++ (host ++ (port ++ tail))).reverse ++ [], nl⟩).2
      ⟨_, ⟨_, _, rfl, ⟨sc, hsc, rfl⟩, host, _, rfl, hh, port, tail, rfl, hp, ht⟩, by simp, rfl⟩
    simp only [List.mem_flatMap] at this
    obtain ⟨t1, h1, t2, h2, t3, h3, h4⟩ := this
    exact ⟨_, _, ⟨rfl, trivial⟩, t1, h1, t2, h2, t3, h3, _, h4, rfl, hn⟩

/-- **C63** does not hold as one would expect: a line break after a URL is accepted, and the
numbers of an address are not limited to 255. -/
theorem url_broken (U : Uni) :
    (urlMod U).validate (fun _ => {}) { val := .str "http://localhost\n" } = .ok () ∧
    (urlMod U).validate (fun _ => {}) { val := .str "ftp://999.999.999.999/" } = .ok () := by
  constructor
  · rw [url_passes rfl]
    refine ⟨c!"http", c!"localhost", [], [], ['\n'], by simp, .inl ?_, .inr (.inl ?_), .inl rfl, .inl rfl, .inr rfl⟩
    · unfold SameWord; simp
    · unfold SameWord; simp
  · rw [url_passes rfl]
    have h9 : UrlOctet U c!"999" := by
      refine ⟨by simp, by simp, ?_⟩
      intro x hx
      simp at hx
      subst hx
      rw [U.ascii_decimal _ (by decide)]; decide
    refine ⟨c!"ftp", c!"999.999.999.999", [], ['/'], [], by simp, .inr (.inr (.inl ?_)),
      .inr (.inr ⟨_, _, _, _, h9, h9, h9, h9, by simp⟩), .inl rfl, .inr (.inl rfl), .inl rfl⟩
    unfold SameWord; simp

/-- **C63** does not hold as one would expect: a final line break counts as part of a secure
password's line. -/
theorem securepw_newline_broken (U : Uni) :
    (securepwMod U).validate (fun _ => {}) { val := .str "Aa1!\n" } = .ok () := by
  rw [securepw_passes rfl]
  exact ⟨c!"Aa1!", .inr (by simp), by decide, by decide, by decide, by decide, by decide⟩

/-- **C63** does not hold as one would expect: `%` and `^` are not among the symbols, so a
password of letters, digits and these is refused. -/
theorem securepw_symbols_broken (U : Uni) (s : String)
    (hs : ∀ x ∈ s.toList, x.isAlphanum = true ∨ x = '%' ∨ x = '^') :
    (securepwMod U).validate (fun _ => {}) { val := .str s } ≠ .ok () := by
  rw [Ne, securepw_passes rfl]
  rintro ⟨line, he, _, _, _, _, x, hx, hx'⟩
  have hm : x ∈ s.toList := by rcases he with he | he <;> rw [he] <;> simp [hx]
  have key : ∀ y ∈ pwSymbolChars, ¬ (y.isAlphanum = true ∨ y = '%' ∨ y = '^') := by decide
  exact key x hx' (hs x hm)

example (U : Uni) : (securepwMod U).validate (fun _ => {}) { val := .str "w4Hsa/" } = .ok () :=
  (securepw_passes rfl).2 ⟨c!"w4Hsa/", .inl rfl, by decide, by decide, by decide, by decide, by decide⟩
example (U : Uni) : (securepwMod U).validate (fun _ => {}) { val := .str "w4Hs%a" } ≠ .ok () :=
  securepw_symbols_broken U _ (by decide)

/-! ### `replacer` -/

/-- `out` is `s` with texts of the language `P` replaced by `rep`: reading from the left, a
character is copied only if no text of `P` starts there, and a replaced text is not read
again. -/
inductive Rewrites (P : List Char → Prop) (rep : List Char) : List Char → List Char → Prop where
  | done : Rewrites P rep [] []
  | hit {w s out : List Char} : P w → w ≠ [] → Rewrites P rep s out → Rewrites P rep (w ++ s) (rep ++ out)
  | keep {x : Char} {s out : List Char} : (∀ w rest, x :: s = w ++ rest → ¬ P w) → Rewrites P rep s out →
      Rewrites P rep (x :: s) (x :: out)

theorem subGo_rewrites {r : Rx} (hr : r.Plain) (hne : ¬ r.Lang U false []) (rep : List Char) :
    ∀ (n : Nat) (s : Spot), s.after.length < n → Rewrites (r.Lang U false) rep s.after (subGo U r rep n false s) := by
  intro n
  induction n with
  | zero => intro s hs; omega
  | succ n ih =>
    intro s hs
    have hsteps := ends_plain U false hr s
    rw [subGo]
    simp only [Bool.not_false, Bool.true_or, List.filter_true]
    cases he : r.ends U false s with
    | cons t ts =>
      obtain ⟨w, hw, h1, h2⟩ := (hsteps t).1 (by rw [he]; simp)
      have hwne : w ≠ [] := by rintro rfl; exact hne hw
      have hlen : t.after.length < s.after.length := by
        rw [h1, List.length_append]
        have := List.length_pos_of_ne_nil hwne
        omega
      simp only [hlen, if_true]
      rw [h1]
      exact .hit hw hwne (ih t (by omega))
    | nil =>
      cases ha : s.after with
      | nil => simp only; exact .done
      | cons x a =>
        simp only
        refine .keep ?_ ?_
        · intro w rest e hw
          have := (hsteps ⟨w.reverse ++ s.before, rest⟩).2 ⟨w, hw, by rw [ha, e], rfl⟩
          rw [he] at this
          simp at this
        · refine ih ⟨x :: s.before, a⟩ ?_
          rw [ha] at hs; simp at hs ⊢; omega

/-- **C63**: `replacer(pattern, text)` replaces texts of the pattern from the left and copies
everything else, for every pattern that does not match the empty text. -/
theorem replacer_rewrites {parse : String → Except Exc Rx} {preg prep : Param} {r : Rx} {t u s : String}
    (hreg : preg h c = .ok (.str t)) (hrep : prep h c = .ok (.str u)) (hparse : parse t = .ok r) (hr : r.Plain)
    (hne : ¬ r.Lang U false []) (hv : c.val = .str s) :
    ∃ out, (replacerMod U parse preg prep).transform h c = .ok (.str out) ∧
      Rewrites (r.Lang U false) u.toList s.toList out.toList := by
  refine ⟨String.ofList (reSub U r u.toList s.toList), ?_, ?_⟩
  · simp only [replacerMod, hreg, hrep, hv, hparse, bind, Except.bind, pure, Except.pure]
  · rw [String.toList_ofList]
    exact subGo_rewrites hr hne _ _ ⟨[], s.toList⟩ (by simp; omega)

/-- **C63**: a string without a text of the pattern stays as it is. -/
theorem replacer_no_match {parse : String → Except Exc Rx} {preg prep : Param} {r : Rx} {t u s : String}
    (hreg : preg h c = .ok (.str t)) (hrep : prep h c = .ok (.str u)) (hparse : parse t = .ok r) (hr : r.Plain)
    (hv : c.val = .str s) (hno : ∀ pre w post, s.toList = pre ++ w ++ post → ¬ r.Lang U false w) :
    (replacerMod U parse preg prep).transform h c = .ok (.str s) := by
  have hne : ¬ r.Lang U false [] := hno [] [] s.toList (by simp)
  obtain ⟨out, h1, h2⟩ := replacer_rewrites hreg hrep hparse hr hne hv
  rw [h1]
  have key : ∀ {a b : List Char}, Rewrites (r.Lang U false) u.toList a b →
      (∀ pre w post, a = pre ++ w ++ post → ¬ r.Lang U false w) → b = a := by
    intro a b hab
    induction hab with
    | done => intro _; rfl
    | hit hw _ _ _ => intro hno; exact absurd hw (hno [] _ _ (by simp; rfl))
    | @keep x s' out' _ _ ih =>
      intro hno
      rw [ih fun pre w post e => hno (x :: pre) w post (by simp [e])]
  have := key h2 hno
  rw [String.toList_injective this]

theorem lang_word {w t : List Char} : (Rx.word t).Lang U false w ↔ w = t := by
  induction t generalizing w with
  | nil => exact Iff.rfl
  | cons d t ih =>
    simp only [Rx.word, List.map_cons] at ih ⊢
    rw [lang_row_cons]
    simp only [ih, lang_chr]
    constructor
    · rintro ⟨_, _, rfl, rfl, rfl⟩; rfl
    · rintro rfl; exact ⟨[d], t, rfl, rfl, rfl⟩

theorem plain_row {l : List Rx} (hl : ∀ a ∈ l, a.Plain) : (Rx.row l).Plain := by
  induction l with
  | nil => trivial
  | cons a l ih =>
    cases l with
    | nil => exact hl a (by simp)
    | cons b l => exact ⟨hl a (by simp), ih fun x hx => hl x (by simp [hx])⟩

theorem rewrites_word {old rep : List Char} (ho : old ≠ []) {s out : List Char}
    (h : Rewrites (fun w => w = old) rep s out) : out = replaceL old rep s := by
  have hd : ∀ s, replaceL old rep s = joinL rep (splitGo old 0 s) := by
    intro s; cases old with
    | nil => exact absurd rfl ho
    | cons _ _ => rfl
  rw [hd]
  induction h with
  | done => simp [splitGo, joinL]
  | @hit w s out hw _ _ ih =>
    subst hw
    obtain ⟨x, w', rfl⟩ := List.exists_cons_of_ne_nil ho
    have e : splitGo (x :: w') 0 (x :: w' ++ s) = [] :: splitGo (x :: w') 0 s := by
      rw [List.cons_append, splitGo]
      have : (x :: w').isPrefixOf (x :: (w' ++ s)) = true := by simp
      rw [if_pos this]
      simp only [List.length_cons, Nat.add_sub_cancel]
      rw [splitGo_skip]
    rw [e, joinL_cons_ne (splitGo_ne_nil _ _ _), ih]
    simp
  | @keep x s out hk _ ih =>
    have hp : ¬ old.isPrefixOf (x :: s) = true := by
      intro hp
      obtain ⟨rest, e⟩ := List.isPrefixOf_iff_prefix.1 hp
      exact hk old rest e.symm rfl
    rw [splitGo, if_neg hp, ih]
    cases hsp : splitGo old 0 s with
    | nil => exact absurd hsp (splitGo_ne_nil _ _ _)
    | cons a as => simp only [joinL_cons_head]

/-- **C63**: with a pattern of plain characters `replacer` does what `replace` does. -/
theorem replacer_word {parse : String → Except Exc Rx} {preg prep : Param} {old : List Char} {t u s : String}
    (hreg : preg h c = .ok (.str t)) (hrep : prep h c = .ok (.str u)) (hparse : parse t = .ok (.word old))
    (ho : old ≠ []) (hv : c.val = .str s) :
    (replacerMod U parse preg prep).transform h c = .ok (.str (String.ofList (replaceL old u.toList s.toList))) := by
  have hp : (Rx.word old).Plain := plain_row (by simp [Rx.Plain])
  obtain ⟨out, h1, h2⟩ := replacer_rewrites (U := U) hreg hrep hparse hp (by rw [lang_word]; exact fun e => ho e.symm) hv
  rw [h1]
  have e : (Rx.word old).Lang U false = fun w => w = old := by funext w; exact propext lang_word
  rw [e] at h2
  rw [← rewrites_word ho h2, String.ofList_toList]

/-- **C63**: values that are not strings are kept. -/
theorem replacer_others {parse : String → Except Exc Rx} {preg prep : Param} {a b : Val}
    (hreg : preg h c = .ok a) (hrep : prep h c = .ok b) (hv : ∀ s, c.val ≠ .str s) :
    (replacerMod U parse preg prep).transform h c = .ok c.val := by
  simp only [replacerMod, hreg, hrep, bind, Except.bind]

namespace RegexDemo
open JC

/-- the trees are the patterns of the code, character by character -/
example : emailRx.text = c!"\\b[A-Za-z0-9._%+-]+@[A-Za-z0-9.-]+\\.[A-Z|a-z]{2,}\\b" := by decide
example : hexRx.text = c!"[0-9a-fA-F]{6}" := by decide
example : pwRx.text = c!"(^(?=.*[A-Z])(?=.*[!@#$&*`~()\\-_+=\\[\\]{}:;'\",<>.?\\\\|/])(?=.*[0-9])(?=.*[a-z]).*$)" := by
  decide
set_option maxRecDepth 8000 in
example : urlRx.text = c!"^(?:http|ftp)s?://(?:(?:[A-Z0-9](?:[A-Z0-9-]{0,61}[A-Z0-9])?\\.)+(?:[A-Z]{2,6}\\.?|[A-Z0-9-]{2,}\\.?)|localhost|\\d{1,3}\\.\\d{1,3}\\.\\d{1,3}\\.\\d{1,3})(?::\\d+)?(?:/?|[/?]\\S+)$" := by
  decide

/-- a table that knows ASCII only -/
def ascii : Uni where
  alpha c := c.isAlpha
  decimal c := c.isDigit
  digit c := c.isDigit
  numeric c := c.isDigit
  decimal_digit _ h := h
  digit_numeric _ h := h
  ascii_alpha _ _ := rfl
  ascii_decimal _ _ := rfl
  ascii_numeric _ _ := rfl

/-- `[0-9]+` -/
def digits : Rx := .rep (.cls [digitR]) 1 none
theorem digits_plain : digits.Plain := ⟨trivial, fun _ e => nomatch e⟩
theorem digits_lang {U : Uni} (w : List Char) :
    digits.Lang U false w ↔ (∀ x ∈ w, x.isDigit = true) ∧ w ≠ [] := by
  rw [digits, lang_rep_one (fun _ => lang_cls)]
  simp only [List.any_cons, List.any_nil, Bool.or_false, has_digit]
  constructor
  · rintro ⟨h1, h2, _⟩; refine ⟨h1, ?_⟩; rintro rfl; simp at h2
  · rintro ⟨h1, h2⟩; exact ⟨h1, List.length_pos_of_ne_nil h2, fun _ e => nomatch e⟩

def one (r : Rx) : String → Except Exc Rx := fun _ => .ok r

/-- `match('[0-9]+')` accepts a digit anywhere -/
example (U : Uni) : (matchMod U (one digits) (.const (.str "[0-9]+"))).validate (fun _ => {})
    { val := .str "ab12c" } = .ok () :=
  (match_finds rfl rfl digits_plain rfl).2 ⟨c!"ab", c!"12", c!"c", by simp, (digits_lang _).2 (by decide)⟩
example (U : Uni) : (matchMod U (one digits) (.const (.str "[0-9]+"))).validate (fun _ => {})
    { val := .str "abc" } ≠ .ok () := by
  rw [Ne, match_finds rfl rfl digits_plain rfl]
  rintro ⟨pre, w, post, e, hw⟩
  obtain ⟨h1, h2⟩ := (digits_lang w).1 hw
  obtain ⟨x, w', rfl⟩ := List.exists_cons_of_ne_nil h2
  have hx := h1 x (by simp)
  have hm : x ∈ ("abc".toList) := by rw [e]; simp
  have : ∀ y ∈ "abc".toList, y.isDigit = false := by decide
  rw [this x hm] at hx; cases hx
/-- `match('^[0-9]+$')` accepts a final line break -/
example (U : Uni) : (matchMod U (one (.row [.bol, digits, .eol])) (.const (.str "^[0-9]+$"))).validate (fun _ => {})
    { val := .str "12\n" } = .ok () :=
  (match_anchored rfl rfl digits_plain rfl).2 ⟨c!"12", (digits_lang _).2 (by decide), .inr (by simp)⟩
example : reSub ascii digits c!"#" c!"a12b345" = c!"a#b#" := by decide
/-- an empty match is replaced too, also right after a non-empty one -/
example : reSub ascii (.rep (.chr 'x') 0 none) c!"-" c!"abxd" = c!"-a-b--d-" := by decide
example : reMatch ascii false emailRx c!"a@b.co" = true := by decide
example : reMatch ascii false emailRx c!".a@b.co" = false := by decide
example : reMatch ascii true urlRx c!"HTTPS://Example.com:80/x?y" = true := by decide
example : reMatch ascii true urlRx c!"http://user@example.com" = false := by decide
example : (hexcolorMod ascii).validate (fun _ => {}) { val := .str "01FD6" } ≠ .ok () := by
  rw [Ne, hexcolor_passes rfl]
  rintro ⟨six, rest, e, h6, _⟩
  have := congrArg List.length e
  simp at this
  omega
example : (digitMod ascii).validate (fun _ => {}) { val := .str "012" } = .ok () :=
  (kinds_pass rfl).2.1.2 (by decide)

end RegexDemo

end JC
