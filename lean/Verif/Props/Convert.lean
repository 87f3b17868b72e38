import Verif.Model.Convert
import Verif.Props.Strings
import Mathlib.Data.List.Nodup

/-
C65: conversions between text and numbers, letter case, division, powers and roots.
C66: generated values and passwords.
-/
namespace JC

/-! ### Specification -/

/-- the number with these decimal digits -/
def decimalValue (ds : List Nat) : Nat := ds.foldl (fun n d => 10 * n + d) 0

/-- `s` is a run of digits with the digit values `ds` -/
def IsDigits (T : DigitTable) (s : List Char) (ds : List Nat) : Prop := s.map T.val = ds.map some

/-- The texts of the natural number `n`: digits, and any number of groups of digits each
preceded by an underscore. -/
def NatText (T : DigitTable) (s : List Char) (n : Nat) : Prop :=
  ∃ (g : List Char) (gs : List (List Char)) (ds : List Nat), g ≠ [] ∧ (∀ k ∈ gs, k ≠ []) ∧ s = g ++ (gs.map (fun k => '_' :: k)).flatten ∧
    IsDigits T (g ++ gs.flatten) ds ∧ n = decimalValue ds

/-- White space around an integer in the text `s`: in a text of ASCII characters without the
separators U+001C to U+001F. -/
def Blank (s : List Char) (c : Char) : Prop :=
  c.toNat ∈ whiteSpace ∧ ((∀ d ∈ s, d.toNat < 128) → c.toNat ∉ [0x1c, 0x1d, 0x1e, 0x1f] ∧ c.toNat < 128)

/-- The texts of the integer `n`: white space, an optional sign, a natural number, white
space. -/
def IntText (T : DigitTable) (s : List Char) (n : Int) : Prop :=
  ∃ (a sg m b : List Char) (k : Nat), s = a ++ sg ++ m ++ b ∧ (∀ c ∈ a, Blank s c) ∧ (∀ c ∈ b, Blank s c) ∧ NatText T m k ∧
    ((sg = [] ∧ n = k) ∨ (sg = ['+'] ∧ n = k) ∨ (sg = ['-'] ∧ n = -k))

/-! ### Reading integers -/

variable {T : DigitTable}

theorem foldl_dec (ds es : List Nat) (a : Nat) : (ds ++ es).foldl (fun n d => 10 * n + d) a = es.foldl (fun n d => 10 * n + d) (ds.foldl (fun n d => 10 * n + d) a) :=
  List.foldl_append

theorem under_not_digit {T : DigitTable} {d : Nat} : T.val '_' ≠ some d := by rw [T.notSign.2.2]; simp

/-- after a digit -/
theorem readDigits_iff (s : List Char) : ∀ (st : Bool) (acc n : Nat), readDigits T st acc s = some n ↔
    ∃ (g : List Char) (gs : List (List Char)) (ds : List Nat), (st = false → g ≠ []) ∧ (∀ k ∈ gs, k ≠ []) ∧ s = g ++ (gs.map (fun k => '_' :: k)).flatten ∧
      IsDigits T (g ++ gs.flatten) ds ∧ n = ds.foldl (fun n d => 10 * n + d) acc := by
  induction s with
  | nil =>
    intro st acc n
    constructor
    · intro h
      cases st with
      | false => simp [readDigits] at h
      | true =>
        simp only [readDigits, if_true, Option.some.injEq] at h
        exact ⟨[], [], [], by simp, by simp, by simp, rfl, by simp [h]⟩
    · rintro ⟨g, gs, ds, h1, h2, h3, h4, h5⟩
      have hg : g = [] := by
        have := h3.symm
        simp only [List.append_eq_nil_iff] at this
        exact this.1
      have hgs : gs = [] := by
        cases gs with
        | nil => rfl
        | cons k ks => simp at h3
      subst hg hgs
      have hds : ds = [] := by
        unfold IsDigits at h4
        simpa using h4.symm
      subst hds
      cases st with
      | false => exact absurd rfl (h1 rfl)
      | true => simp [readDigits, h5]
  | cons c s ih =>
    intro st acc n
    unfold readDigits
    by_cases hc : c = '_'
    · subst hc
      rw [if_pos rfl]
      cases st with
      | false =>
        simp only [Bool.false_eq_true, if_false]
        constructor
        · intro h; cases h
        · rintro ⟨g, gs, ds, h1, h2, h3, h4, h5⟩
          cases g with
          | nil => exact absurd rfl (h1 trivial)
          | cons x g =>
            simp only [List.cons_append, List.cons.injEq] at h3
            obtain ⟨rfl, _⟩ := h3
            unfold IsDigits at h4
            cases ds with
            | nil => simp at h4
            | cons d ds =>
              simp only [List.cons_append, List.map_cons, List.cons.injEq] at h4
              exact absurd h4.1 under_not_digit
      | true =>
        simp only [if_true]
        rw [ih false acc n]
        constructor
        · rintro ⟨g, gs, ds, h1, h2, h3, h4, h5⟩
          refine ⟨[], g :: gs, ds, by simp, ?_, ?_, ?_, h5⟩
          · intro k hk
            rcases List.mem_cons.1 hk with rfl | hk
            · exact h1 rfl
            · exact h2 k hk
          · simp [h3]
          · simpa using h4
        · rintro ⟨g, gs, ds, h1, h2, h3, h4, h5⟩
          cases g with
          | cons x g =>
            simp only [List.cons_append, List.cons.injEq] at h3
            obtain ⟨rfl, _⟩ := h3
            unfold IsDigits at h4
            cases ds with
            | nil => simp at h4
            | cons d ds =>
              simp only [List.cons_append, List.map_cons, List.cons.injEq] at h4
              exact absurd h4.1 under_not_digit
          | nil =>
            cases gs with
            | nil => simp at h3
            | cons k gs =>
              refine ⟨k, gs, ds, fun _ => h2 k (by simp), fun k' hk' => h2 k' (by simp [hk']), ?_, ?_, h5⟩
              · simpa using h3
              · simpa using h4
    · rw [if_neg hc]
      cases hd : T.val c with
      | none =>
        simp only []
        constructor
        · intro h; cases h
        · rintro ⟨g, gs, ds, h1, h2, h3, h4, h5⟩
          cases g with
          | cons x g =>
            simp only [List.cons_append, List.cons.injEq] at h3
            obtain ⟨rfl, _⟩ := h3
            unfold IsDigits at h4
            cases ds with
            | nil => simp at h4
            | cons d ds =>
              simp only [List.cons_append, List.map_cons, List.cons.injEq] at h4
              rw [hd] at h4
              cases h4.1
          | nil =>
            cases gs with
            | nil => simp at h3
            | cons k gs =>
              simp only [List.nil_append, List.map_cons, List.flatten_cons, List.cons_append, List.cons.injEq] at h3
              exact absurd h3.1 hc
      | some d =>
        simp only []
        rw [ih true (10 * acc + d) n]
        constructor
        · rintro ⟨g, gs, ds, h1, h2, h3, h4, h5⟩
          refine ⟨c :: g, gs, d :: ds, by simp, h2, by simp [h3], ?_, by simpa using h5⟩
          unfold IsDigits at h4 ⊢
          simp only [List.cons_append, List.map_cons, hd, h4]
        · rintro ⟨g, gs, ds, h1, h2, h3, h4, h5⟩
          cases g with
          | cons x g =>
            simp only [List.cons_append, List.cons.injEq] at h3
            obtain ⟨rfl, h3⟩ := h3
            unfold IsDigits at h4
            cases ds with
            | nil => simp at h4
            | cons e ds =>
              simp only [List.cons_append, List.map_cons, List.cons.injEq, hd, Option.some.injEq] at h4
              obtain ⟨rfl, h4⟩ := h4
              exact ⟨g, gs, ds, by simp, h2, h3, h4, by simpa using h5⟩
          | nil =>
            cases gs with
            | nil => simp at h3
            | cons k gs =>
              simp only [List.nil_append, List.map_cons, List.flatten_cons, List.cons_append, List.cons.injEq] at h3
              exact absurd h3.1 hc

theorem readDigits_natText (s : List Char) (n : Nat) : readDigits T false 0 s = some n ↔ NatText T s n := by
  rw [readDigits_iff]
  unfold NatText decimalValue
  simp

theorem dropWhile_all {p : Char → Bool} {a s : List Char} (ha : ∀ c ∈ a, p c = true) : (a ++ s).dropWhile p = s.dropWhile p := by
  induction a with
  | nil => rfl
  | cons x a ih => simp [ha x (by simp), ih (fun c hc => ha c (by simp [hc]))]

theorem dropWhile_stop {p : Char → Bool} {x : Char} {s : List Char} (h : p x = false) : (x :: s).dropWhile p = x :: s := by
  simp [h]

/-- white space around a text that starts and ends with other characters is dropped -/
theorem stripBy_mid {p : Char → Bool} {a b m : List Char} {x y : Char} (ha : ∀ c ∈ a, p c = true) (hb : ∀ c ∈ b, p c = true) (hx : p x = false)
    (hy : p y = false) (h1 : ∃ m', m = x :: m') (h2 : ∃ m', m = m' ++ [y]) : stripBy p (a ++ m ++ b) = m := by
  unfold stripBy
  obtain ⟨m₁, rfl⟩ := h1
  obtain ⟨m₂, h2⟩ := h2
  rw [List.append_assoc, dropWhile_all ha, List.cons_append, dropWhile_stop hx, ← List.cons_append, List.reverse_append,
    dropWhile_all (fun c hc => hb c (by simpa using hc)), h2, List.reverse_append]
  simp [hy]

theorem dropBy_split (p : Char → Bool) (s : List Char) : ∃ a, s = a ++ s.dropWhile p ∧ ∀ c ∈ a, p c = true := by
  induction s with
  | nil => exact ⟨[], rfl, by simp⟩
  | cons x s ih =>
    by_cases hx : p x = true
    · obtain ⟨a, h1, h2⟩ := ih
      refine ⟨x :: a, ?_, ?_⟩
      · simp [hx, ← h1]
      · intro c hc
        rcases List.mem_cons.1 hc with rfl | hc
        · exact hx
        · exact h2 c hc
    · exact ⟨[], by simp [hx], by simp⟩

theorem stripBy_split (p : Char → Bool) (s : List Char) : ∃ a b, s = a ++ stripBy p s ++ b ∧ (∀ c ∈ a, p c = true) ∧ ∀ c ∈ b, p c = true := by
  obtain ⟨a, h1, h2⟩ := dropBy_split p s
  obtain ⟨b, h3, h4⟩ := dropBy_split p (s.dropWhile p).reverse
  refine ⟨a, b.reverse, ?_, h2, fun c hc => h4 c (by simpa using hc)⟩
  unfold stripBy
  rw [List.append_assoc, ← List.reverse_append, ← h3, List.reverse_reverse, ← h1]

theorem intSpace_sub {s : List Char} {c : Char} (h : isSpace c = false) : intSpace s c = false := by
  unfold intSpace
  split
  · unfold isSpace at h
    simp only [Bool.or_eq_false_iff, Bool.and_eq_false_iff, decide_eq_false_iff_not, beq_eq_false_iff_ne] at h ⊢
    obtain ⟨⟨⟨⟨⟨⟨⟨⟨⟨⟨h1, h2⟩, _⟩, _⟩, _⟩, _⟩, _⟩, _⟩, _⟩, _⟩, _⟩ := h
    exact ⟨h1, by omega⟩
  · exact h

theorem intSpace_iff {s : List Char} {c : Char} : intSpace s c = true ↔ Blank s c := by
  unfold intSpace Blank
  by_cases hs : ∀ d ∈ s, d.toNat < 128
  · rw [if_pos (by simpa using hs)]
    unfold whiteSpace
    simp only [hs, Bool.or_eq_true, Bool.and_eq_true, decide_eq_true_eq, beq_iff_eq, List.mem_cons, List.not_mem_nil, or_false]
    constructor
    · intro h
      exact ⟨by omega, fun _ => ⟨by omega, by omega⟩⟩
    · rintro ⟨h1, h2⟩
      have := h2 hs
      omega
  · rw [if_neg (by simpa using hs), isSpace_iff]
    exact ⟨fun h => ⟨h, fun h' => absurd h' hs⟩, fun h => h.1⟩

theorem sign_space {s : List Char} : intSpace s '-' = false ∧ intSpace s '+' = false ∧ intSpace s '_' = false :=
  ⟨intSpace_sub (by decide), intSpace_sub (by decide), intSpace_sub (by decide)⟩

/-- a text of digits starts and ends with a digit -/
theorem natText_ends {m : List Char} {k : Nat} (h : NatText T m k) : ∃ x y m₁ m₂, m = x :: m₁ ∧ m = m₂ ++ [y] ∧ (T.val x).isSome = true ∧ (T.val y).isSome = true := by
  obtain ⟨g, gs, ds, h1, h2, h3, h4, _⟩ := h
  have hd : ∀ c ∈ g ++ gs.flatten, (T.val c).isSome = true := by
    intro c hc
    unfold IsDigits at h4
    have : T.val c ∈ ds.map some := by rw [← h4]; exact List.mem_map.2 ⟨c, hc, rfl⟩
    obtain ⟨d, _, hd⟩ := List.mem_map.1 this
    rw [← hd]
    rfl
  obtain ⟨x, g', rfl⟩ : ∃ x g', g = x :: g' := by
    cases g with
    | nil => exact absurd rfl h1
    | cons x g' => exact ⟨x, g', rfl⟩
  have hlast : ∃ y m₂, m = m₂ ++ [y] ∧ (T.val y).isSome = true := by
    rcases List.eq_nil_or_concat gs with rfl | ⟨gs', k', rfl⟩
    · obtain ⟨m₂, y, hy⟩ := (List.eq_nil_or_concat (x :: g')).resolve_left (by simp)
      refine ⟨y, m₂, ?_, hd y ?_⟩
      · rw [h3, hy]; simp
      · rw [hy]; simp
    · have hk : k' ≠ [] := h2 k' (by simp)
      obtain ⟨k₂, y, hy⟩ := (List.eq_nil_or_concat k').resolve_left hk
      refine ⟨y, x :: g' ++ (gs'.map (fun k => '_' :: k)).flatten ++ ('_' :: k₂), ?_, hd y ?_⟩
      · rw [h3, hy]; simp
      · rw [hy]; simp
  obtain ⟨y, m₂, hm, hy⟩ := hlast
  exact ⟨x, y, g' ++ (gs.map (fun k => '_' :: k)).flatten, m₂, by rw [h3]; simp, hm, hd x (by simp), hy⟩

theorem digit_space {s : List Char} {c : Char} (h : (T.val c).isSome = true) : intSpace s c = false := by
  obtain ⟨d, hd⟩ := Option.isSome_iff_exists.1 h
  exact intSpace_sub (T.notSpace c d hd)

theorem digit_not_sign {c : Char} (h : (T.val c).isSome = true) : c ≠ '-' ∧ c ≠ '+' := by
  constructor
  · rintro rfl; rw [T.notSign.1] at h; cases h
  · rintro rfl; rw [T.notSign.2.1] at h; cases h

/-- reading accepts exactly the texts of integers -/
theorem readInt_iff (s : List Char) (n : Int) : readInt T s = some n ↔ IntText T s n := by
  constructor
  · intro h
    obtain ⟨a, b, hs, ha, hb⟩ := stripBy_split (intSpace s) s
    replace ha := fun c hc => intSpace_iff.1 (ha c hc)
    replace hb := fun c hc => intSpace_iff.1 (hb c hc)
    unfold readInt at h
    split at h
    · rename_i cs hcs
      rw [hcs] at hs
      obtain ⟨k, hk, hn⟩ := Option.map_eq_some_iff.1 h
      refine ⟨a, ['-'], cs, b, k, by simp [hs] , ?_, ?_, (readDigits_natText _ _).1 hk, .inr (.inr ⟨rfl, hn.symm⟩)⟩
      · exact ha
      · exact hb
    · rename_i cs hcs
      rw [hcs] at hs
      obtain ⟨k, hk, hn⟩ := Option.map_eq_some_iff.1 h
      refine ⟨a, ['+'], cs, b, k, by simp [hs], ha, hb, (readDigits_natText _ _).1 hk, .inr (.inl ⟨rfl, hn.symm⟩)⟩
    · obtain ⟨k, hk, hn⟩ := Option.map_eq_some_iff.1 h
      refine ⟨a, [], _, b, k, by simpa using hs, ha, hb, (readDigits_natText _ _).1 hk, .inl ⟨rfl, hn.symm⟩⟩
  · rintro ⟨a, sg, m, b, k, hs, ha, hb, hm, hn⟩
    replace ha := fun c hc => intSpace_iff.2 (ha c hc)
    replace hb := fun c hc => intSpace_iff.2 (hb c hc)
    obtain ⟨x, y, m₁, m₂, hx, hy, hdx, hdy⟩ := natText_ends hm
    have hread := (readDigits_natText m k).2 hm
    rcases hn with ⟨rfl, rfl⟩ | ⟨rfl, rfl⟩ | ⟨rfl, rfl⟩
    · have : stripBy (intSpace s) s = m := by
        have := stripBy_mid (p := intSpace s) (m := m) ha hb (digit_space hdx) (digit_space hdy) ⟨m₁, hx⟩ ⟨m₂, hy⟩
        rw [List.append_nil] at hs
        rw [← hs] at this
        exact this
      unfold readInt
      rw [this]
      obtain ⟨n1, n2⟩ := digit_not_sign hdx
      split
      · injection hx with e; exact absurd e.symm n1
      · injection hx with e; exact absurd e.symm n2
      · rw [hread]; rfl
    · have : stripBy (intSpace s) s = '+' :: m := by
        have := stripBy_mid (p := intSpace s) (m := '+' :: m) ha hb sign_space.2.1 (digit_space hdy) ⟨m, rfl⟩ ⟨'+' :: m₂, by rw [hy]; rfl⟩
        have he : a ++ '+' :: m ++ b = s := by rw [hs]; simp
        rw [he] at this
        exact this
      unfold readInt
      rw [this]
      simp only [hread, Option.map_some]
    · have : stripBy (intSpace s) s = '-' :: m := by
        have := stripBy_mid (p := intSpace s) (m := '-' :: m) ha hb sign_space.1 (digit_space hdy) ⟨m, rfl⟩ ⟨'-' :: m₂, by rw [hy]; rfl⟩
        have he : a ++ '-' :: m ++ b = s := by rw [hs]; simp
        rw [he] at this
        exact this
      unfold readInt
      rw [this]
      simp only [hread, Option.map_some]

/-! ### Writing integers -/

/-- the digits of a number -/
theorem natText_digits (n : Nat) : ∃ ds : List Nat, natText n = ds.map (fun d => Char.ofNat (48 + d)) ∧ (∀ d ∈ ds, d < 10) ∧ decimalValue ds = n ∧
    (n ≠ 0 → ds.head? ≠ some 0) ∧ ds ≠ [] ∧ (n = 0 → ds = [0]) := by
  induction n using Nat.strongRecOn with
  | _ n ih =>
    unfold natText
    split
    · rename_i h
      refine ⟨[n], rfl, by simpa using h, by simp [decimalValue], by simp, by simp, by rintro rfl; rfl⟩
    · rename_i h
      obtain ⟨ds, h1, h2, h3, h4, h5, _⟩ := ih (n / 10) (by omega)
      refine ⟨ds ++ [n % 10], by simp [h1], ?_, ?_, ?_, by simp, by omega⟩
      · intro d hd
        rcases List.mem_append.1 hd with hd | hd
        · exact h2 d hd
        · simp only [List.mem_singleton] at hd; omega
      · unfold decimalValue at h3 ⊢
        rw [foldl_dec, h3]
        simp only [List.foldl_cons, List.foldl_nil]
        omega
      · intro hn
        have := h4 (by omega)
        cases ds with
        | nil => exact absurd rfl h5
        | cons d ds => simpa using this

theorem digits_isDigits {ds : List Nat} (h : ∀ d ∈ ds, d < 10) : IsDigits T (ds.map (fun d => Char.ofNat (48 + d))) ds := by
  unfold IsDigits
  rw [List.map_map]
  apply List.map_congr_left
  intro d hd
  exact T.ascii d (h d hd)

theorem natText_natText (n : Nat) : NatText T (natText n) n := by
  obtain ⟨ds, h1, h2, h3, _, h5, _⟩ := natText_digits n
  refine ⟨natText n, [], ds, ?_, by simp, by simp, ?_, h3.symm⟩
  · rw [h1]; simpa using h5
  · simp only [List.flatten_nil, List.append_nil]
    rw [h1]
    exact digits_isDigits h2

theorem intText_intText (n : Int) : IntText T (intText n) n := by
  unfold intText
  split
  · rename_i h
    refine ⟨[], ['-'], natText n.natAbs, [], n.natAbs, by simp, by simp, by simp, natText_natText _, .inr (.inr ⟨rfl, by omega⟩)⟩
  · rename_i h
    refine ⟨[], [], natText n.natAbs, [], n.natAbs, by simp, by simp, by simp, natText_natText _, .inl ⟨rfl, by omega⟩⟩

/-! ### C65 -/

section convert
variable {h : Heap} {c : Ctx}

/-- `toint` turns a text into an integer exactly if it is a text of this integer. -/
theorem toint_exact {s : String} (hv : c.val = .str s) (n : Int) : (tointMod T).transform h c = .ok (.int n) ↔ IntText T s.toList n := by
  rw [← readInt_iff]
  simp only [tointMod, hv]
  cases readInt T s.toList with
  | none => simp
  | some m => simp

/-- Any other text raises an exception that is not a validation error. -/
theorem toint_rejects {s : String} (hv : c.val = .str s) (hn : ∀ n, ¬ IntText T s.toList n) : (tointMod T).transform h c = .error .valueError := by
  simp only [tointMod, hv]
  cases hr : readInt T s.toList with
  | none => rfl
  | some m => exact absurd ((readInt_iff _ _).1 hr) (hn m)

/-- Values that are neither text nor bool are left as they are; bools become 1 and 0. -/
theorem toint_others : (∀ b, c.val = .bool b → (tointMod T).transform h c = .ok (.int (if b then 1 else 0))) ∧
    ((∀ b, c.val ≠ .bool b) → (∀ s, c.val ≠ .str s) → (tointMod T).transform h c = .ok c.val) := by
  constructor
  · intro b hb
    simp [tointMod, hb]
  · intro h1 h2
    unfold tointMod
    simp only []

/-- The text of an integer: a minus sign for negative numbers, then its digits without leading
zeros. -/
theorem tostr_int (ft : Flt → String) {n : Int} (hv : c.val = .int n) : ∃ (sg : List Char) (ds : List Nat),
    (tostrMod ft).transform h c = .ok (.str (String.ofList (sg ++ ds.map (fun d => Char.ofNat (48 + d))))) ∧ sg = (if n < 0 then ['-'] else []) ∧
      (∀ d ∈ ds, d < 10) ∧ decimalValue ds = n.natAbs ∧ (n ≠ 0 → ds.head? ≠ some 0) ∧ (n = 0 → ds = [0]) := by
  obtain ⟨ds, h1, h2, h3, h4, _, h6⟩ := natText_digits n.natAbs
  refine ⟨_, ds, ?_, rfl, h2, h3, fun hn => h4 (by omega), fun hn => h6 (by omega)⟩
  simp only [tostrMod, hv, intText]
  split
  · rw [h1]; rfl
  · rw [h1]; rfl

/-- An integer written and read again is the same integer. -/
theorem tostr_toint (ft : Flt → String) {n : Int} (hv : c.val = .int n) : ∃ t, (tostrMod ft).transform h c = .ok t ∧ (tointMod T).transform h (c.nval t) = .ok (.int n) := by
  refine ⟨.str (String.ofList (intText n)), by simp only [tostrMod, hv], ?_⟩
  rw [toint_exact (s := String.ofList (intText n)) rfl]
  simpa using intText_intText n

/-- A bool written is no integer text: reading it again raises. -/
theorem tostr_toint_bool (ft : Flt → String) {b : Bool} (hv : c.val = .bool b) (hT : T.val 'T' = none) (hF : T.val 'F' = none) :
    ∃ t, (tostrMod ft).transform h c = .ok t ∧ (tointMod T).transform h (c.nval t) = .error .valueError := by
  refine ⟨.str (if b then "True" else "False"), by simp only [tostrMod, hv], ?_⟩
  cases b with
  | true =>
    have : readInt T ['T', 'r', 'u', 'e'] = none := by
      have hs : stripBy (intSpace ['T', 'r', 'u', 'e']) ['T', 'r', 'u', 'e'] = ['T', 'r', 'u', 'e'] := by decide
      unfold readInt
      rw [hs]
      simp [readDigits, hT]
    simp only [tointMod, Ctx.nval, if_true]
    change (match readInt T ['T', 'r', 'u', 'e'] with | some n => _ | none => _) = _
    rw [this]
  | false =>
    have : readInt T ['F', 'a', 'l', 's', 'e'] = none := by
      have hs : stripBy (intSpace ['F', 'a', 'l', 's', 'e']) ['F', 'a', 'l', 's', 'e'] = ['F', 'a', 'l', 's', 'e'] := by decide
      unfold readInt
      rw [hs]
      simp [readDigits, hF]
    simp only [tointMod, Ctx.nval, Bool.false_eq_true, if_false]
    change (match readInt T ['F', 'a', 'l', 's', 'e'] with | some n => _ | none => _) = _
    rw [this]

/-- A float written and read again is the same float, if Python's `str` and `float` are inverse
on it. -/
theorem tostr_tofloat {ft : Flt → String} {fr : String → Option Flt} {f : Flt} (hv : c.val = .flt f) (hrt : fr (ft f) = some f) :
    ∃ t, (tostrMod ft).transform h c = .ok t ∧ (tofloatMod fr).transform h (c.nval t) = .ok (.flt f) := by
  refine ⟨.str (ft f), by simp only [tostrMod, hv], ?_⟩
  simp only [tofloatMod, Ctx.nval, hrt]

/-- `tofloat` of a truth value: 1.0 or 0.0. -/
theorem tofloat_bool {fr : String → Option Flt} {b : Bool} (hv : c.val = .bool b) :
    ∃ q : Rat, (tofloatMod fr).transform h c = .ok (.flt (.fin q)) ∧ (b = true → q = 1) ∧ (b = false → q = 0) := by
  refine ⟨if b then 1 else 0, by simp only [tofloatMod, hv], ?_, ?_⟩ <;> rintro rfl <;> rfl
example := tofloat_bool (fr := fun _ => none) (h := fun _ => {}) (c := { val := .bool false }) rfl

/-- Division: the quotient, as a float, also when it is whole. -/
theorem div_spec {p : Param} {x k : Int} (hv : c.val = .int x) (hp : p h c = .ok (.int k)) :
    (k ≠ 0 → ∃ q : Rat, (divMod p).transform h c = .ok (.flt (.fin q)) ∧ q * k = x) ∧
    (k = 0 → ∃ e, (divMod p).transform h c = .error e ∧ e.isValidation = false) := by
  constructor
  · intro hk
    refine ⟨(x : Rat) / (k : Rat), ?_, ?_⟩
    · simp [divMod, intOp, hv, Val.isNumber, hp, intDiv, hk]
    · have : (k : Rat) ≠ 0 := by exact_mod_cast hk
      exact Rat.div_mul_cancel this
  · intro hk
    exact ⟨.other 2, by simp [divMod, intOp, hv, Val.isNumber, hp, intDiv, hk], rfl⟩

theorem ratPow_ne {k : Rat} (hk : k ≠ 0) (m : Nat) : k ^ m ≠ 0 := by
  induction m with
  | zero => rw [Rat.pow_zero]; decide
  | succ m ih =>
    rw [Rat.pow_succ]
    intro h
    rcases Rat.mul_eq_zero.1 h with h | h
    · exact ih h
    · exact hk h

/-- Power: the parameter to the power of the value; a float for negative values. -/
theorem pow_spec {p : Param} {x k : Int} (hv : c.val = .int x) (hp : p h c = .ok (.int k)) :
    (∀ m : Nat, x = m → (powMod p).transform h c = .ok (.int (k ^ m))) ∧
    (∀ m : Nat, x = -(m + 1 : Int) → k ≠ 0 → ∃ q : Rat, (powMod p).transform h c = .ok (.flt (.fin q)) ∧ q * (k : Rat) ^ (m + 1) = 1) ∧
    (x < 0 → k = 0 → ∃ e, (powMod p).transform h c = .error e ∧ e.isValidation = false) := by
  refine ⟨?_, ?_, ?_⟩
  · rintro m rfl
    simp [powMod, intOp, hv, Val.isNumber, hp, intPow]
  · rintro m rfl hk
    have hneg : ¬ (0 : Int) ≤ -(m + 1 : Int) := by omega
    have hto : (- -(m + 1 : Int)).toNat = m + 1 := by omega
    refine ⟨1 / (k : Rat) ^ (m + 1), ?_, ?_⟩
    · simp only [powMod, intOp, hv, Val.isNumber, if_true, hp, Except.bind_ok_eq, intPow, hneg, if_false, hk, hto]
    · have : (k : Rat) ^ (m + 1) ≠ 0 := ratPow_ne (by exact_mod_cast hk) _
      exact Rat.div_mul_cancel this
  · intro hx hk
    exact ⟨.other 2, by simp [powMod, intOp, hv, Val.isNumber, hp, intPow, hk, hx], rfl⟩

/-- Roots: of numbers that are not negative. Negative numbers, negative infinity and NaN are
rejected with a validation error; other values stay as they are. -/
theorem sqrt_spec (root : Val → Except Exc Flt) :
    (∀ x : Rat, IsNum c.val x → 0 ≤ x → (sqrtMod root).transform h c = (root c.val).map .flt) ∧
    (∀ x : Rat, IsNum c.val x → x < 0 → ∃ m, (sqrtMod root).transform h c = .error (c.vexc m)) ∧
    (c.val = .flt .nan ∨ c.val = .flt .ninf → ∃ m, (sqrtMod root).transform h c = .error (c.vexc m)) ∧
    (NotNumber c.val → (sqrtMod root).transform h c = .ok c.val) := by
  refine ⟨?_, ?_, ?_, ?_⟩
  · intro x hx hp
    simp only [sqrtMod, hx.isNumber, if_true, numLe_num isNum_zero hx, Except.bind_ok_eq, decide_eq_true hp]
    cases root c.val <;> rfl
  · intro x hx hp
    have : decide ((0 : Rat) ≤ x) = false := decide_eq_false (Rat.not_le.2 hp)
    refine ⟨"value is less than 0 thus cannot be sqrted", ?_⟩
    simp only [sqrtMod, hx.isNumber, if_true, numLe_num isNum_zero hx, Except.bind_ok_eq, this, Bool.false_eq_true, if_false]
  · rintro (hx | hx) <;> exact ⟨"value is less than 0 thus cannot be sqrted", by simp only [sqrtMod, hx]; rfl⟩
  · intro hv
    simp [sqrtMod, hv.isNumber]

/-- Division and power leave values that are not numbers as they are. -/
theorem div_pow_ignore (p : Param) (hv : NotNumber c.val) :
    (divMod p).transform h c = .ok c.val ∧ (powMod p).transform h c = .ok c.val := by
  constructor <;> simp [divMod, powMod, intOp, hv.isNumber]

/-! #### Letter case -/

/-- a text of ASCII characters -/
def Ascii (s : List Char) : Prop := ∀ ch ∈ s, ch.toNat < 128

theorem ascii_char {P : Char → Bool} (hP : ∀ k : Fin 128, P (Char.ofNat k) = true) {ch : Char} (h : ch.toNat < 128) : P ch = true := by
  have := hP ⟨ch.toNat, h⟩
  rwa [show Char.ofNat (⟨ch.toNat, h⟩ : Fin 128).1 = ch from Char.ofNat_toNat ch] at this

set_option maxRecDepth 8000 in
theorem upper_ascii_facts {ch : Char} (h : ch.toNat < 128) : ch.toUpper.toNat < 128 ∧ ch.toLower.toNat < 128 ∧ ch.toUpper.toUpper = ch.toUpper ∧
    ch.toLower.toLower = ch.toLower ∧ ch.toUpper.toLower = ch.toLower ∧ ch.toLower.toUpper = ch.toUpper ∧ ch.toUpper.isAlpha = ch.isAlpha ∧ ch.toLower.isAlpha = ch.isAlpha := by
  have := ascii_char (P := fun ch => decide (ch.toUpper.toNat < 128 ∧ ch.toLower.toNat < 128 ∧ ch.toUpper.toUpper = ch.toUpper ∧
    ch.toLower.toLower = ch.toLower ∧ ch.toUpper.toLower = ch.toLower ∧ ch.toLower.toUpper = ch.toUpper ∧ ch.toUpper.isAlpha = ch.isAlpha ∧ ch.toLower.isAlpha = ch.isAlpha)) (by decide) h
  exact of_decide_eq_true this

theorem flatMap_single {f : Char → List Char} {g : Char → Char} {s : List Char} (h : ∀ ch ∈ s, f ch = [g ch]) : s.flatMap f = s.map g := by
  induction s with
  | nil => rfl
  | cons x s ih =>
    rw [List.flatMap_cons, h x (by simp), ih (fun ch hc => h ch (by simp [hc]))]
    rfl

variable {C : CaseTable}

/-- Upper case: every ASCII letter becomes its capital, nothing else changes. -/
theorem toupper_ascii {s : String} (hv : c.val = .str s) (hs : Ascii s.toList) :
    (toupperMod C).transform h c = .ok (.str (String.ofList (s.toList.map Char.toUpper))) := by
  simp only [toupperMod, strTransform, hv]
  rw [flatMap_single (fun ch hc => C.upper_ascii ch (hs ch hc))]

/-- Lower case. -/
theorem tolower_ascii {s : String} (hv : c.val = .str s) (hs : Ascii s.toList) :
    (tolowerMod C).transform h c = .ok (.str (String.ofList (s.toList.map Char.toLower))) := by
  simp only [tolowerMod, strTransform, hv]
  rw [flatMap_single (fun ch hc => C.lower_ascii ch (hs ch hc))]

/-- Capitalised: the first character in upper case, all others in lower case. -/
theorem tocap_ascii {s : String} (hv : c.val = .str s) (hs : Ascii s.toList) : ∃ t, (tocapMod C).transform h c = .ok (.str (String.ofList t)) ∧
    t.length = s.toList.length ∧ ∀ k ch, s.toList[k]? = some ch → t[k]? = some (if k = 0 then ch.toUpper else ch.toLower) := by
  simp only [tocapMod, strTransform, hv]
  refine ⟨_, rfl, ?_⟩
  generalize s.toList = l at hs
  cases l with
  | nil => exact ⟨rfl, by simp⟩
  | cons x l =>
    have e : capitalize C (x :: l) = x.toUpper :: l.map Char.toLower := by
      rw [capitalize, C.title_ascii x (hs x (by simp)), flatMap_single (fun ch hc => C.lower_ascii ch (hs ch (by simp [hc])))]
      rfl
    rw [e]
    refine ⟨by simp, ?_⟩
    intro k ch hk
    cases k with
    | zero => simp at hk; simp [hk]
    | succ k => simp at hk; simp [hk]

/-- position `k` of `s` does not come directly after a letter -/
def WordStart (s : List Char) (k : Nat) : Prop := ∀ p, s[k - 1]? = some p → 0 < k → p.isAlpha = false

theorem titleGo_ascii {s : List Char} (hs : Ascii s) : ∀ prev, (titleGo C prev s).length = s.length ∧
    ∀ k ch, s[k]? = some ch → (titleGo C prev s)[k]? = some (if (if k = 0 then prev else (s.getD (k - 1) ' ').isAlpha) then ch.toLower else ch.toUpper) := by
  induction s with
  | nil => intro prev; exact ⟨rfl, by simp⟩
  | cons x s ih =>
    intro prev
    have hx := hs x (by simp)
    obtain ⟨i1, i2⟩ := ih (fun ch hc => hs ch (by simp [hc])) (C.cased x)
    have e : titleGo C prev (x :: s) = (if prev then x.toLower else x.toUpper) :: titleGo C (C.cased x) s := by
      rw [titleGo]
      cases prev with
      | true => simp [C.lower_ascii x hx]
      | false => simp [C.title_ascii x hx]
    rw [e]
    refine ⟨by simp [i1], ?_⟩
    intro k ch hk
    cases k with
    | zero =>
      simp only [List.getElem?_cons_zero, Option.some.injEq] at hk
      simp [hk]
    | succ k =>
      simp only [List.getElem?_cons_succ] at hk ⊢
      rw [i2 k ch hk]
      cases k with
      | zero => simp [C.cased_ascii x hx]
      | succ k => simp

/-- Title: a letter directly after a letter is in lower case, every other one in upper case. -/
theorem totitle_ascii {s : String} (hv : c.val = .str s) (hs : Ascii s.toList) : ∃ t, (totitleMod C).transform h c = .ok (.str (String.ofList t)) ∧
    t.length = s.toList.length ∧ ∀ k ch, s.toList[k]? = some ch → (WordStart s.toList k → t[k]? = some ch.toUpper) ∧ (¬ WordStart s.toList k → t[k]? = some ch.toLower) := by
  simp only [totitleMod, strTransform, hv]
  refine ⟨_, rfl, ?_⟩
  obtain ⟨h1, h2⟩ := titleGo_ascii (C := C) hs false
  refine ⟨h1, ?_⟩
  intro k ch hk
  rw [h2 k ch hk]
  cases k with
  | zero => exact ⟨by simp, fun hn => absurd (by intro p _ h0; omega) hn⟩
  | succ k =>
    have hlt : k < s.toList.length := by
      have := (List.getElem?_eq_some_iff.1 hk).1
      omega
    have hp : s.toList[k]? = some s.toList[k] := List.getElem?_eq_getElem hlt
    have hw : WordStart s.toList (k + 1) ↔ (s.toList[k]).isAlpha = false := by
      unfold WordStart
      simp only [Nat.add_sub_cancel, hp, Option.some.injEq]
      constructor
      · intro hh; exact hh _ rfl (by omega)
      · rintro hh p rfl _; exact hh
    rw [hw]
    have hg : s.toList.getD k ' ' = s.toList[k] := by simp [List.getD, hp]
    simp only [Nat.add_sub_cancel, Nat.succ_ne_zero, and_false, if_false, hg]
    cases (s.toList[k]).isAlpha <;> simp

/-- Each of the four is idempotent on ASCII texts: transforming again changes nothing. -/
theorem case_idem {l : Leaf} (hl : l = toupperMod C ∨ l = tolowerMod C ∨ l = tocapMod C ∨ l = totitleMod C) {s : String} (hv : c.val = .str s) (hs : Ascii s.toList) :
    ∃ t, l.transform h c = .ok t ∧ l.transform h (c.nval t) = .ok t := by
  have key : ∀ {f : List Char → List Char}, (∀ x, Ascii x → f (f x) = f x) → ∃ t, (strTransform f).transform h c = .ok t ∧ (strTransform f).transform h (c.nval t) = .ok t := by
    intro f hf
    refine ⟨.str (String.ofList (f s.toList)), by simp only [strTransform, hv], ?_⟩
    simp only [strTransform, Ctx.nval, String.toList_ofList, hf _ hs]
  have up : ∀ x, Ascii x → x.flatMap C.upper = x.map Char.toUpper := fun x hx => flatMap_single (fun ch hc => C.upper_ascii ch (hx ch hc))
  have lo : ∀ x, Ascii x → x.flatMap C.lower = x.map Char.toLower := fun x hx => flatMap_single (fun ch hc => C.lower_ascii ch (hx ch hc))
  have aup : ∀ x, Ascii x → Ascii (x.map Char.toUpper) := by
    intro x hx ch hc
    obtain ⟨d, hd, rfl⟩ := List.mem_map.1 hc
    exact (upper_ascii_facts (hx d hd)).1
  have alo : ∀ x, Ascii x → Ascii (x.map Char.toLower) := by
    intro x hx ch hc
    obtain ⟨d, hd, rfl⟩ := List.mem_map.1 hc
    exact (upper_ascii_facts (hx d hd)).2.1
  rcases hl with rfl | rfl | rfl | rfl
  · refine key (fun x hx => ?_)
    rw [up x hx, up _ (aup x hx), List.map_map]
    exact List.map_congr_left (fun ch hc => (upper_ascii_facts (hx ch hc)).2.2.1)
  · refine key (fun x hx => ?_)
    rw [lo x hx, lo _ (alo x hx), List.map_map]
    exact List.map_congr_left (fun ch hc => (upper_ascii_facts (hx ch hc)).2.2.2.1)
  · refine key (fun x hx => ?_)
    cases x with
    | nil => rfl
    | cons y x =>
      have hx' : Ascii x := fun ch hc => hx ch (by simp [hc])
      have hy := hx y (by simp)
      have e : ∀ z, z.toNat < 128 → ∀ w, Ascii w → capitalize C (z :: w) = z.toUpper :: w.map Char.toLower := by
        intro z hz w hw
        rw [capitalize, C.title_ascii z hz, lo w hw]
        rfl
      rw [e y hy x hx', e _ (upper_ascii_facts hy).1 _ (alo x hx'), (upper_ascii_facts hy).2.2.1, List.map_map]
      congr 1
      exact List.map_congr_left (fun ch hc => (upper_ascii_facts (hx' ch hc)).2.2.2.1)
  · refine key (fun x hx => ?_)
    have go : ∀ x, Ascii x → ∀ prev, titleGo C prev (titleGo C prev x) = titleGo C prev x := by
      intro x
      induction x with
      | nil => intro _ _; rfl
      | cons y x ih =>
        intro hx prev
        have hy := hx y (by simp)
        have hf := upper_ascii_facts hy
        have e : ∀ z, z.toNat < 128 → ∀ w, titleGo C prev (z :: w) = (if prev then z.toLower else z.toUpper) :: titleGo C (C.cased z) w := by
          intro z hz w
          rw [titleGo]
          cases prev with
          | true => simp [C.lower_ascii z hz]
          | false => simp [C.title_ascii z hz]
        have ih' := ih (fun ch hc => hx ch (by simp [hc])) (C.cased y)
        rw [e y hy]
        cases prev with
        | true =>
          simp only [if_true]
          rw [e _ hf.2.1]
          simp only [if_true, hf.2.2.2.1]
          rw [C.cased_ascii _ hf.2.1, hf.2.2.2.2.2.2.2, ← C.cased_ascii y hy, ih']
        | false =>
          simp only [Bool.false_eq_true, if_false]
          rw [e _ hf.1]
          simp only [Bool.false_eq_true, if_false, hf.2.2.1]
          rw [C.cased_ascii _ hf.1, hf.2.2.2.2.2.2.1, ← C.cased_ascii y hy, ih']
    exact go x hx false

/-- Values that are not text are left as they are by all four. -/
theorem case_others {l : Leaf} (hl : l = toupperMod C ∨ l = tolowerMod C ∨ l = tocapMod C ∨ l = totitleMod C) (hv : ∀ s, c.val ≠ .str s) :
    l.transform h c = .ok c.val := by
  have key : ∀ {f : List Char → List Char}, (strTransform f).transform h c = .ok c.val := by
    intro f
    unfold strTransform
    simp only []
  rcases hl with rfl | rfl | rfl | rfl <;> exact key

end convert

/-! ### Examples -/

namespace ConvertDemo

/-- ASCII digits only -/
def digits : DigitTable where
  val := fun c => if 48 ≤ c.toNat ∧ c.toNat ≤ 57 then some (c.toNat - 48) else none
  small := by
    intro c d h
    split at h
    · injection h; omega
    · cases h
  ascii := by
    intro d hd
    have := (by decide : ∀ d : Fin 10, (if 48 ≤ (Char.ofNat (48 + d.1)).toNat ∧ (Char.ofNat (48 + d.1)).toNat ≤ 57 then some ((Char.ofNat (48 + d.1)).toNat - 48) else none) = some d.1)
    exact this ⟨d, hd⟩
  notSpace := by
    intro c d h
    split at h
    · rename_i hc
      unfold isSpace
      simp only [Bool.or_eq_false_iff, Bool.and_eq_false_iff, decide_eq_false_iff_not, beq_eq_false_iff_ne]
      omega
    · cases h
  notSign := by decide

/-- ASCII letters only -/
def letters : CaseTable where
  upper := fun c => [c.toUpper]
  lower := fun c => [c.toLower]
  title := fun c => [c.toUpper]
  cased := fun c => c.isAlpha
  upper_ascii := fun _ _ => rfl
  lower_ascii := fun _ _ => rfl
  title_ascii := fun _ _ => rfl
  cased_ascii := fun _ _ => rfl

def ctx : Ctx := { keypathp := [], fkeypathr := [], val := .none }

/-- " -1_0\n" is a text of -10 -/
example : IntText digits [' ', '-', '1', '_', '0', '\n'] (-10) :=
  ⟨[' '], ['-'], ['1', '_', '0'], ['\n'], 10, rfl, fun c hc => by simp only [List.mem_singleton] at hc; subst hc; exact ⟨by decide, fun _ => by decide⟩,
    fun c hc => by simp only [List.mem_singleton] at hc; subst hc; exact ⟨by decide, fun _ => by decide⟩, ⟨['1'], [['0']], [1, 0], by decide, by decide, rfl, rfl, rfl⟩, .inr (.inr ⟨rfl, rfl⟩)⟩

/-- "1__0", "1_", "" and "3.7" are texts of no integer -/
theorem not_texts (n : Int) : ¬ IntText digits ['1', '_', '_', '0'] n ∧ ¬ IntText digits ['1', '_'] n ∧ ¬ IntText digits [] n ∧ ¬ IntText digits ['3', '.', '7'] n := by
  simp only [← readInt_iff]
  refine ⟨?_, ?_, ?_, ?_⟩ <;> (intro h; have h' := h; revert h'; rw [show readInt digits _ = none from by decide]; simp)

/-- Sent "3.7", a field with `toint` raises a ValueError that is no validation error. -/
theorem toint_raises (h : Heap) (s : String) (hs : s.toList = ['3', '.', '7']) :
    (tointMod digits).transform h (ctx.nval (.str s)) = .error .valueError ∧ Exc.valueError.isValidation = false :=
  ⟨toint_rejects rfl (fun n => by rw [hs]; exact (not_texts n).2.2.2), rfl⟩

/-- After `toint` the value can still be a float: 7/2 stays 7/2. -/
theorem toint_keeps_float (h : Heap) : (tointMod digits).transform h (ctx.nval (.flt (.fin (7 / 2)))) = .ok (.flt (.fin (7 / 2))) :=
  toint_others.2 (fun _ e => by cases e) (fun _ e => by cases e)

example (h : Heap) : ∃ t, (tostrMod (fun _ => "")).transform h (ctx.nval (.int (-120))) = .ok t ∧ (tointMod digits).transform h ((ctx.nval (.int (-120))).nval t) = .ok (.int (-120)) :=
  tostr_toint _ rfl

example (h : Heap) : ∃ t, (tostrMod (fun _ => "")).transform h (ctx.nval (.bool true)) = .ok t ∧ (tointMod digits).transform h ((ctx.nval (.bool true)).nval t) = .error .valueError :=
  tostr_toint_bool _ rfl (by decide) (by decide)

/-- 6 / 3 is the float 2 -/
example (h : Heap) : (divMod (fun _ _ => .ok (.int 3))).transform h (ctx.nval (.int 6)) = .ok (.flt (.fin 2)) := by
  obtain ⟨q, h1, h2⟩ := (div_spec (h := h) (c := ctx.nval (.int 6)) (p := fun _ _ => .ok (.int 3)) rfl rfl).1 (by decide)
  have : q = 2 := by
    have h3 : q * (3 : Int) = 2 * (3 : Int) := by rw [h2]; exact_mod_cast (by decide : (6 : Int) = 2 * 3)
    have h4 : ((3 : Int) : Rat) ≠ 0 := by decide
    calc q = q * (3 : Int) / (3 : Int) := (Rat.mul_div_cancel h4).symm
      _ = 2 * (3 : Int) / (3 : Int) := by rw [h3]
      _ = 2 := Rat.mul_div_cancel h4
  rw [h1, this]

/-- `pow(2)` of 3 is 8 -/
example (h : Heap) : (powMod (fun _ _ => .ok (.int 2))).transform h (ctx.nval (.int 3)) = .ok (.int 8) :=
  (pow_spec (h := h) (c := ctx.nval (.int 3)) (p := fun _ _ => .ok (.int 2)) rfl rfl).1 3 rfl

example (h : Heap) (root) : ∃ m, (sqrtMod root).transform h (ctx.nval (.int (-4))) = .error ((ctx.nval (.int (-4))).vexc m) :=
  (sqrt_spec root).2.1 (-4) (IsNum.int (-4)) (by decide)

/-- "it's aB" as a title is "It'S Ab" -/
example : titleGo letters false ['i', 't', '\'', 's', ' ', 'a', 'B'] = ['I', 't', '\'', 'S', ' ', 'A', 'b'] := by decide
example : Ascii ['i', 't', '\'', 's', ' ', 'a', 'B'] ∧ WordStart ['i', 't', '\'', 's', ' ', 'a', 'B'] 3 ∧ ¬ WordStart ['i', 't', '\'', 's', ' ', 'a', 'B'] 1 := by
  refine ⟨by intro ch hc; revert ch; decide, ?_, ?_⟩
  · intro p hp _
    injection hp with hp
    subst hp
    decide
  · intro hw
    exact absurd (hw 'i' rfl (by omega)) (by decide)

end ConvertDemo

end JC
