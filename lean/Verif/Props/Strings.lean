import Verif.Model.Strings
import Verif.Props.Numbers

/-
C09 (length validators), C11 (string shaping), C12 (split and join), C13 (prefixes and
suffixes), C49 (list transforms), C50 (presence, equality and choice).
-/
namespace JC

/-! ### Specification -/

/-- The value is a string of `n` characters or a list of `n` items. -/
inductive HasLen : Val → Nat → Prop
  | str (s : String) : HasLen (.str s) s.length
  | list (xs : List Val) : HasLen (.list xs) xs.length

theorem HasLen.len? {v : Val} {n : Nat} (h : HasLen v n) : v.len? = some n := by
  cases h
  · simp [Val.len?, String.length_toList]
  · rfl

variable {h : Heap} {c : Ctx} {p q : Param} {bv av : Val} {a b : Rat} {n : Nat}

/-! ### C09 -/

/-- **C09**: `minlength`. -/
theorem minlength_decides (hn : HasLen c.val n) (hp : p h c = .ok bv) (hb : IsNum bv b) :
    Decides (minlengthMod p) h c (b ≤ (n : Int)) := by
  apply Decides.of_reject (b := decide (((n : Int) : Rat) < b))
    (msg := "length of value is not greater than or equal")
  · simp [minlengthMod, hn.len?, hp, numLt_num (IsNum.int n) hb]
  · simp [Rat.not_le]

/-- **C09**: `maxlength`. -/
theorem maxlength_decides (hn : HasLen c.val n) (hp : p h c = .ok bv) (hb : IsNum bv b) :
    Decides (maxlengthMod p) h c ((n : Int) ≤ b) := by
  apply Decides.of_reject (b := decide (b < ((n : Int) : Rat)))
    (msg := "length of value is not less than or equal")
  · simp [maxlengthMod, hn.len?, hp, numLt_num hb (IsNum.int n)]
  · simp [Rat.not_le]

/-- **C09**: `length(a, b)`, both ends included. -/
theorem length_decides (hn : HasLen c.val n) (hp : p h c = .ok av) (ha : IsNum av a)
    (hq : q h c = .ok bv) (hb : IsNum bv b) :
    Decides (lengthMod p (some q)) h c (a ≤ (n : Int) ∧ (n : Int) ≤ b) := by
  constructor
  · rintro ⟨h1, h2⟩
    have h1' := Rat.not_lt.2 h1
    have h2' := Rat.not_lt.2 h2
    simp [lengthMod, hn.len?, hp, hq, numLt_num hb (IsNum.int n), numLt_num (IsNum.int n) ha, rejectIf, h1', h2']
  · intro hnot
    refine ⟨"length of value is not in range", ?_⟩
    by_cases h2 : b < (n : Int)
    · simp [lengthMod, hn.len?, hp, hq, numLt_num hb (IsNum.int n), h2, Ctx.vexc, Ctx.sfkeypathr]
    · have h1 : ((n : Int) : Rat) < a := by
        apply Rat.not_le.1
        intro h1; exact hnot ⟨h1, Rat.not_lt.1 h2⟩
      simp [lengthMod, hn.len?, hp, hq, numLt_num hb (IsNum.int n), numLt_num (IsNum.int n) ha, rejectIf, h1, h2,
        Ctx.vexc, Ctx.sfkeypathr]

/-- **C09**: `length(a)` means exactly `a`. -/
theorem length_exact {k : Int} (hn : HasLen c.val n) (hp : p h c = .ok (.int k)) :
    Decides (lengthMod p none) h c ((n : Int) = k) := by
  have he : (lengthMod p none).validate h c = (lengthMod p (some p)).validate h c := by
    simp [lengthMod, hn.len?, hp]
  have hd := length_decides hn hp (IsNum.int k) hp (IsNum.int k)
  constructor
  · intro e
    rw [he]; exact hd.1 (by rw [e]; exact ⟨Rat.le_refl, Rat.le_refl⟩)
  · intro hne
    rw [he]; apply hd.2
    rintro ⟨h1, h2⟩
    have := Rat.intCast_le_intCast.1 h1
    have := Rat.intCast_le_intCast.1 h2
    omega

/-- **C09**: None and other values without a length are never rejected. -/
theorem length_ignores_others (hv : ∀ n, ¬ HasLen c.val n) :
    (minlengthMod p).validate h c = .ok () ∧ (maxlengthMod p).validate h c = .ok () ∧
    ∀ r, (lengthMod p r).validate h c = .ok () := by
  have e : c.val.len? = none := by
    cases hc : c.val <;> first | rfl | skip
    · exact absurd (hc ▸ HasLen.str _) (hv _)
    · exact absurd (hc ▸ HasLen.list _) (hv _)
  simp [minlengthMod, maxlengthMod, lengthMod, e]

example : (lengthMod (.const (.int 2)) (some (.const (.int 3)))).validate (fun _ => {}) { val := .str "abc" } = .ok () :=
  (length_decides (HasLen.str "abc") rfl (.int 2) rfl (.int 3)).1 (by decide)
example : ∃ m, (minlengthMod (.const (.int 4))).validate (fun _ => {}) { val := .str "abc", fkeypathr := [.s "n"] } =
    .error (.validation [("n", m)]) :=
  (minlength_decides (HasLen.str "abc") rfl (.int 4)).2 (by decide)

/-! ### C11 -/

/-- **C11**: `truncate(k)` keeps the first `k` characters, all of them if there are fewer. -/
theorem truncate_str {s : String} {k : Nat} (hv : c.val = .str s) (hp : p h c = .ok (.int k)) :
    ∃ r : String, (truncateMod p).transform h c = .ok (.str r) ∧ r.toList <+: s.toList ∧ r.length = min k s.length := by
  refine ⟨String.ofList (s.toList.take (min k s.toList.length)), ?_, ?_, ?_⟩
  · have e : ¬ (k : Int) < 0 := by omega
    simp [truncateMod, hv, hp, sliceTo, sliceIx, e, pure, Except.pure, bind, Except.bind]
  · simp [List.take_prefix]
  · simp [← String.length_toList]

/-- **C11**: same for lists. -/
theorem truncate_list {xs : List Val} {k : Nat} (hv : c.val = .list xs) (hp : p h c = .ok (.int k)) :
    ∃ r, (truncateMod p).transform h c = .ok (.list r) ∧ r <+: xs ∧ r.length = min k xs.length := by
  refine ⟨xs.take (min k xs.length), ?_, List.take_prefix _ _, by simp⟩
  have e : ¬ (k : Int) < 0 := by omega
  simp [truncateMod, hv, hp, sliceTo, sliceIx, e, pure, Except.pure, bind, Except.bind]

/-- **C11**: as lengths, `True` and `False` are 1 and 0. -/
theorem truncate_bool {q : Param} {b : Bool} (hp : p h c = .ok (.bool b)) (hq : q h c = .ok (.int (if b then 1 else 0))) :
    (truncateMod p).transform h c = (truncateMod q).transform h c := by
  cases b <;> simp [truncateMod, hp, hq, sliceTo, sliceIx, bind, Except.bind]

/-- **C11**: truncating twice is truncating once. -/
theorem truncate_idem {v : Val} {k : Nat} (hp : ∀ u, p h (c.nval u) = .ok (.int k))
    (hv : (truncateMod p).transform h c = .ok v) : (truncateMod p).transform h (c.nval v) = .ok v := by
  have e0 : p h c = .ok (.int k) := hp c.val
  cases hc : c.val with
  | str s =>
    obtain ⟨r, h1, h2, h3⟩ := truncate_str hc e0
    rw [h1] at hv; cases hv
    obtain ⟨r', g1, g2, g3⟩ := truncate_str (c := c.nval (.str r)) (h := h) rfl (hp (.str r))
    rw [g1]
    have : r'.toList = r.toList := List.IsPrefix.eq_of_length g2 (by simp [String.length_toList]; omega)
    rw [String.toList_injective this]
  | list xs =>
    obtain ⟨r, h1, h2, h3⟩ := truncate_list hc e0
    rw [h1] at hv; cases hv
    obtain ⟨r', g1, g2, g3⟩ := truncate_list (c := c.nval (.list r)) (h := h) rfl (hp (.list r))
    rw [g1]
    rw [List.IsPrefix.eq_of_length g2 (by omega)]
  | dict d => simp [truncateMod, hc, e0] at hv
  | _ => simp [truncateMod, hc] at hv; subst hv; simp [truncateMod, Ctx.nval]

/-- A finding: a negative `truncate(-k)` drops the last `k` characters, so it is not
idempotent. -/
theorem truncate_negative_not_idem :
    ∃ (c : Ctx) (v w : Val), (truncateMod (.const (.int (-1)))).transform (fun _ => {}) c = .ok v ∧
      (truncateMod (.const (.int (-1)))).transform (fun _ => {}) (c.nval v) = .ok w ∧ v ≠ w :=
  ⟨{ val := .str "abc" }, .str "ab", .str "a", rfl, rfl, fun e => by injection e with e; exact absurd e (by decide)⟩

theorem strTimes_single (k : Int) (ch : Char) : strTimes k [ch] = List.replicate k.toNat ch := by
  unfold strTimes
  induction k.toNat with
  | zero => rfl
  | succ n ih => simp [List.replicate_succ, ih]

/-- **C11**: `padend(ch, t)` keeps the string as a prefix, adds only `ch`, and the result
has length `t`, or the length of the string if that is larger. -/
theorem padend_spec {s ch : String} {d : Char} {t : Int} (hv : c.val = .str s) (hch : ch.toList = [d])
    (hp : p h c = .ok (.str ch)) (hq : q h c = .ok (.int t)) :
    ∃ (r : String) (k : Nat), (padendMod p q).transform h c = .ok (.str r) ∧
      r.toList = s.toList ++ List.replicate k d ∧ (r.length : Int) = max t s.length := by
  refine ⟨String.ofList (s.toList ++ List.replicate (t - s.length).toNat d), _, ?_, String.toList_ofList, ?_⟩
  · simp only [padendMod, hv, hp, hq, padStr, hch, strTimes_single, Except.bind_ok_eq, String.length_toList]; rfl
  · simp [← String.length_toList]; omega

/-- **C11**: `padstart`. -/
theorem padstart_spec {s ch : String} {d : Char} {t : Int} (hv : c.val = .str s) (hch : ch.toList = [d])
    (hp : p h c = .ok (.str ch)) (hq : q h c = .ok (.int t)) :
    ∃ (r : String) (k : Nat), (padstartMod p q).transform h c = .ok (.str r) ∧
      r.toList = List.replicate k d ++ s.toList ∧ (r.length : Int) = max t s.length := by
  refine ⟨String.ofList (List.replicate (t - s.length).toNat d ++ s.toList), _, ?_, String.toList_ofList, ?_⟩
  · simp only [padstartMod, hv, hp, hq, padStr, hch, strTimes_single, Except.bind_ok_eq, String.length_toList]; rfl
  · simp [← String.length_toList]; omega

/-- **C11**: a string at least as long as the target is unchanged, for any pad string. -/
theorem pad_long {s ch : String} {t : Int} (hv : c.val = .str s)
    (hp : p h c = .ok (.str ch)) (hq : q h c = .ok (.int t)) (hl : t ≤ s.length) :
    (padendMod p q).transform h c = .ok (.str s) ∧ (padstartMod p q).transform h c = .ok (.str s) := by
  have e : (t - (s.toList.length : Nat)).toNat = 0 := by rw [String.length_toList]; omega
  constructor
  · simp only [padendMod, hp, hq, hv, padStr, strTimes, e, Except.bind_ok_eq]; simp [pure, Except.pure]
  · simp only [padstartMod, hp, hq, hv, padStr, strTimes, e, Except.bind_ok_eq]; simp [pure, Except.pure]

/-- The code points of white space (Unicode `White_Space` and the separators U+001C to U+001F). -/
def whiteSpace : List Nat :=
  [0x09, 0x0a, 0x0b, 0x0c, 0x0d, 0x1c, 0x1d, 0x1e, 0x1f, 0x20, 0x85, 0xa0, 0x1680, 0x2000, 0x2001, 0x2002, 0x2003, 0x2004, 0x2005, 0x2006, 0x2007,
   0x2008, 0x2009, 0x200a, 0x2028, 0x2029, 0x202f, 0x205f, 0x3000]

/-- the characters that count as white space -/
theorem isSpace_iff (c : Char) : isSpace c = true ↔ c.toNat ∈ whiteSpace := by
  unfold isSpace whiteSpace
  simp only [Bool.or_eq_true, Bool.and_eq_true, decide_eq_true_eq, beq_iff_eq, List.mem_cons, List.not_mem_nil, or_false]
  omega

/-- What trimming means: `r` is `s` without white space at either end. -/
def Trimmed (s r : List Char) : Prop :=
  (∃ a b, s = a ++ r ++ b ∧ (∀ x ∈ a, isSpace x = true) ∧ (∀ x ∈ b, isSpace x = true)) ∧
  (∀ x, r.head? = some x → isSpace x = false) ∧ (∀ x, r.getLast? = some x → isSpace x = false)

theorem dropWhile_split (f : Char → Bool) (s : List Char) :
    ∃ a, s = a ++ s.dropWhile f ∧ (∀ x ∈ a, f x = true) ∧ (∀ x, (s.dropWhile f).head? = some x → f x = false) := by
  induction s with
  | nil => exact ⟨[], by simp⟩
  | cons d s ih =>
    by_cases hd : f d = true
    · obtain ⟨a, h1, h2, h3⟩ := ih
      refine ⟨d :: a, ?_, ?_, ?_⟩
      · simp only [List.dropWhile_cons, hd, if_true, List.cons_append]; rw [← h1]
      · intro x hx
        rcases List.mem_cons.1 hx with rfl | hx
        · exact hd
        · exact h2 x hx
      · simpa only [List.dropWhile_cons, hd, if_true] using h3
    · refine ⟨[], by simp [hd], by simp, ?_⟩
      intro x hx
      simp [hd] at hx
      subst hx; simpa using hd

theorem strip_trimmed (s : List Char) : Trimmed s (strip s) := by
  obtain ⟨a, h1, h2, h3⟩ := dropWhile_split isSpace s
  obtain ⟨b, g1, g2, g3⟩ := dropWhile_split isSpace (s.dropWhile isSpace).reverse
  have e : s.dropWhile isSpace = strip s ++ b.reverse := by
    have := congrArg List.reverse g1
    simpa [strip] using this
  refine ⟨⟨a, b.reverse, ?_, h2, ?_⟩, ?_, ?_⟩
  · rw [List.append_assoc, ← e]; exact h1
  · intro x hx; exact g2 x (List.mem_reverse.1 hx)
  · intro x hx
    apply h3
    rw [e, List.head?_append, hx]; rfl
  · intro x hx
    apply g3
    rw [strip, List.getLast?_reverse] at hx; exact hx

theorem dropWhile_id {f : Char → Bool} {s : List Char} (hs : ∀ x, s.head? = some x → f x = false) :
    s.dropWhile f = s := by
  cases s with
  | nil => rfl
  | cons d s => have := hs d rfl; simp [this]

theorem dropWhile_append_all {f : Char → Bool} {a s : List Char} (ha : ∀ x ∈ a, f x = true) :
    (a ++ s).dropWhile f = s.dropWhile f := by
  induction a with
  | nil => rfl
  | cons d a ih =>
    simp only [List.cons_append, List.dropWhile_cons, ha d (by simp), if_true]
    exact ih fun x hx => ha x (by simp [hx])

/-- The specification has one solution when anything is left. -/
theorem Trimmed.unique {s r : List Char} (hr : Trimmed s r) (hne : r ≠ []) : strip s = r := by
  obtain ⟨⟨a, b, rfl, ha, hb⟩, h1, h2⟩ := hr
  unfold strip
  rw [List.append_assoc, dropWhile_append_all ha, dropWhile_id (s := r ++ b)]
  · rw [List.reverse_append, dropWhile_append_all (by simpa using hb), dropWhile_id]
    · simp
    · intro x hx; exact h2 x (by rwa [List.head?_reverse] at hx)
  · intro x hx
    cases r with
    | nil => exact absurd rfl hne
    | cons d r => exact h1 x (by simpa using hx)

/-- **C11**: `trim` removes exactly the leading and trailing white space. -/
theorem trim_spec {s : String} (hv : c.val = .str s) :
    ∃ r : String, trimMod.transform h c = .ok (.str r) ∧ Trimmed s.toList r.toList :=
  ⟨String.ofList (strip s.toList), by simp [trimMod, hv], by rw [String.toList_ofList]; exact strip_trimmed _⟩

/-- **C11**: trimming twice is trimming once. -/
theorem trim_idem {v : Val} (hv : trimMod.transform h c = .ok v) : trimMod.transform h (c.nval v) = .ok v := by
  have key : ∀ s, strip (strip s) = strip s := by
    intro s
    obtain ⟨_, h2, h3⟩ := strip_trimmed s
    by_cases hne : strip s = []
    · rw [hne]; rfl
    · exact Trimmed.unique ⟨⟨[], [], by simp, by simp, by simp⟩, h2, h3⟩ hne
  cases hc : c.val <;> simp [trimMod, hc] at hv <;> subst hv <;> simp [trimMod, Ctx.nval, key]

/-- **C11** (and C10): reversing twice gives the value back. -/
theorem reverse_reverse {v : Val} (hv : reverseMod.transform h c = .ok v) :
    reverseMod.transform h (c.nval v) = .ok c.val := by
  cases hc : c.val <;> simp [reverseMod, hc] at hv <;> subst hv <;> simp [reverseMod, Ctx.nval]

/-- reversing really reverses: character `i` goes to place `n - 1 - i` -/
theorem reverse_spec {s : String} (hv : c.val = .str s) :
    ∃ r : String, reverseMod.transform h c = .ok (.str r) ∧ r.length = s.length ∧
      ∀ i, i < s.length → r.toList[i]? = s.toList[s.length - 1 - i]? := by
  refine ⟨String.ofList s.toList.reverse, by simp [reverseMod, hv], by simp [← String.length_toList], ?_⟩
  intro i hi
  rw [String.toList_ofList, List.getElem?_reverse (by rwa [String.length_toList]), String.length_toList]

/-- reversing a list: item `i` goes to place `n - 1 - i` -/
theorem reverse_list_spec {xs : List Val} (hv : c.val = .list xs) :
    ∃ r : List Val, reverseMod.transform h c = .ok (.list r) ∧ r.length = xs.length ∧
      ∀ i, i < xs.length → r[i]? = xs[xs.length - 1 - i]? := by
  refine ⟨xs.reverse, by simp [reverseMod, hv], by simp, ?_⟩
  intro i hi
  rw [List.getElem?_reverse hi]

example : reverseMod.transform (fun _ => {}) { val := .list [.int 1, .str "b", .none] } =
    .ok (.list [.none, .str "b", .int 1]) := rfl

example : ∃ r : String, trimMod.transform (fun _ => {}) { val := .str "  a b\n" } = .ok (.str r) ∧
    Trimmed "  a b\n".toList r.toList := trim_spec rfl
example : trimMod.transform (fun _ => {}) { val := .str "  a b\n" } = .ok (.str "a b") := rfl
example : (padendMod (.const (.str "-")) (.const (.int 4))).transform (fun _ => {}) { val := .str "ab" } =
    .ok (.str "ab--") := rfl

/-! ### C12 -/

theorem splitGo_ne_nil (sep : List Char) (k : Nat) (s : List Char) : splitGo sep k s ≠ [] := by
  induction s generalizing k with
  | nil => simp [splitGo]
  | cons d s ih =>
    cases k with
    | succ k => simpa [splitGo] using ih k
    | zero =>
      unfold splitGo
      split
      · simp
      · split <;> simp

theorem joinL_cons_head (sep : List Char) (d : Char) (w : List Char) (ws : List (List Char)) :
    joinL sep ((d :: w) :: ws) = d :: joinL sep (w :: ws) := by cases ws <;> simp [joinL]

theorem joinL_cons_ne {sep w : List Char} {ws : List (List Char)} (hne : ws ≠ []) :
    joinL sep (w :: ws) = w ++ sep ++ joinL sep ws := by cases ws <;> simp_all [joinL]

theorem join_splitGo {sep : List Char} (hsep : sep ≠ []) (k : Nat) (s : List Char) :
    joinL sep (splitGo sep k s) = s.drop k := by
  induction s generalizing k with
  | nil => simp [splitGo, joinL]
  | cons d s ih =>
    cases k with
    | succ k => simpa [splitGo] using ih k
    | zero =>
      unfold splitGo
      split
      · rename_i hp
        rw [joinL_cons_ne (splitGo_ne_nil _ _ _), ih]
        obtain ⟨e, he⟩ := List.isPrefixOf_iff_prefix.1 hp
        cases sep with
        | nil => exact absurd rfl hsep
        | cons x sep =>
          simp only [List.cons_append, List.cons.injEq] at he
          obtain ⟨rfl, rfl⟩ := he
          simp
      · split
        · rename_i w ws hw
          rw [joinL_cons_head, ← hw, ih]; simp
        · rename_i hw; exact absurd hw (splitGo_ne_nil _ _ _)

theorem splitGo_skip (sep a s : List Char) : splitGo sep a.length (a ++ s) = splitGo sep 0 s := by
  induction a with
  | nil => rfl
  | cons d a ih => simpa [splitGo] using ih

/-- `part` can be told apart from a following separator: the separator does not occur in
`part` followed by all but the last character of the separator. -/
def Separable (sep part : List Char) : Prop := ¬ sep <:+: part ++ sep.dropLast

theorem splitGo_part {sep w s : List Char} (hsep : sep ≠ []) (hw : Separable sep w) :
    splitGo sep 0 (w ++ (sep ++ s)) = w :: splitGo sep 0 s := by
  induction w with
  | nil =>
    cases sep with
    | nil => exact absurd rfl hsep
    | cons x sep =>
      simp only [List.nil_append, List.cons_append]
      rw [splitGo, if_pos (List.isPrefixOf_iff_prefix.2 ⟨s, by simp⟩)]
      simp only [List.length_cons, Nat.add_sub_cancel, splitGo_skip]
  | cons d w ih =>
    have hnp : ¬ sep <+: d :: (w ++ (sep ++ s)) := by
      intro hp
      apply hw
      apply List.IsPrefix.isInfix
      have h2 : (d :: w) ++ sep.dropLast <+: d :: (w ++ (sep ++ s)) := by
        obtain ⟨t, ht⟩ := List.dropLast_prefix sep
        exact ⟨t ++ s, by
          have : sep ++ s = sep.dropLast ++ (t ++ s) := by rw [← List.append_assoc, ht]
          rw [this]; simp⟩
      refine List.prefix_of_prefix_length_le hp h2 ?_
      simp; omega
    have hw' : Separable sep w := by
      intro hi; apply hw
      exact hi.trans ⟨[d], [], by simp⟩
    simp only [List.cons_append]
    rw [splitGo, if_neg (by rwa [List.isPrefixOf_iff_prefix]), ih hw']

theorem splitGo_last {sep w : List Char} (hw : ¬ sep <:+: w) : splitGo sep 0 w = [w] := by
  induction w with
  | nil => rfl
  | cons d w ih =>
    have hnp : ¬ sep <+: d :: w := fun hp => hw hp.isInfix
    rw [splitGo, if_neg (by rwa [List.isPrefixOf_iff_prefix]), ih]
    intro hi; exact hw (hi.trans ⟨[d], [], by simp⟩)

theorem Separable.not_infix {sep w : List Char} (hw : Separable sep w) : ¬ sep <:+: w := by
  intro hi; exact hw (hi.trans ⟨[], sep.dropLast, by simp⟩)

theorem split_joinL {sep : List Char} (hsep : sep ≠ []) {ws : List (List Char)} (hne : ws ≠ [])
    (hw : ∀ w ∈ ws, Separable sep w) : splitGo sep 0 (joinL sep ws) = ws := by
  induction ws with
  | nil => exact absurd rfl hne
  | cons w ws ih =>
    cases ws with
    | nil => exact splitGo_last (hw w (by simp)).not_infix
    | cons x ws =>
      rw [joinL_cons_ne (by simp), List.append_assoc, splitGo_part hsep (hw w (by simp)),
        ih (by simp) fun y hy => hw y (by simp [hy])]

theorem strItems_strs (ws : List (List Char)) : strItems (ws.map (fun w => .str (String.ofList w))) = .ok ws := by
  induction ws with
  | nil => rfl
  | cons w ws ih => simp [strItems, ih, pure, Except.pure]

/-- **C12**: splitting by any non-empty separator and joining with it gives the string
back. -/
theorem join_split {s t : String} (hv : c.val = .str s) (ht : t ≠ "") (hp : ∀ u, p h (c.nval u) = .ok (.str t)) :
    ∃ xs, (splitMod p).transform h c = .ok (.list xs) ∧
      (joinMod p).transform h (c.nval (.list xs)) = .ok (.str s) := by
  have ht' : t.toList ≠ [] := fun e => ht (by simpa using congrArg String.ofList e)
  have e0 : p h c = .ok (.str t) := hp c.val
  refine ⟨(splitGo t.toList 0 s.toList).map (fun w => .str (String.ofList w)), ?_, ?_⟩
  · simp only [splitMod, hv, e0, Except.bind_ok_eq]
    simp [ht']
  · have e1 := hp (.list ((splitGo t.toList 0 s.toList).map (fun w => .str (String.ofList w))))
    simp only [Ctx.nval] at e1 ⊢
    simp only [joinMod, e1, Except.bind_ok_eq, strItems_strs, join_splitGo ht']
    simp [pure, Except.pure]

/-- **C12**: joining a non-empty list of parts with a separator and splitting again gives
the parts back, if each part is separable. -/
theorem split_join {ws : List String} {t : String} (hv : c.val = .list (ws.map .str)) (hne : ws ≠ [])
    (ht : t ≠ "") (hws : ∀ w ∈ ws, Separable t.toList w.toList) (hp : ∀ u, p h (c.nval u) = .ok (.str t)) :
    ∃ s, (joinMod p).transform h c = .ok (.str s) ∧
      (splitMod p).transform h (c.nval (.str s)) = .ok (.list (ws.map .str)) := by
  have ht' : t.toList ≠ [] := fun e => ht (by simpa using congrArg String.ofList e)
  have e0 : p h c = .ok (.str t) := hp c.val
  have hi : strItems (ws.map .str) = .ok (ws.map String.toList) := by
    have := strItems_strs (ws.map String.toList)
    simpa [List.map_map, Function.comp_def] using this
  refine ⟨String.ofList (joinL t.toList (ws.map String.toList)), ?_, ?_⟩
  · simp only [joinMod, hv, e0, Except.bind_ok_eq, hi]; rfl
  · have e1 := hp (.str (String.ofList (joinL t.toList (ws.map String.toList))))
    simp only [Ctx.nval] at e1 ⊢
    simp only [splitMod, e1, Except.bind_ok_eq, String.toList_ofList]
    rw [split_joinL ht' (by simpa using hne) (by simpa using hws)]
    simp [ht', Function.comp_def]

/-- Parts without the first character of the separator are separable; for a separator of
one character that means: parts without the separator. -/
theorem separable_of_first {d : Char} {sep w : List Char} (hw : d ∉ w) (hs : d ∉ sep) : Separable (d :: sep) w := by
  intro hi
  obtain ⟨a, b, e⟩ := hi
  have h1 : d ∈ w ++ (d :: sep).dropLast := by rw [← e]; simp
  cases sep with
  | nil => simp at h1; exact hw h1
  | cons x sep =>
    -- `d` occurs once only, followed by fewer characters than the separator has
    have hl : (w ++ (d :: x :: sep).dropLast) = w ++ d :: (x :: sep).dropLast := by simp
    rw [hl] at e
    have key : ∀ (a : List Char) (w : List Char), d ∉ w → a ++ (d :: x :: sep) ++ b = w ++ d :: (x :: sep).dropLast →
        d ∉ (x :: sep).dropLast → False := by
      intro a
      induction a with
      | nil =>
        intro w hw e hd
        cases w with
        | nil =>
          have := congrArg List.length e
          simp at this; omega
        | cons y w => simp at e; exact hw (by simp [e.1])
      | cons y a ih =>
        intro w hw e hd
        cases w with
        | nil =>
          simp only [List.cons_append, List.nil_append, List.cons.injEq] at e
          apply hd
          rw [← e.2]; simp
        | cons z w =>
          simp only [List.cons_append, List.cons.injEq] at e
          exact ih w (fun hm => hw (by simp [hm])) (by simpa using e.2) hd
    exact key a w hw e fun hm => hs (List.dropLast_subset _ hm)

theorem separable_char {d : Char} {w : List Char} : Separable [d] w ↔ d ∉ w := by
  constructor
  · intro hs hm
    apply hs
    obtain ⟨a, b, rfl⟩ := List.append_of_mem hm
    exact ⟨a, b, by simp⟩
  · intro hm; exact separable_of_first hm (by simp)

/-- The condition cannot be weakened to "no part contains the separator": with separator
`aa`, the parts `a` and the empty string come back as the empty string and `a`. -/
theorem split_join_needs_separable :
    ∃ (ws : List String) (t : String), t ≠ "" ∧ (∀ w ∈ ws, ¬ t.toList <:+: w.toList) ∧
      ∃ s, (joinMod (.const (.str t))).transform (fun _ => {}) { val := .list (ws.map .str) } = .ok (.str s) ∧
        (splitMod (.const (.str t))).transform (fun _ => {}) { val := .str s } = .ok (.list [.str "", .str "a"]) ∧
        ws = ["a", ""] :=
  ⟨["a", ""], "aa", by decide, by
    intro w hw
    simp only [List.mem_cons, List.not_mem_nil, or_false] at hw
    rcases hw with rfl | rfl <;> intro hi <;> have := hi.length_le <;> simp at this,
    "aaa", rfl, rfl, rfl⟩

example : ∃ xs, (splitMod (.const (.str ", "))).transform (fun _ => {}) { val := .str "a, b, , c," } = .ok (.list xs) ∧
    (joinMod (.const (.str ", "))).transform (fun _ => {}) { val := .list xs } = .ok (.str "a, b, , c,") :=
  join_split (c := { val := .str "a, b, , c," }) rfl (by decide) (fun _ => rfl)
example : ∃ s, (joinMod (.const (.str "-"))).transform (fun _ => {}) { val := .list [.str "ab", .str "", .str "c"] } =
      .ok (.str s) ∧
    (splitMod (.const (.str "-"))).transform (fun _ => {}) { val := .str s } =
      .ok (.list [.str "ab", .str "", .str "c"]) :=
  split_join (ws := ["ab", "", "c"]) (c := { val := .list [.str "ab", .str "", .str "c"] }) rfl (by simp) (by decide)
    (by
      intro w hw
      have : "-".toList = ['-'] := rfl
      rw [this, separable_char]
      simp only [List.mem_cons, List.not_mem_nil, or_false] at hw
      rcases hw with rfl | rfl | rfl <;> decide) (fun _ => rfl)

end JC
