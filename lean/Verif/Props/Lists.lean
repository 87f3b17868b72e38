import Verif.Model.Strings
import Verif.Props.Strings

/-
C13 (prefixes and suffixes), C49 (list and text transforms), C50 (presence, equality and
choice).
-/
namespace JC

variable {h : Heap} {c : Ctx} {p q : Param}

/-! ### C13 -/

/-- The first list begins with something `==` to the second. -/
def ListStarts (xs pre : List Val) : Prop := ∃ zs rest, xs = zs ++ rest ∧ pyEq (.list zs) (.list pre) = true
/-- The first list ends with something `==` to the second. -/
def ListEnds (xs suf : List Val) : Prop := ∃ rest zs, xs = rest ++ zs ∧ pyEq (.list zs) (.list suf) = true

theorem pyEqList_length : ∀ {xs ys : List Val}, pyEqList xs ys = true → xs.length = ys.length
  | [], [], _ => rfl
  | [], _ :: _, e => by simp [pyEqList] at e
  | _ :: _, [], e => by simp [pyEqList] at e
  | x :: xs, y :: ys, e => by
    simp only [pyEqList, Bool.and_eq_true] at e
    simp [pyEqList_length e.2]

theorem pyEq_list (xs ys : List Val) : pyEq (.list xs) (.list ys) = pyEqList xs ys := by simp [pyEq]

theorem listStarts_iff (xs pre : List Val) : ListStarts xs pre ↔ pyEq (.list (xs.take pre.length)) (.list pre) = true := by
  constructor
  · rintro ⟨zs, rest, rfl, e⟩
    have := pyEqList_length (by rwa [pyEq_list] at e)
    rw [← this, List.take_left]; exact e
  · intro e
    exact ⟨_, _, (List.take_append_drop pre.length xs).symm, e⟩

theorem listEnds_iff (xs suf : List Val) :
    ListEnds xs suf ↔ pyEq (.list (xs.drop (xs.length - suf.length))) (.list suf) = true := by
  constructor
  · rintro ⟨rest, zs, rfl, e⟩
    have := pyEqList_length (by rwa [pyEq_list] at e)
    have h2 : (rest ++ zs).length - suf.length = rest.length := by simp; omega
    rw [h2, List.drop_left]; exact e
  · intro e
    exact ⟨_, _, (List.take_append_drop (xs.length - suf.length) xs).symm, e⟩

/-- **C13**: on strings. -/
theorem hasprefix_str {s t : String} (hv : c.val = .str s) (hp : p h c = .ok (.str t)) :
    Decides (hasprefixMod p) h c (t.toList <+: s.toList) := by
  apply Decides.of_reject (b := !(t.toList.isPrefixOf s.toList)) (msg := "prefix is not found")
  · simp [hasprefixMod, hv, hp]
  · rw [Bool.not_eq_true', ← List.isPrefixOf_iff_prefix, Bool.not_eq_true]
theorem hassuffix_str {s t : String} (hv : c.val = .str s) (hp : p h c = .ok (.str t)) :
    Decides (hassuffixMod p) h c (t.toList <:+ s.toList) := by
  apply Decides.of_reject (b := !(t.toList.isSuffixOf s.toList)) (msg := "suffix is not found")
  · simp [hassuffixMod, hv, hp]
  · rw [Bool.not_eq_true', ← List.isSuffixOf_iff_suffix, Bool.not_eq_true]
theorem isprefixof_str {s t : String} (hv : c.val = .str s) (hp : p h c = .ok (.str t)) :
    Decides (isprefixofMod p) h c (s.toList <+: t.toList) := by
  apply Decides.of_reject (b := !(s.toList.isPrefixOf t.toList)) (msg := "prefix is not found")
  · simp [isprefixofMod, hv, hp]
  · rw [Bool.not_eq_true', ← List.isPrefixOf_iff_prefix, Bool.not_eq_true]
theorem issuffixof_str {s t : String} (hv : c.val = .str s) (hp : p h c = .ok (.str t)) :
    Decides (issuffixofMod p) h c (s.toList <:+ t.toList) := by
  apply Decides.of_reject (b := !(s.toList.isSuffixOf t.toList)) (msg := "suffix is not found")
  · simp [issuffixofMod, hv, hp]
  · rw [Bool.not_eq_true', ← List.isSuffixOf_iff_suffix, Bool.not_eq_true]

/-- **C13**: `isprefixof` on lists. -/
theorem isprefixof_list {xs ys : List Val} (hv : c.val = .list xs) (hp : p h c = .ok (.list ys)) :
    Decides (isprefixofMod p) h c (ListStarts ys xs) := by
  apply Decides.of_reject (b := !(pyEq (.list (ys.take xs.length)) (.list xs))) (msg := "prefix is not found")
  · have e : ¬ (xs.length : Int) < 0 := by omega
    have e2 : ys.take (min xs.length ys.length) = ys.take xs.length := by
      by_cases hl : xs.length ≤ ys.length
      · rw [Nat.min_eq_left hl]
      · rw [Nat.min_eq_right (by omega), List.take_of_length_le (Nat.le_refl _), List.take_of_length_le (by omega)]
    simp [isprefixofMod, hv, hp, sliceEq, sliceTo, sliceIx, e, e2, pure, Except.pure, bind, Except.bind]
  · rw [listStarts_iff]; simp

/-- **C13** for suffixes of lists, except for the empty suffix. -/
theorem hassuffix_list_partial {xs ys : List Val} (hv : c.val = .list xs) (hp : p h c = .ok (.list ys)) (hne : ys ≠ []) :
    Decides (hassuffixMod p) h c (ListEnds xs ys) := by
  apply Decides.of_reject (b := !(pyEq (.list (xs.drop (xs.length - ys.length))) (.list ys))) (msg := "suffix is not found")
  · have hl : 0 < ys.length := List.length_pos_iff.2 hne
    have e : (-(ys.length : Int)) < 0 := by omega
    have e2 : ((xs.length : Int) + -(ys.length : Int)).toNat = xs.length - ys.length := by omega
    simp only [hassuffixMod, hv, hp, Except.bind_ok_eq, pyLen, sliceFrom, sliceIx, if_pos e, e2, pure, Except.pure]
  · rw [listEnds_iff]; simp
theorem issuffixof_list_partial {xs ys : List Val} (hv : c.val = .list xs) (hp : p h c = .ok (.list ys)) (hne : xs ≠ []) :
    Decides (issuffixofMod p) h c (ListEnds ys xs) := by
  apply Decides.of_reject (b := !(pyEq (.list (ys.drop (ys.length - xs.length))) (.list xs))) (msg := "suffix is not found")
  · have hl : 0 < xs.length := List.length_pos_iff.2 hne
    have e : (-(xs.length : Int)) < 0 := by omega
    have e2 : ((ys.length : Int) + -(xs.length : Int)).toNat = ys.length - xs.length := by omega
    simp only [issuffixofMod, hv, hp, Except.bind_ok_eq, sliceEq, sliceFrom, sliceIx, if_pos e, e2, pure, Except.pure]
  · rw [listEnds_iff]; simp

/-- A list is never a prefix or a suffix of a text. -/
theorem affixof_str_list {xs : List Val} {t : String} (hv : c.val = .list xs) (hp : p h c = .ok (.str t)) :
    Decides (isprefixofMod p) h c False ∧ Decides (issuffixofMod p) h c False := by
  refine ⟨Decides.of_reject (b := true) (msg := "prefix is not found") ?_ (by simp), Decides.of_reject (b := true) (msg := "suffix is not found") ?_ (by simp)⟩
  · simp only [isprefixofMod, hv, hp, Except.bind_ok_eq, sliceEq, sliceTo, sliceIx, pure, Except.pure]
    rfl
  · simp only [issuffixofMod, hv, hp, Except.bind_ok_eq, sliceEq, sliceFrom, sliceIx, pure, Except.pure]
    rfl

/-- What `hasprefix` decides on lists: equality with the prefix. -/
theorem hasprefix_list_partial {xs ys : List Val} (hv : c.val = .list xs) (hp : p h c = .ok (.list ys)) :
    Decides (hasprefixMod p) h c (pyEq (.list xs) (.list ys) = true) := by
  apply Decides.of_reject (b := !(pyEq (.list xs) (.list ys))) (msg := "prefix is not found")
  · simp [hasprefixMod, hv, hp]
  · simp

/-- **C13** for lists in full. -/
def ListPrefixSuffixCorrect : Prop := ∀ (h : Heap) (c : Ctx) (p : Param) (xs ys : List Val),
  c.val = .list xs → p h c = .ok (.list ys) →
    Decides (hasprefixMod p) h c (ListStarts xs ys) ∧ Decides (hassuffixMod p) h c (ListEnds xs ys) ∧
    Decides (isprefixofMod p) h c (ListStarts ys xs) ∧ Decides (issuffixofMod p) h c (ListEnds ys xs)

/-- **C13** violated: `[1, 2]` has the prefix `[1]` but is rejected. -/
theorem hasprefix_list_wrong :
    ListStarts [.int 1, .int 2] [.int 1] ∧
    (hasprefixMod (.const (.list [.int 1]))).validate (fun _ => {}) { val := .list [.int 1, .int 2] } ≠ .ok () :=
  ⟨⟨[.int 1], [.int 2], rfl, rfl⟩, fun e => by
    have : (hasprefixMod (.const (.list [.int 1]))).validate (fun _ => {}) { val := .list [.int 1, .int 2] } =
      .error (.validation [("", "prefix is not found")]) := rfl
    rw [this] at e; cases e⟩
/-- **C13** violated: the empty list is a suffix of `[1]` but is rejected, both ways. -/
theorem suffix_list_empty_wrong :
    ListEnds [.int 1] [] ∧
    (hassuffixMod (.const (.list []))).validate (fun _ => {}) { val := .list [.int 1] } ≠ .ok () ∧
    (issuffixofMod (.const (.list [.int 1]))).validate (fun _ => {}) { val := .list [] } ≠ .ok () :=
  ⟨⟨[.int 1], [], rfl, rfl⟩, (fun e => by
    have : (hassuffixMod (.const (.list []))).validate (fun _ => {}) { val := .list [.int 1] } =
      .error (.validation [("", "suffix is not found")]) := rfl
    rw [this] at e; cases e), (fun e => by
    have : (issuffixofMod (.const (.list [.int 1]))).validate (fun _ => {}) { val := .list [] } =
      .error (.validation [("", "suffix is not found")]) := rfl
    rw [this] at e; cases e)⟩
theorem listPrefixSuffix_false : ¬ ListPrefixSuffixCorrect := by
  intro hc
  have := (hc (fun _ => {}) { val := .list [.int 1, .int 2] } (.const (.list [.int 1])) _ _ rfl rfl).1.1 hasprefix_list_wrong.1
  exact hasprefix_list_wrong.2 this

example : (hassuffixMod (.const (.list [.int 2]))).validate (fun _ => {}) { val := .list [.int 1, .flt (.fin 2)] } = .ok () :=
  (hassuffix_list_partial rfl rfl (by simp)).1 ⟨[.int 1], [.flt (.fin 2)], rfl, by
    simp only [pyEqList, pyEq, Bool.and_true]; decide⟩
example : (hasprefixMod (.const (.str "un"))).validate (fun _ => {}) { val := .str "until" } = .ok () :=
  (hasprefix_str rfl rfl).1 ⟨"til".toList, rfl⟩

/-! ### C49 -/

/-- **C49**: `append` / `prepend` on lists. -/
theorem append_list {f : Val → String} {xs : List Val} {v : Val} (hv : c.val = .list xs) (hp : p h c = .ok v) :
    (appendMod f p).transform h c = .ok (.list (xs ++ [v])) ∧ (prependMod p).transform h c = .ok (.list (v :: xs)) := by
  simp [appendMod, prependMod, hv, hp, pure, Except.pure]
/-- **C49**: `append` / `prepend` on strings. -/
theorem append_str {f : Val → String} {s t : String} (hf : f (.str t) = t) (hv : c.val = .str s) (hp : p h c = .ok (.str t)) :
    (appendMod f p).transform h c = .ok (.str (s ++ t)) ∧ (prependMod p).transform h c = .ok (.str (t ++ s)) := by
  simp [appendMod, prependMod, hv, hp, hf, pure, Except.pure]
/-- A finding: `append` turns a non-string item into text, `prepend` raises. -/
theorem prepend_number_raises :
    (prependMod (.const (.int 5))).transform (fun _ => {}) { val := .str "a" } = .error .typeError ∧
    (appendMod (fun _ => "5") (.const (.int 5))).transform (fun _ => {}) { val := .str "a" } = .ok (.str "a5") :=
  ⟨rfl, rfl⟩

/-- Position `i` (of `0..n`) is what the Python index `k` denotes. -/
def PyIndex (n : Nat) (k : Int) (i : Nat) : Prop :=
  (0 ≤ k ∧ i = min k.toNat n) ∨ (k < 0 ∧ i = (n + k).toNat)

/-- **C49**: `insertat` puts the item at the index and keeps the other items in order. -/
theorem insertat_list {f : Val → String} {xs : List Val} {v : Val} {k : Int} (hv : c.val = .list xs)
    (hp : p h c = .ok v) (hq : q h c = .ok (.int k)) :
    ∃ i r, PyIndex xs.length k i ∧ i ≤ xs.length ∧ (insertatMod f p q).transform h c = .ok (.list r) ∧
      r[i]? = some v ∧ r.eraseIdx i = xs := by
  have main : ∀ i, i ≤ xs.length → sliceIx xs.length xs.length (.int k) = .ok i →
      sliceIx xs.length 0 (.int k) = .ok i →
      ∃ r, (insertatMod f p q).transform h c = .ok (.list r) ∧ r[i]? = some v ∧ r.eraseIdx i = xs := by
    intro i hi h1 h2
    refine ⟨xs.take i ++ [v] ++ xs.drop i, ?_, ?_, ?_⟩
    · simp only [insertatMod, hv, hp, hq, Except.bind_ok_eq, sliceTo, sliceFrom, h1, h2, pure, Except.pure]
    · simp [Nat.min_eq_left hi]
    · have hl : (xs.take i).length = i := by simp [Nat.min_eq_left hi]
      rw [List.append_assoc, List.eraseIdx_append_of_length_le (by omega), hl]
      simp
  by_cases hk : k < 0
  · obtain ⟨r, hr⟩ := main (((xs.length : Int) + k).toNat) (by omega) (by simp [sliceIx, hk]) (by simp [sliceIx, hk])
    exact ⟨_, r, .inr ⟨hk, rfl⟩, by omega, hr⟩
  · obtain ⟨r, hr⟩ := main (min k.toNat xs.length) (by omega) (by simp [sliceIx, hk]) (by simp [sliceIx, hk])
    exact ⟨_, r, .inl ⟨by omega, rfl⟩, by omega, hr⟩

/-- **C49**: `insertat` on a text puts the other text at the index. -/
theorem insertat_text {f : Val → String} {s : String} {v : Val} {k : Int} (hv : c.val = .str s)
    (hp : p h c = .ok v) (hq : q h c = .ok (.int k)) :
    ∃ l r, PyIndex s.toList.length k l.length ∧ s.toList = l ++ r ∧
      (insertatMod f p q).transform h c = .ok (.str (String.ofList (l ++ (f v).toList ++ r))) := by
  have main : ∀ i, i ≤ s.toList.length → sliceIx s.toList.length s.toList.length (.int k) = .ok i →
      sliceIx s.toList.length 0 (.int k) = .ok i →
      (insertatMod f p q).transform h c = .ok (.str (String.ofList (s.toList.take i ++ (f v).toList ++ s.toList.drop i))) := by
    intro i hi h1 h2
    simp only [insertatMod, hv, hp, hq, Except.bind_ok_eq, sliceTo, sliceFrom, h1, h2, pure, Except.pure]
  have fin : ∀ i, PyIndex s.toList.length k i → i ≤ s.toList.length → sliceIx s.toList.length s.toList.length (.int k) = .ok i →
      sliceIx s.toList.length 0 (.int k) = .ok i → ∃ l r, PyIndex s.toList.length k l.length ∧ s.toList = l ++ r ∧
      (insertatMod f p q).transform h c = .ok (.str (String.ofList (l ++ (f v).toList ++ r))) :=
    fun i h1 h2 h3 h4 => ⟨s.toList.take i, s.toList.drop i, by rwa [List.length_take, Nat.min_eq_left h2], (List.take_append_drop i _).symm, main i h2 h3 h4⟩
  by_cases hk : k < 0
  · exact fin (((s.toList.length : Int) + k).toNat) (.inr ⟨hk, rfl⟩) (by omega) (by simp only [sliceIx, hk, if_true]) (by simp only [sliceIx, hk, if_true])
  · exact fin (min k.toNat s.toList.length) (.inl ⟨by omega, rfl⟩) (by omega) (by simp only [sliceIx, hk, if_false]) (by simp only [sliceIx, hk, if_false])
example : ∃ l r, PyIndex 4 (-1) l.length ∧ ['a', 'b', 'c', 'd'] = l ++ r ∧ (insertatMod (fun _ => "X") (.const (.int 9)) (.const (.int (-1)))).transform (fun _ => {}) { val := .str "abcd" } = .ok (.str (String.ofList (l ++ ['X'] ++ r))) :=
  insertat_text (f := fun _ => "X") (s := "abcd") (v := .int 9) rfl rfl rfl

/-- **C49**: `len` of a string or list. -/
theorem len_spec {n : Nat} (hn : HasLen c.val n) : lenMod.transform h c = .ok (.int n) := by
  simp [lenMod, hn.len?]

/-- **C49**: `tolist` of a string gives its characters; joined they are the string. -/
theorem tolist_join {s : String} (hv : c.val = .str s) :
    ∃ xs, tolistMod.transform h c = .ok (.list xs) ∧ xs.length = s.length ∧
      (joinMod (.const (.str ""))).transform h (c.nval (.list xs)) = .ok (.str s) := by
  refine ⟨s.toList.map (fun ch => .str (String.ofList [ch])), by simp [tolistMod, hv], by simp [String.length_toList], ?_⟩
  have e : strItems (s.toList.map (fun ch => .str (String.ofList [ch]))) = .ok (s.toList.map (fun ch => [ch])) := by
    have := strItems_strs (s.toList.map (fun ch => [ch]))
    simpa [List.map_map, Function.comp_def] using this
  have e2 : ∀ l : List Char, joinL [] (l.map (fun ch => [ch])) = l := by
    intro l
    induction l with
    | nil => rfl
    | cons d l ih => cases l <;> simp_all [joinL]
  have e0 : (JC.Param.const (.str "")) h (c.nval (.list (s.toList.map (fun ch => .str (String.ofList [ch]))))) =
    .ok (.str "") := rfl
  simp only [joinMod, Ctx.nval] at e0 ⊢
  simp only [e0, e, Except.bind_ok_eq]
  have e3 : "".toList = [] := rfl
  simp [e3, e2, pure, Except.pure]

theorem mapE_spec (f : Val → Except Exc Val) (xs : List Val) (r : List Val) (hr : mapE f xs = .ok r) :
    r.length = xs.length ∧ ∀ (i : Nat) x, xs[i]? = some x → ∃ y, r[i]? = some y ∧ f x = .ok y := by
  induction xs generalizing r with
  | nil => cases hr; simp
  | cons x xs ih =>
    simp only [mapE] at hr
    cases hx : f x with
    | error e => simp [hx] at hr
    | ok y =>
      cases hxs : mapE f xs with
      | error e => rw [hx, hxs] at hr; cases hr
      | ok ys =>
        simp [hx, hxs, pure, Except.pure] at hr
        subst hr
        obtain ⟨h1, h2⟩ := ih ys hxs
        refine ⟨by simp [h1], ?_⟩
        intro i x' hi
        cases i with
        | zero => simp at hi; subst hi; exact ⟨y, rfl, hx⟩
        | succ i => simpa using h2 i x' (by simpa using hi)

/-- **C49**: `map` keeps the length and applies the callback at every position; a callback
that raises makes it raise. -/
theorem map_spec {cb : Heap → Ctx → Except Exc Val} {xs : List Val} (hv : c.val = .list xs) {v : Val}
    (hr : (mapMod cb).transform h c = .ok v) :
    ∃ r, v = .list r ∧ r.length = xs.length ∧
      ∀ (i : Nat) x, xs[i]? = some x → ∃ y, r[i]? = some y ∧ cb h { c with val := x } = .ok y := by
  simp only [mapMod, hv] at hr
  cases hm : mapE (fun v => cb h (c.nval v)) xs with
  | error e => rw [hm] at hr; cases hr
  | ok r =>
    simp [hm, pure, Except.pure] at hr
    exact ⟨r, hr.symm, mapE_spec _ _ _ hm⟩

theorem filterE_spec {keep : Val → Except Exc Bool} {f : Val → Bool} {xs : List Val}
    (hk : ∀ x ∈ xs, keep x = .ok (f x)) : filterE keep xs = .ok (xs.filter f) := by
  induction xs with
  | nil => rfl
  | cons x xs ih =>
    simp only [filterE, hk x (by simp), ih fun y hy => hk y (by simp [hy]), Except.bind_ok_eq, pure, Except.pure,
      List.filter_cons]

/-- **C49**: `filter` with a callable keeps, in order, exactly the items for which it
returns None or True. -/
theorem filterCall_spec {cb : Val → Except Exc Val} {g : Val → Val} {xs : List Val} (hv : c.val = .list xs)
    (hg : ∀ x ∈ xs, cb x = .ok (g x)) :
    ∃ r, (filterCallMod cb).transform h c = .ok (.list r) ∧ r.Sublist xs ∧
      ∀ x, x ∈ r ↔ x ∈ xs ∧ (g x = .none ∨ g x = .bool true) := by
  let f : Val → Bool := fun x => match g x with
    | .none => true
    | .bool b => b
    | _ => false
  refine ⟨xs.filter f, ?_, List.filter_sublist, ?_⟩
  · simp only [filterCallMod, hv]
    rw [filterE_spec (f := f)]
    · rfl
    · intro x hx
      simp only [hg x hx, Except.bind_ok_eq]; rfl
  · intro x
    rw [List.mem_filter]
    refine and_congr_right fun _ => ?_
    simp only [f]
    cases g x <;> simp

/-- **C49**: `filter` with a pipeline keeps, in order, exactly the items whose transformed
value validates. -/
theorem filterTypes_spec {tr : Heap → Ctx → Except Exc Val} {va : Heap → Ctx → Except Exc Unit} {g : Val → Val}
    {xs : List Val} (hv : c.val = .list xs) (hg : ∀ x ∈ xs, tr h { c with val := x } = .ok (g x)) :
    ∃ r, (filterTypesMod tr va).transform h c = .ok (.list r) ∧ r.Sublist xs ∧
      ∀ x, x ∈ r ↔ x ∈ xs ∧ va h { c with val := g x } = .ok () := by
  let f : Val → Bool := fun x => match va h (c.nval (g x)) with
    | .ok _ => true
    | .error _ => false
  refine ⟨xs.filter f, ?_, List.filter_sublist, ?_⟩
  · simp only [filterTypesMod, hv]
    rw [filterE_spec (f := f)]
    · rfl
    · intro x hx
      have := hg x hx
      simp only [Ctx.nval, this, Except.bind_ok_eq]; rfl
  · intro x
    rw [List.mem_filter]
    refine and_congr_right fun _ => ?_
    simp only [f, Ctx.nval]
    cases va h { c with val := g x } <;> simp

/-- **C49**: replacing a text by itself changes nothing, and so does replacing a text that
does not occur. -/
theorem replace_self {s o : String} (hv : c.val = .str s) (ho : o ≠ "") (hp : p h c = .ok (.str o))
    (hq : q h c = .ok (.str o)) : (replaceMod p q).transform h c = .ok (.str s) := by
  have ho' : o.toList ≠ [] := fun e => ho (by simpa using congrArg String.ofList e)
  have e : replaceL o.toList o.toList s.toList = s.toList := by
    unfold replaceL
    split
    · rename_i e; exact absurd e ho'
    · rw [join_splitGo ho']; simp
  simp [replaceMod, hv, hp, hq, e]
theorem replace_absent {s o n : String} (hv : c.val = .str s) (ho : ¬ o.toList <:+: s.toList)
    (hp : p h c = .ok (.str o)) (hq : q h c = .ok (.str n)) : (replaceMod p q).transform h c = .ok (.str s) := by
  have ho' : o.toList ≠ [] := fun e => ho (by rw [e]; exact List.nil_infix)
  have e : replaceL o.toList n.toList s.toList = s.toList := by
    unfold replaceL
    split
    · rename_i e; exact absurd e ho'
    · rw [splitGo_last ho]; rfl
  simp [replaceMod, hv, hp, hq, e]

theorem mem_joinL {sep : List Char} {ws : List (List Char)} {d : Char} (hd : d ∈ joinL sep ws) :
    d ∈ sep ∨ ∃ w ∈ ws, d ∈ w := by
  induction ws with
  | nil => simp [joinL] at hd
  | cons w ws ih =>
    cases ws with
    | nil => exact .inr ⟨w, by simp, hd⟩
    | cons x ws =>
      rw [joinL_cons_ne (by simp)] at hd
      simp only [List.mem_append] at hd
      rcases hd with (hd | hd) | hd
      · exact .inr ⟨w, by simp, hd⟩
      · exact .inl hd
      · rcases ih hd with h | ⟨y, hy, h⟩
        · exact .inl h
        · exact .inr ⟨y, by simp [List.mem_cons.1 hy], h⟩

theorem splitGo_char_free {d : Char} (s : List Char) : ∀ w ∈ splitGo [d] 0 s, d ∉ w := by
  induction s with
  | nil => simp [splitGo]
  | cons x s ih =>
    rw [splitGo]
    split
    · intro w hw
      simp only [List.length_cons, List.length_nil, Nat.zero_add, Nat.sub_self, List.mem_cons] at hw
      rcases hw with rfl | hw
      · simp
      · exact ih w hw
    · rename_i hx
      have hx' : d ≠ x := by intro e; subst e; simp at hx
      split
      · rename_i w ws hw
        intro y hy
        rcases List.mem_cons.1 hy with rfl | hy
        · simp only [List.mem_cons, not_or]
          exact ⟨hx', ih w (by rw [hw]; simp)⟩
        · exact ih y (by rw [hw]; simp [hy])
      · simp [hx']

/-- **C49**: after replacing one character by a text without it, it is gone. -/
theorem replace_char_gone {s o n : String} {d : Char} (hv : c.val = .str s) (ho : o.toList = [d]) (hn : d ∉ n.toList)
    (hp : p h c = .ok (.str o)) (hq : q h c = .ok (.str n)) :
    ∃ r : String, (replaceMod p q).transform h c = .ok (.str r) ∧ d ∉ r.toList := by
  refine ⟨String.ofList (replaceL o.toList n.toList s.toList), by simp [replaceMod, hv, hp, hq], ?_⟩
  rw [String.toList_ofList, ho]
  intro hd
  rcases mem_joinL (sep := n.toList) (ws := splitGo [d] 0 s.toList) hd with h | ⟨w, hw, h⟩
  · exact hn h
  · exact splitGo_char_free _ w hw h

example : (replaceMod (.const (.str "ab")) (.const (.str "x"))).transform (fun _ => {}) { val := .str "aabbab" } =
    .ok (.str "axbx") := rfl
example : (insertatMod (fun _ => "") (.const (.int 9)) (.const (.int (-1)))).transform (fun _ => {})
    { val := .list [.int 1, .int 2] } = .ok (.list [.int 1, .int 9, .int 2]) := rfl

/-! ### C50 -/

/-- **C50**: `present` rejects exactly None. -/
theorem present_decides : Decides presentMod h c (c.val ≠ .none) := by
  apply Decides.of_reject (b := c.val.isNone) (msg := "value is not present")
  · rfl
  · simp

/-- **C50**: `required` on an embedded (or temporary, calculated) field rejects exactly
None. -/
theorem required_decides {env : Env} {st : Store} (h1 : st ≠ .localKey) (h2 : st ≠ .foreignKey) :
    Decides (requiredMod env st) h c (c.val ≠ .none) := by
  apply Decides.of_reject (b := c.val.isNone) (msg := "value required")
  · cases st <;> first | rfl | contradiction
  · simp
/-- **C50**: on a field that stores a key locally, `required` is satisfied by the object or
by the key. -/
theorem required_localKey_decides {env : Env} {o : Nat} {k : Key} {ks : List Key} {f : Field}
    (ho : c.holder = some o) (hk : c.keypathh = k :: ks) (hf : (env.cls (h o).cls).field? k.str = some f) :
    Decides (requiredMod env .localKey) h c (c.val ≠ .none ∨ (h o).attrs f.refName ≠ .none) := by
  by_cases hn : c.val = .none
  · apply Decides.of_reject (b := ((h o).attrs f.refName).isNone) (msg := "value required")
    · simp [requiredMod, hn, Val.isNone, ho, hk, hf]
    · simp [hn]
  · have : c.val.isNone = false := by cases hc : c.val <;> simp_all [Val.isNone]
    constructor
    · intro _; simp [requiredMod, this]
    · intro hnot; exact absurd (.inl hn) hnot
/-- A finding: `required` on a foreign key field is never checked. -/
theorem required_foreignKey_vacuous {env : Env} : (requiredMod env .foreignKey).validate h c = .ok () := rfl

/-- **C50**: `eq`, `neq`, `oneof` (Python equality). -/
theorem eq_decides {v : Val} (hp : p h c = .ok v) : Decides (eqMod p) h c (c.val = .none ∨ pyEq c.val v = true) := by
  by_cases hn : c.val = .none
  · exact ⟨fun _ => by simp [eqMod, hn], fun hnot => absurd (.inl hn) hnot⟩
  · apply Decides.of_reject (b := !(pyEq c.val v)) (msg := "value is not equal")
    · cases hc : c.val <;> first | exact absurd hc hn | simp [eqMod, hc, hp]
    · simp [hn]
theorem neq_decides {v : Val} (hp : p h c = .ok v) : Decides (neqMod p) h c (pyEq c.val v = false) := by
  apply Decides.of_reject (b := pyEq c.val v) (msg := "value is not unequal")
  · simp [neqMod, hp]
  · simp
theorem oneof_decides {xs : List Val} (hp : p h c = .ok (.list xs)) :
    Decides (oneofMod p) h c (c.val = .none ∨ ∃ x ∈ xs, pyEq x c.val = true) := by
  by_cases hn : c.val = .none
  · exact ⟨fun _ => by simp [oneofMod, hn], fun hnot => absurd (.inl hn) hnot⟩
  · apply Decides.of_reject (b := !(pyIn c.val xs)) (msg := "value is not in choices")
    · cases hc : c.val <;> first | exact absurd hc hn | simp [oneofMod, hc, hp, pyContains]
    · simp [hn, pyIn]

/-- **C50**: `presentwith(k)` rejects exactly when the value is None and the referred field
is not. -/
theorem presentwith_decides {env : Env} {k : String} {r : Val} (hr : ownerAttr env h c k = .ok r) :
    Decides (presentwithMod env k) h c (c.val ≠ .none ∨ r = .none) := by
  by_cases hn : c.val = .none
  · apply Decides.of_reject (b := !r.isNone) (msg := "value is not present with")
    · simp [presentwithMod, hn, Val.isNone, hr, attrToValue]
    · cases r <;> simp [hn, Val.isNone]
  · have : c.val.isNone = false := by cases hc : c.val <;> simp_all [Val.isNone]
    exact ⟨fun _ => by simp [presentwithMod, this], fun hnot => absurd (.inl hn) hnot⟩

/-- **C50**: `presentwithout(ks)` rejects exactly when the value and all referred fields
are None. -/
theorem presentwithout_decides {env : Env} {ks : List String} {r : String → Val}
    (hr : ∀ k ∈ ks, ownerAttr env h c k = .ok (r k)) :
    Decides (presentwithoutMod env ks) h c (c.val ≠ .none ∨ ∃ k ∈ ks, r k ≠ .none) := by
  by_cases hn : c.val = .none
  · have e : (presentwithoutMod env ks).validate h c = presentwithoutLoop env h c ks := by
      simp [presentwithoutMod, hn, Val.isNone]
    have key : ∀ ks : List String, (∀ k ∈ ks, ownerAttr env h c k = .ok (r k)) →
        ((∃ k ∈ ks, r k ≠ .none) → presentwithoutLoop env h c ks = .ok ()) ∧
        (¬ (∃ k ∈ ks, r k ≠ .none) → presentwithoutLoop env h c ks = .error (c.vexc "value is not present without")) := by
      intro ks
      induction ks with
      | nil => intro _; exact ⟨fun ⟨_, hm, _⟩ => absurd hm (by simp), fun _ => rfl⟩
      | cons k ks ih =>
        intro hr
        obtain ⟨i1, i2⟩ := ih fun x hx => hr x (by simp [hx])
        simp only [presentwithoutLoop, hr k (by simp), attrToValue, Except.bind_ok_eq]
        by_cases hk : r k = .none
        · simp only [hk, Val.isNone, if_true]
          constructor
          · rintro ⟨x, hx, hx'⟩
            rcases List.mem_cons.1 hx with rfl | hx
            · exact absurd hk hx'
            · exact i1 ⟨x, hx, hx'⟩
          · intro hnot; exact i2 fun ⟨x, hx, hx'⟩ => hnot ⟨x, by simp [hx], hx'⟩
        · have : (r k).isNone = false := by cases hc : r k <;> simp_all [Val.isNone]
          simp only [this]
          exact ⟨fun _ => rfl, fun hnot => absurd ⟨k, by simp, hk⟩ hnot⟩
    obtain ⟨k1, k2⟩ := key ks hr
    constructor
    · rintro (hc | hc)
      · exact absurd hn hc
      · rw [e]; exact k1 hc
    · intro hnot
      exact ⟨_, e.trans (k2 fun hc => hnot (.inr hc))⟩
  · have : c.val.isNone = false := by cases hc : c.val <;> simp_all [Val.isNone]
    exact ⟨fun _ => by simp [presentwithoutMod, this], fun hnot => absurd (.inl hn) hnot⟩

/-- **C50**: a default is used exactly for None. -/
theorem default_spec {v : Val} (hp : p h c = .ok v) :
    (c.val = .none → (defaultMod p).transform h c = .ok v) ∧
    (c.val ≠ .none → (defaultMod p).transform h c = .ok c.val) := by
  constructor
  · intro hn; simp [defaultMod, hn, Val.isNone, hp]
  · intro hn
    have : c.val.isNone = false := by cases hc : c.val <;> simp_all [Val.isNone]
    simp [defaultMod, this]

example : (oneofMod (.const (.list [.int 1, .str "a"]))).validate (fun _ => {}) { val := .str "a" } = .ok () :=
  (oneof_decides rfl).1 (.inr ⟨.str "a", by simp, by simp [pyEq]⟩)
example : ∃ m, (presentwithMod { cls := fun _ => { fields := [{ name := "a" }] } } "a").validate
      (fun _ => { attrs := fun _ => .int 3 }) { owner := some 0, fkeypathr := [.s "b"] } = .error (.validation [("b", m)]) :=
  (presentwith_decides (r := .int 3) rfl).2 (by simp)

end JC
