import Verif.Model.Keypath

/-
C01 (key paths round-trip) and C02 (keyword arguments are partitioned).
-/
namespace JC

/-! ### helper lemmas about splitting and joining -/

theorem splitP_ne_nil (p : Char → Bool) (l : List Char) : splitP p l ≠ [] := by
  cases l with
  | nil => simp [splitP]
  | cons c cs =>
    simp only [splitP]
    split
    · simp
    · split <;> simp

theorem splitP_append (p : Char → Bool) (w rest : List Char)
    (hw : ∀ c ∈ w, p c = false) :
    ∃ v vs, splitP p rest = v :: vs ∧ splitP p (w ++ rest) = (w ++ v) :: vs := by
  induction w with
  | nil =>
    cases h : splitP p rest with
    | nil => exact absurd h (splitP_ne_nil p rest)
    | cons v vs => exact ⟨v, vs, rfl, by simpa using h⟩
  | cons c cs ih =>
    obtain ⟨v, vs, h1, h2⟩ := ih (fun c hc => hw c (List.mem_cons_of_mem _ hc))
    refine ⟨v, vs, h1, ?_⟩
    have hc : p c = false := hw c (List.mem_cons_self ..)
    simp [splitP, hc, h2]

theorem splitP_noSep (p : Char → Bool) (w : List Char) (hw : ∀ c ∈ w, p c = false) :
    splitP p w = [w] := by
  obtain ⟨v, vs, h1, h2⟩ := splitP_append p w [] hw
  simp [splitP] at h1
  obtain ⟨rfl, rfl⟩ := h1
  simpa using h2

theorem splitP_word_sep (p : Char → Bool) (w rest : List Char) (c : Char) (hc : p c = true)
    (hw : ∀ c ∈ w, p c = false) : splitP p (w ++ c :: rest) = w :: splitP p rest := by
  obtain ⟨v, vs, h1, h2⟩ := splitP_append p w (c :: rest) hw
  simp [splitP, hc] at h1
  obtain ⟨rfl, rfl⟩ := h1
  simpa using h2

theorem splitP_join (p : Char → Bool) (c : Char) (hc : p c = true) :
    ∀ ws : List (List Char), ws ≠ [] → (∀ w ∈ ws, ∀ d ∈ w, p d = false) →
      splitP p (joinL [c] ws) = ws
  | [], h, _ => absurd rfl h
  | [w], _, hw => splitP_noSep p w (hw w (by simp))
  | w :: w' :: ws, _, hw => by
    have ih := splitP_join p c hc (w' :: ws) (by simp)
      (fun v hv => hw v (List.mem_cons_of_mem _ hv))
    have := splitP_word_sep p w (joinL [c] (w' :: ws)) c hc (hw w (by simp))
    simp only [joinL, List.append_assoc, List.singleton_append] at this ih ⊢
    rw [this, ih]

theorem joinL_split (c : Char) :
    ∀ l : List Char, joinL [c] (splitP (· == c) l) = l
  | [] => rfl
  | d :: ds => by
    have ih := joinL_split c ds
    cases h : splitP (· == c) ds with
    | nil => exact absurd h (splitP_ne_nil _ ds)
    | cons v vs =>
      by_cases hd : (d == c) = true
      · have hdc : d = c := by simpa using hd
        simp only [splitP, hd, if_true, h]
        rw [h] at ih
        simp only [joinL, List.nil_append, List.singleton_append, ih, hdc]
      · simp only [splitP, hd, h]
        rw [h] at ih
        cases vs with
        | nil => simpa [joinL] using ih
        | cons v' vs => simpa [joinL] using ih

theorem mem_splitP_noSep (p : Char → Bool) :
    ∀ (l : List Char), ∀ w ∈ splitP p l, ∀ c ∈ w, p c = false
  | [] => by simp [splitP]
  | d :: ds => by
    have ih := mem_splitP_noSep p ds
    cases h : splitP p ds with
    | nil => exact absurd h (splitP_ne_nil _ ds)
    | cons v vs =>
      rw [h] at ih
      by_cases hd : p d = true
      · simp only [splitP, hd, if_true, h]
        intro w hw
        rcases List.mem_cons.1 hw with rfl | hw
        · simp
        · exact ih w hw
      · simp only [splitP, hd, h]
        intro w hw c hc
        simp at hw
        rcases hw with rfl | hw
        · rcases List.mem_cons.1 hc with rfl | hc
          · simpa using hd
          · exact ih v (by simp) c hc
        · exact ih w (by simp [hw]) c hc

theorem ofList_injective {a b : List Char} (h : String.ofList a = String.ofList b) : a = b := by
  have := congrArg String.toList h
  simpa using this

/-! ### C01 -/

/-- A well-formed key path component: non-empty, without `.`, `[` and `]`. -/
def Component (k : String) : Prop :=
  k ≠ "" ∧ '.' ∉ k.toList ∧ '[' ∉ k.toList ∧ ']' ∉ k.toList

theorem Component.isSep {k : String} (h : Component k) : ∀ c ∈ k.toList, isSep c = false := by
  obtain ⟨_, h1, h2, h3⟩ := h
  intro c hc
  simp only [JC.isSep, Bool.or_eq_false_iff, beq_eq_false_iff_ne]
  exact ⟨⟨fun e => h1 (e ▸ hc), fun e => h2 (e ▸ hc)⟩, fun e => h3 (e ▸ hc)⟩

theorem Component.noDot {k : String} (h : Component k) : ∀ c ∈ k.toList, (c == '.') = false := by
  intro c hc
  simp only [beq_eq_false_iff_ne]
  exact fun e => h.2.1 (e ▸ hc)

theorem Component.len {k : String} (h : Component k) : 0 < k.toList.length := by
  rcases Nat.eq_zero_or_pos k.toList.length with h0 | h0
  · exact absurd (String.toList_inj.1 (by simpa using h0)) h.1
  · exact h0

/-- Decimal numerals (list indices) are components. -/
theorem component_int (n : Int) : Component (Key.str (.i n)) := by
  have hd : ∀ m : Nat, ∀ c ∈ (Nat.repr m).toList, c.isDigit = true := by
    intro m c hc
    refine Nat.isDigit_of_mem_toDigits (b := 10) (n := m) (by decide) (by decide) ?_
    simpa [Nat.repr] using hc
  have hne : ∀ m : Nat, Nat.repr m ≠ "" := by
    intro m h
    have h2 : Nat.toDigits 10 m = [] := by
      have := congrArg String.toList h
      simp [Nat.repr] at this
    exact Nat.toDigits_ne_nil h2
  have key : ∀ c : Char, c.isDigit = true → c ≠ '.' ∧ c ≠ '[' ∧ c ≠ ']' := by
    intro c hc
    refine ⟨?_, ?_, ?_⟩ <;> (rintro rfl; revert hc; decide)
  cases n with
  | ofNat m =>
    show Component (Nat.repr m)
    exact ⟨hne m, fun h => (key _ (hd m _ h)).1 rfl, fun h => (key _ (hd m _ h)).2.1 rfl,
      fun h => (key _ (hd m _ h)).2.2 rfl⟩
  | negSucc m =>
    show Component ("-" ++ Nat.repr (m + 1))
    have hl : ("-" ++ Nat.repr (m + 1)).toList = '-' :: (Nat.repr (m+1)).toList := by
      simp [String.toList_append]
    refine ⟨fun h => by rw [h] at hl; simp at hl, ?_, ?_, ?_⟩ <;> rw [hl] <;> intro h <;>
      rcases List.mem_cons.1 h with h | h
    · exact absurd h (by decide)
    · exact (key _ (hd _ _ h)).1 rfl
    · exact absurd h (by decide)
    · exact (key _ (hd _ _ h)).2.1 rfl
    · exact absurd h (by decide)
    · exact (key _ (hd _ _ h)).2.2 rfl

theorem filter_components (ks : List Key) (h : ∀ k ∈ ks, Component k.str) :
    (ks.map Key.str).filter (fun s => s.toList.length > 0) = ks.map Key.str := by
  rw [List.filter_eq_self]
  intro s hs
  obtain ⟨k, hk, rfl⟩ := List.mem_map.1 hs
  simpa using (h k hk).len

theorem map_ofList_toList (ks : List String) : (ks.map String.toList).map String.ofList = ks := by
  simp [List.map_map, Function.comp_def]

/-- C01: splitting the concatenation of well-formed components gives them back
(in their string form; integer indices are written in decimal). -/
theorem keypathSplit_concatKeypath (ks : List Key) (h : ∀ k ∈ ks, Component k.str) :
    keypathSplit (concatKeypath ks) = ks.map Key.str := by
  unfold keypathSplit concatKeypath dotJoin
  rw [filter_components ks h, String.toList_ofList]
  cases ks with
  | nil => rfl
  | cons k ks =>
    rw [splitP_join isSep '.' rfl]
    · rw [List.filter_eq_self.2, map_ofList_toList]
      intro w hw
      simp only [List.mem_map] at hw
      obtain ⟨s, ⟨k', hk', rfl⟩, rfl⟩ := hw
      simpa using (h k' hk').len
    · simp
    · intro w hw
      simp only [List.mem_map] at hw
      obtain ⟨s, ⟨k', hk', rfl⟩, rfl⟩ := hw
      exact (h k' hk').isSep

example : keypathSplit (concatKeypath [.s "posts", .i 12, .s "title"]) = ["posts", "12", "title"] := by
  decide
example : ∀ k ∈ [Key.s "posts", .i 12, .s "title"], Component k.str := by
  intro k hk
  simp at hk
  rcases hk with rfl | rfl | rfl
  · refine ⟨by decide, by decide, by decide, by decide⟩
  · exact component_int 12
  · refine ⟨by decide, by decide, by decide, by decide⟩

theorem dotSplit_concatKeypath (ks : List Key) (hne : ks ≠ []) (h : ∀ k ∈ ks, Component k.str) :
    dotSplit (concatKeypath ks) = ks.map Key.str := by
  unfold dotSplit concatKeypath dotJoin
  rw [filter_components ks h, String.toList_ofList, splitP_join (· == '.') '.' rfl,
    map_ofList_toList]
  · cases ks <;> simp_all
  · intro w hw
    simp only [List.mem_map] at hw
    obtain ⟨s, ⟨k', hk', rfl⟩, rfl⟩ := hw
    exact (h k' hk').noDot

/-- C01: the first component of a path is recovered. -/
theorem initialKeypath_concatKeypath (k : Key) (ks : List Key)
    (h : ∀ k' ∈ k :: ks, Component k'.str) :
    initialKeypath (concatKeypath (k :: ks)) = k.str := by
  unfold initialKeypath
  rw [dotSplit_concatKeypath _ (by simp) h]
  rfl

example : initialKeypath (concatKeypath [.s "posts", .i 12, .s "title"]) = "posts" := by decide

/-- C01: dropping the last component of a path is the path of the other components. -/
theorem keypathDropLast_concatKeypath (k : Key) (ks : List Key)
    (h : ∀ k' ∈ ks ++ [k], Component k'.str) :
    keypathDropLast (concatKeypath (ks ++ [k])) = concatKeypath ks := by
  have h' : ∀ k' ∈ ks, Component k'.str := fun k' hk' => h k' (List.mem_append_left _ hk')
  unfold keypathDropLast
  rw [dotSplit_concatKeypath _ (by simp) h]
  unfold concatKeypath
  rw [filter_components ks h']
  simp [List.map_append]

example : keypathDropLast (concatKeypath ([.s "posts", .i 12] ++ [.s "title"])) = "posts.12" := by
  decide

/-- C01: without any hypothesis, a text is the dotted join of its dot-pieces, so
splitting at dots loses nothing. -/
theorem dotJoin_dotSplit (s : String) : dotJoin (dotSplit s) = s := by
  unfold dotJoin dotSplit
  have : List.map (String.toList ∘ String.ofList) (splitP (· == '.') s.toList)
      = splitP (· == '.') s.toList := by
    simp [Function.comp_def]
  rw [List.map_map, this, joinL_split]
  simp

example : dotJoin (dotSplit "a..b.") = "a..b." := by decide

theorem dotJoin_append_single (ws : List String) (hne : ws ≠ []) (w : String) :
    dotJoin (ws ++ [w]) = String.ofList ((dotJoin ws).toList ++ '.' :: w.toList) := by
  unfold dotJoin
  congr 1
  rw [String.toList_ofList]
  have : ∀ (vs : List (List Char)) (v : List Char), vs ≠ [] →
      joinL ['.'] (vs ++ [v]) = joinL ['.'] vs ++ '.' :: v := by
    intro vs v
    induction vs with
    | nil => intro h; exact absurd rfl h
    | cons u us ih =>
      intro _
      cases us with
      | nil => simp [joinL]
      | cons u' us =>
        have := ih (by simp)
        simp only [List.cons_append, joinL] at this ⊢
        rw [this]; simp
  rw [List.map_append]
  exact this _ _ (by simpa using hne)

theorem dotJoin_len (ws : List String) (hne : ws ≠ []) (h : ∀ w ∈ ws, 0 < w.toList.length) :
    0 < (dotJoin ws).toList.length := by
  unfold dotJoin
  rw [String.toList_ofList]
  match ws, hne with
  | [w], _ => simpa [joinL] using h w (by simp)
  | w :: w' :: ws, _ => simp [joinL]; omega

/-- C01: building a path step by step (as nested containers do) is the same as
building it at once. -/
theorem concatKeypath_snoc (ks : List Key) (k : Key) :
    concatKeypath [.s (concatKeypath ks), k] = concatKeypath (ks ++ [k]) := by
  have hs : ∀ s, Key.str (.s s) = s := fun _ => rfl
  unfold concatKeypath
  rw [List.map_append, List.filter_append]
  have hpos : ∀ w ∈ (ks.map Key.str).filter (fun s => s.toList.length > 0),
      0 < w.toList.length := by
    intro w hw
    simpa using (List.mem_filter.1 hw).2
  generalize (ks.map Key.str).filter (fun s => s.toList.length > 0) = ws at *
  simp only [List.map_cons, List.map_nil, hs]
  by_cases hws : ws = []
  · subst hws
    have h0 : (dotJoin []).toList.length = 0 := rfl
    rw [List.filter_cons, h0]
    simp
  · have hj := dotJoin_len ws hws hpos
    by_cases hk : k.str.toList.length > 0
    · simp only [List.filter_cons, hk, hj, decide_true, if_true, List.filter_nil, gt_iff_lt]
      rw [dotJoin_append_single ws hws]
      simp [dotJoin, joinL]
    · simp only [List.filter_cons, hk, hj, decide_true, decide_false, if_true,
        List.filter_nil, gt_iff_lt, List.append_nil]
      simp [dotJoin, joinL]

example : concatKeypath [.s (concatKeypath [.s "a", .i 3]), .s "b"] = "a.3.b" := by decide

/-- Specification of a path written with dots and brackets: the first component,
then each further component either as `.k` or as `[k]`. -/
def writePath (k : String) : List (Bool × String) → String
  | [] => k
  | (false, k') :: r => k ++ "." ++ writePath k' r
  | (true, k') :: r => k ++ "[" ++ writePath (k' ++ "]") r

/-- C01: bracket notation and dot notation split into the same components
(`a[0].b`, `a.0.b`, `a[0][b]` all give `a, 0, b`). -/
theorem keypathSplit_writePath (k : String) (r : List (Bool × String))
    (hk : Component k) (hr : ∀ x ∈ r, Component x.2) :
    keypathSplit (writePath k r) = k :: r.map Prod.snd := by
  have key : ∀ (r : List (Bool × String)) (k : String) (tail : List Char),
      Component k → (∀ x ∈ r, Component x.2) → (tail = [] ∨ tail = [']']) →
      (splitP isSep (writePath (String.ofList (k.toList ++ tail)) r).toList).filter
        (fun w => w.length > 0) = k.toList :: r.map (fun x => x.2.toList) := by
    intro r
    induction r with
    | nil =>
      intro k tail hk _ ht
      have hl := hk.len
      rcases ht with rfl | rfl
      · simp only [writePath, String.toList_ofList, List.append_nil]
        rw [splitP_noSep _ _ hk.isSep]
        simp [hl]
      · simp only [writePath, String.toList_ofList]
        rw [splitP_word_sep _ _ _ ']' rfl hk.isSep]
        simp [splitP, hl]
    | cons x r ih =>
      intro k tail hk hr ht
      have hl := hk.len
      obtain ⟨b, k'⟩ := x
      have hk' : Component k' := hr _ (List.mem_cons_self ..)
      have hr' : ∀ x ∈ r, Component x.2 := fun x hx => hr x (List.mem_cons_of_mem _ hx)
      -- one separator character `c` follows the (possibly bracket-closed) component
      have step : ∀ (c : Char) (rest : List Char), isSep c = true →
          (splitP isSep ((k.toList ++ tail) ++ c :: rest)).filter (fun w => w.length > 0)
            = k.toList :: (splitP isSep rest).filter (fun w => w.length > 0) := by
        intro c rest hc
        rcases ht with rfl | rfl
        · rw [List.append_nil, splitP_word_sep _ _ _ c hc hk.isSep]
          simp [hl]
        · rw [List.append_assoc, List.singleton_append,
            splitP_word_sep _ _ _ ']' rfl hk.isSep]
          simp [splitP, hc, hl]
      cases b with
      | false =>
        have h1 := ih k' [] hk' hr' (Or.inl rfl)
        rw [List.append_nil, String.ofList_toList] at h1
        have : (writePath (String.ofList (k.toList ++ tail)) ((false, k') :: r)).toList
            = (k.toList ++ tail) ++ '.' :: (writePath k' r).toList := by
          simp [writePath, String.toList_append]
        rw [this, step '.' _ rfl, h1]
        rfl
      | true =>
        have h1 := ih k' [']'] hk' hr' (Or.inr rfl)
        have h2 : String.ofList (k'.toList ++ [']']) = k' ++ "]" := by
          apply String.toList_inj.1
          simp [String.toList_append]
        rw [h2] at h1
        have : (writePath (String.ofList (k.toList ++ tail)) ((true, k') :: r)).toList
            = (k.toList ++ tail) ++ '[' :: (writePath (k' ++ "]") r).toList := by
          simp [writePath, String.toList_append]
        rw [this, step '[' _ rfl, h1]
        rfl
  have h := key r k [] hk hr (Or.inl rfl)
  rw [List.append_nil, String.ofList_toList] at h
  unfold keypathSplit
  rw [h]
  simp [Function.comp_def]

example : writePath "posts" [(true, "0"), (false, "title"), (true, "x")] = "posts[0].title[x]" := by
  decide
example : keypathSplit "posts[0].title[x]" = ["posts", "0", "title", "x"] := by decide

/-! ### C02 -/

/-- C02: every keyword argument is routed to exactly one of the two halves,
with its value; the route is decided by the presence of a separator character. -/
theorem kwargs_partition {α : Type} (kw : List (String × α)) (k : String) (v : α) :
    ((k, v) ∈ kw ↔ ((k, v) ∈ singleKeyArgs kw ∨ (k, v) ∈ compoundKeyArgs kw)) ∧
    ((k, v) ∈ compoundKeyArgs kw ↔
      (k, v) ∈ kw ∧ ('.' ∈ k.toList ∨ '[' ∈ k.toList ∨ ']' ∈ k.toList)) ∧
    ((k, v) ∈ singleKeyArgs kw ↔
      (k, v) ∈ kw ∧ ('.' ∉ k.toList ∧ '[' ∉ k.toList ∧ ']' ∉ k.toList)) := by
  have hc : isCompound k = true ↔ ('.' ∈ k.toList ∨ '[' ∈ k.toList ∨ ']' ∈ k.toList) := by
    simp only [isCompound, List.any_eq_true, isSep, Bool.or_eq_true, beq_iff_eq]
    constructor
    · rintro ⟨c, hc, (rfl | rfl) | rfl⟩ <;> simp [hc]
    · rintro (h | h | h)
      · exact ⟨_, h, Or.inl (Or.inl rfl)⟩
      · exact ⟨_, h, Or.inl (Or.inr rfl)⟩
      · exact ⟨_, h, Or.inr rfl⟩
  have hs : (k, v) ∈ singleKeyArgs kw ↔ (k, v) ∈ kw ∧ ¬ (isCompound k = true) := by
    simp [singleKeyArgs, List.mem_filter]
  have hk : (k, v) ∈ compoundKeyArgs kw ↔ (k, v) ∈ kw ∧ isCompound k = true := by
    simp [compoundKeyArgs, List.mem_filter]
  refine ⟨?_, ?_, ?_⟩
  · rw [hs, hk]
    constructor
    · intro h
      by_cases hb : isCompound k = true
      · exact Or.inr ⟨h, hb⟩
      · exact Or.inl ⟨h, hb⟩
    · rintro (h | h) <;> exact h.1
  · rw [hk, hc]
  · rw [hs, hc]
    simp only [not_or]

/-- C02: no argument is duplicated or dropped and both halves keep the relative
order of the arguments. -/
theorem kwargs_order {α : Type} (kw : List (String × α)) :
    (singleKeyArgs kw).Sublist kw ∧ (compoundKeyArgs kw).Sublist kw ∧
    (singleKeyArgs kw).length + (compoundKeyArgs kw).length = kw.length := by
  refine ⟨List.filter_sublist, List.filter_sublist, ?_⟩
  unfold singleKeyArgs compoundKeyArgs
  induction kw with
  | nil => rfl
  | cons x xs ih =>
    by_cases h : isCompound x.1 = true <;> simp [h] <;> omega

example : singleKeyArgs [("name", 1), ("a.b", 2), ("c[0]", 3), ("age", 4)] = [("name", 1), ("age", 4)]
    ∧ compoundKeyArgs [("name", 1), ("a.b", 2), ("c[0]", 3), ("age", 4)]
      = [("a.b", 2), ("c[0]", 3)] := by decide

end JC
