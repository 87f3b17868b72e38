import Verif.Props.Lists
import Verif.Props.Include

/-
What equality and truth of values mean (C48, C50), independently of the functions computing
them.
-/
namespace JC

/-! ### Specification -/

mutual
/-- Equal values: numbers (booleans counting as 0 and 1) by their value, texts, dates and so on
by content, lists item by item, dicts entry by entry in any order, objects by identity. NaN is
equal to nothing. -/
inductive Same : Val → Val → Prop where
  | none : Same .none .none
  | num {v w : Val} {q : Rat} : v.num? = some q → w.num? = some q → Same v w
  | pinf : Same (.flt .pinf) (.flt .pinf)
  | ninf : Same (.flt .ninf) (.flt .ninf)
  | str (s : String) : Same (.str s) (.str s)
  | date (d : PyDate) : Same (.date d) (.date d)
  | dt (d : PyDateTime) : Same (.dt d) (.dt d)
  | enum (e m : String) : Same (.enum e m) (.enum e m)
  | obj (i : Nat) : Same (.obj i) (.obj i)
  | other (t : Nat) : Same (.other t) (.other t)
  | list {xs ys : List Val} : SameItems xs ys → Same (.list xs) (.list ys)
  | dict {xs ys : List (String × Val)} : xs.length = ys.length → SameEntries xs ys → Same (.dict xs) (.dict ys)
/-- item by item -/
inductive SameItems : List Val → List Val → Prop where
  | nil : SameItems [] []
  | cons {x y : Val} {xs ys : List Val} : Same x y → SameItems xs ys → SameItems (x :: xs) (y :: ys)
/-- every entry of the first is in the second -/
inductive SameEntries : List (String × Val) → List (String × Val) → Prop where
  | nil {ys : List (String × Val)} : SameEntries [] ys
  | cons {k : String} {x y : Val} {xs ys : List (String × Val)} : ys.lookup k = some y → Same x y → SameEntries xs ys →
      SameEntries ((k, x) :: xs) ys
end

mutual
/-- values without NaN, dicts with distinct keys -/
inductive Ordinary : Val → Prop where
  | atom {v : Val} : v ≠ .flt .nan → (∀ xs, v ≠ .list xs) → (∀ xs, v ≠ .dict xs) → Ordinary v
  | list {xs : List Val} : (∀ x ∈ xs, Ordinary x) → Ordinary (.list xs)
  | dict {xs : List (String × Val)} : (xs.map Prod.fst).Nodup → (∀ x ∈ xs, Ordinary x.2) → Ordinary (.dict xs)
end

/-- What counts as false: None, False, zero, the empty text, list and dict. -/
def Falsy (v : Val) : Prop :=
  v = .none ∨ v = .bool false ∨ v.num? = some 0 ∨ v = .str "" ∨ v = .list [] ∨ v = .dict []

/-! ### Proofs -/

theorem num_bool (a : Bool) : (Val.bool a).num? = some (if a then 1 else 0) := rfl
theorem num_int (a : Int) : (Val.int a).num? = some (a : Rat) := rfl
theorem num_fin (a : Rat) : (Val.flt (.fin a)).num? = some a := rfl

theorem pyEq_num {v w : Val} {q r : Rat} (hv : v.num? = some q) (hw : w.num? = some r) : pyEq v w = decide (q = r) := by
  cases v with
  | bool a =>
    cases hv
    cases w with
    | bool b => cases hw; cases a <;> cases b <;> simp [pyEq]
    | int n =>
      cases hw
      cases a <;> simp only [pyEq, Bool.false_eq_true, if_false, if_true] <;> (rw [Bool.eq_iff_iff]; simp) <;> norm_cast
    | flt f =>
      cases f with
      | fin b =>
        cases hw
        cases a <;> simp only [pyEq, Bool.false_eq_true, if_false, if_true] <;> (rw [Bool.eq_iff_iff]; simp only [beq_iff_eq, decide_eq_true_eq]; exact eq_comm)
      | _ => cases hw
    | _ => cases hw
  | int m =>
    cases hv
    cases w with
    | bool b =>
      cases hw
      cases b <;> simp only [pyEq, Bool.false_eq_true, if_false, if_true] <;> (rw [Bool.eq_iff_iff]; simp only [beq_iff_eq, decide_eq_true_eq]; constructor <;> intro h <;> first | exact_mod_cast h.symm | exact_mod_cast h)
    | int n => cases hw; simp only [pyEq]; rw [Bool.eq_iff_iff]; simp
    | flt f =>
      cases f with
      | fin b => cases hw; simp only [pyEq]; rw [Bool.eq_iff_iff]; simp only [beq_iff_eq, decide_eq_true_eq]; exact eq_comm
      | _ => cases hw
    | _ => cases hw
  | flt f =>
    cases f with
    | fin a =>
      cases hv
      cases w with
      | bool b => cases hw; cases b <;> simp only [pyEq, Bool.false_eq_true, if_false, if_true] <;> (rw [Bool.eq_iff_iff]; simp)
      | int n => cases hw; simp only [pyEq]; rw [Bool.eq_iff_iff]; simp
      | flt g =>
        cases g with
        | fin b => cases hw; simp only [pyEq]; rw [Bool.eq_iff_iff]; simp
        | _ => cases hw
      | _ => cases hw
    | _ => cases hv
  | _ => cases hv

theorem same_num {v w : Val} {q : Rat} (hv : v.num? = some q) (h : Same v w) : w.num? = some q := by
  cases h with
  | num h1 h2 => rw [hv] at h1; cases h1; exact h2
  | _ => cases hv

mutual
/-- Python's `==` decides `Same`. -/
theorem pyEq_iff : ∀ v w : Val, pyEq v w = true ↔ Same v w
  | .none, w => by
    constructor
    · intro h
      cases w <;> first | exact .none | simp [pyEq] at h
    · intro h
      cases h with
      | none => simp [pyEq]
      | num h => cases h
  | .bool a, w => by
    cases hw : w.num? with
    | some r =>
      rw [pyEq_num (num_bool a) hw, decide_eq_true_eq]
      exact ⟨fun h => .num (num_bool a) (h ▸ hw), fun h => by have := same_num (num_bool a) h; rw [hw] at this; exact (Option.some.inj this).symm⟩
    | none =>
      refine ⟨fun h => ?_, fun h => by have := same_num (num_bool a) h; rw [hw] at this; cases this⟩
      cases w with
      | flt f => cases f <;> first | (cases hw; done) | simp [pyEq] at h
      | _ => first | (cases hw; done) | simp [pyEq] at h
  | .int a, w => by
    cases hw : w.num? with
    | some r =>
      rw [pyEq_num (num_int a) hw, decide_eq_true_eq]
      exact ⟨fun h => .num (num_int a) (h ▸ hw), fun h => by have := same_num (num_int a) h; rw [hw] at this; exact (Option.some.inj this).symm⟩
    | none =>
      refine ⟨fun h => ?_, fun h => by have := same_num (num_int a) h; rw [hw] at this; cases this⟩
      cases w with
      | flt f => cases f <;> first | (cases hw; done) | simp [pyEq] at h
      | _ => first | (cases hw; done) | simp [pyEq] at h
  | .flt (.fin a), w => by
    cases hw : w.num? with
    | some r =>
      rw [pyEq_num (num_fin a) hw, decide_eq_true_eq]
      exact ⟨fun h => .num (num_fin a) (h ▸ hw), fun h => by have := same_num (num_fin a) h; rw [hw] at this; exact (Option.some.inj this).symm⟩
    | none =>
      refine ⟨fun h => ?_, fun h => by have := same_num (num_fin a) h; rw [hw] at this; cases this⟩
      cases w with
      | flt f => cases f <;> first | (cases hw; done) | simp [pyEq] at h
      | _ => first | (cases hw; done) | simp [pyEq] at h
  | .flt .pinf, w => by
    constructor
    · intro h
      cases w with
      | flt f => cases f <;> first | exact .pinf | simp [pyEq] at h
      | _ => simp [pyEq] at h
    · intro h
      cases h with
      | pinf => simp [pyEq]
      | num h => cases h
  | .flt .ninf, w => by
    constructor
    · intro h
      cases w with
      | flt f => cases f <;> first | exact .ninf | simp [pyEq] at h
      | _ => simp [pyEq] at h
    · intro h
      cases h with
      | ninf => simp [pyEq]
      | num h => cases h
  | .flt .nan, w => by
    constructor
    · intro h
      cases w with
      | flt f => cases f <;> simp [pyEq] at h
      | _ => simp [pyEq] at h
    · intro h
      cases h with
      | num h => cases h
  | .str a, w => by
    constructor
    · intro h
      cases w with
      | str b => simp only [pyEq, beq_iff_eq] at h; subst h; exact .str _
      | flt f => cases f <;> simp [pyEq] at h
      | _ => simp [pyEq] at h
    · intro h
      cases h with
      | str => simp [pyEq]
      | num h => cases h
  | .date a, w => by
    constructor
    · intro h
      cases w with
      | date b => simp only [pyEq, beq_iff_eq] at h; subst h; exact .date _
      | flt f => cases f <;> simp [pyEq] at h
      | _ => simp [pyEq] at h
    · intro h
      cases h with
      | date => simp [pyEq]
      | num h => cases h
  | .dt a, w => by
    constructor
    · intro h
      cases w with
      | dt b => simp only [pyEq, beq_iff_eq] at h; subst h; exact .dt _
      | flt f => cases f <;> simp [pyEq] at h
      | _ => simp [pyEq] at h
    · intro h
      cases h with
      | dt => simp [pyEq]
      | num h => cases h
  | .enum a b, w => by
    constructor
    · intro h
      cases w with
      | enum c d => simp only [pyEq, beq_iff_eq, Bool.and_eq_true] at h; obtain ⟨rfl, rfl⟩ := h; exact .enum _ _
      | flt f => cases f <;> simp [pyEq] at h
      | _ => simp [pyEq] at h
    · intro h
      cases h with
      | enum => simp [pyEq]
      | num h => cases h
  | .obj a, w => by
    constructor
    · intro h
      cases w with
      | obj b => simp only [pyEq, beq_iff_eq] at h; subst h; exact .obj _
      | flt f => cases f <;> simp [pyEq] at h
      | _ => simp [pyEq] at h
    · intro h
      cases h with
      | obj => simp [pyEq]
      | num h => cases h
  | .other a, w => by
    constructor
    · intro h
      cases w with
      | other b => simp only [pyEq, beq_iff_eq] at h; subst h; exact .other _
      | flt f => cases f <;> simp [pyEq] at h
      | _ => simp [pyEq] at h
    · intro h
      cases h with
      | other => simp [pyEq]
      | num h => cases h
  | .list xs, w => by
    constructor
    · intro h
      cases w with
      | list ys => simp only [pyEq] at h; exact .list ((pyEqList_iff xs ys).1 h)
      | flt f => cases f <;> simp [pyEq] at h
      | _ => simp [pyEq] at h
    · intro h
      cases h with
      | list h => simp only [pyEq]; exact (pyEqList_iff xs _).2 h
      | num h => cases h
  | .dict xs, w => by
    constructor
    · intro h
      cases w with
      | dict ys => simp only [pyEq, Bool.and_eq_true, beq_iff_eq] at h; exact .dict h.1 ((pyEqDict_iff xs ys).1 h.2)
      | flt f => cases f <;> simp [pyEq] at h
      | _ => simp [pyEq] at h
    · intro h
      cases h with
      | dict h1 h => simp only [pyEq, Bool.and_eq_true, beq_iff_eq]; exact ⟨h1, (pyEqDict_iff xs _).2 h⟩
      | num h => cases h
theorem pyEqList_iff : ∀ xs ys : List Val, pyEqList xs ys = true ↔ SameItems xs ys
  | [], ys => by
    cases ys with
    | nil => exact ⟨fun _ => .nil, fun _ => by simp [pyEqList]⟩
    | cons y ys => exact ⟨(fun h => by simp [pyEqList] at h), fun h => by cases h⟩
  | x :: xs, ys => by
    cases ys with
    | nil => exact ⟨(fun h => by simp [pyEqList] at h), fun h => by cases h⟩
    | cons y ys =>
      simp only [pyEqList, Bool.and_eq_true, pyEq_iff x y, pyEqList_iff xs ys]
      exact ⟨fun h => .cons h.1 h.2, fun h => by cases h with | cons h1 h2 => exact ⟨h1, h2⟩⟩
theorem pyEqDict_iff : ∀ xs ys : List (String × Val), pyEqDict xs ys = true ↔ SameEntries xs ys
  | [], ys => ⟨fun _ => .nil, fun _ => by simp [pyEqDict]⟩
  | (k, x) :: xs, ys => by
    simp only [pyEqDict, Bool.and_eq_true, pyEqDict_iff xs ys]
    cases hl : ys.lookup k with
    | none =>
      exact ⟨(fun h => by cases h.1), fun h => by cases h with | cons h1 _ _ => rw [hl] at h1; cases h1⟩
    | some y =>
      simp only [pyEq_iff x y]
      refine ⟨fun h => .cons hl h.1 h.2, fun h => ?_⟩
      cases h with
      | cons h1 h2 h3 => rw [hl] at h1; cases h1; exact ⟨h2, h3⟩
end

theorem lookup_self {xs : List (String × Val)} (h : (xs.map Prod.fst).Nodup) {e : String × Val} (he : e ∈ xs) : xs.lookup e.1 = some e.2 := by
  induction xs with
  | nil => cases he
  | cons x xs ih =>
    simp only [List.map_cons, List.nodup_cons] at h
    rcases List.mem_cons.1 he with rfl | he
    · simp [List.lookup]
    · have : e.1 ≠ x.1 := fun hx => h.1 (hx ▸ List.mem_map_of_mem (f := Prod.fst) he)
      rw [List.lookup_cons, show (e.1 == x.1) = false from by simpa using this]
      exact ih h.2 he

/-- Every value without NaN equals itself. -/
theorem same_refl {v : Val} (h : Ordinary v) : Same v v := by
  induction h with
  | @atom v h1 h2 h3 =>
    cases v with
    | none => exact .none
    | bool b => exact .num rfl rfl
    | int n => exact .num rfl rfl
    | flt f =>
      cases f with
      | fin q => exact .num rfl rfl
      | pinf => exact .pinf
      | ninf => exact .ninf
      | nan => exact absurd rfl h1
    | str s => exact .str s
    | date d => exact .date d
    | dt d => exact .dt d
    | enum e m => exact .enum e m
    | obj i => exact .obj i
    | other t => exact .other t
    | list xs => exact absurd rfl (h2 xs)
    | dict xs => exact absurd rfl (h3 xs)
  | @list xs _ ih =>
    refine .list ?_
    have : ∀ zs : List Val, (∀ z ∈ zs, z ∈ xs) → SameItems zs zs := by
      intro zs
      induction zs with
      | nil => intro _; exact .nil
      | cons z zs ihz => intro h; exact .cons (ih z (h z (by simp))) (ihz (fun y hy => h y (by simp [hy])))
    exact this xs (fun _ h => h)
  | @dict xs hn _ ih =>
    refine .dict rfl ?_
    have : ∀ zs : List (String × Val), (∀ z ∈ zs, z ∈ xs) → SameEntries zs xs := by
      intro zs
      induction zs with
      | nil => intro _; exact .nil
      | cons z zs ihz =>
        intro h
        exact .cons (lookup_self hn (h z (by simp))) (ih z (h z (by simp))) (ihz (fun y hy => h y (by simp [hy])))
    exact this xs (fun _ h => h)

/-! ### C50, C48 -/

variable {h : Heap} {c : Ctx} {p : Param}

/-- **C50**: `eq` accepts exactly None and values equal to the parameter. -/
theorem eq_accepts_equal {v : Val} (hp : p h c = .ok v) : Decides (eqMod p) h c (c.val = .none ∨ Same c.val v) := by
  rw [← pyEq_iff]; exact eq_decides hp

/-- **C50**: `neq` accepts exactly values not equal to the parameter. -/
theorem neq_accepts_unequal {v : Val} (hp : p h c = .ok v) : Decides (neqMod p) h c (¬ Same c.val v) := by
  rw [← pyEq_iff, Bool.not_eq_true]; exact neq_decides hp

/-- **C50**: `oneof` accepts exactly None and values equal to one of the choices. -/
theorem oneof_accepts_choices {xs : List Val} (hp : p h c = .ok (.list xs)) :
    Decides (oneofMod p) h c (c.val = .none ∨ ∃ x ∈ xs, Same x c.val) := by
  have := oneof_decides hp
  simp only [pyEq_iff] at this
  exact this

theorem isInfixB_iff {a s : List Char} : isInfixB a s = true ↔ ∃ l r, s = l ++ a ++ r := by
  induction s with
  | nil =>
    simp only [isInfixB, List.isEmpty_iff]
    constructor
    · rintro rfl; exact ⟨[], [], rfl⟩
    · rintro ⟨l, r, e⟩
      have := congrArg List.length e
      simp only [List.length_nil, List.length_append] at this
      exact List.length_eq_zero_iff.1 (by omega)
  | cons x s ih =>
    simp only [isInfixB, Bool.or_eq_true, List.isPrefixOf_iff_prefix, ih]
    constructor
    · rintro (⟨r, e⟩ | ⟨l, r, rfl⟩)
      · exact ⟨[], r, by simpa using e.symm⟩
      · exact ⟨x :: l, r, rfl⟩
    · rintro ⟨l, r, e⟩
      cases l with
      | nil => exact .inl ⟨r, by simpa using e.symm⟩
      | cons y l =>
        simp only [List.cons_append, List.cons.injEq] at e
        exact .inr ⟨l, r, e.2⟩

/-- **C50**: with a text for choices `oneof` accepts exactly the parts of this text, not
just its characters. -/
theorem oneof_text_choices {s t : String} (hp : p h c = .ok (.str s)) (hv : c.val = .str t) :
    Decides (oneofMod p) h c (∃ l r, s.toList = l ++ t.toList ++ r) := by
  apply Decides.of_reject (b := !(isInfixB t.toList s.toList)) (msg := "value is not in choices")
  · simp [oneofMod, hv, hp, pyContains]
  · rw [← isInfixB_iff]; simp

/-- **C50**: with a dict for choices `oneof` accepts exactly its keys. -/
theorem oneof_dict_choices {d : List (String × Val)} {t : String} (hp : p h c = .ok (.dict d)) (hv : c.val = .str t) :
    Decides (oneofMod p) h c (∃ v, (t, v) ∈ d) := by
  apply Decides.of_reject (b := !(d.any (fun kv => kv.1 == t))) (msg := "value is not in choices")
  · simp [oneofMod, hv, hp, pyContains]
  · simp
    exact ⟨fun h x hx => h t x hx rfl, fun h a b hb e => h b (e ▸ hb)⟩

/-- **C50**: with a dict for choices `oneof` accepts no number, date or object. -/
theorem oneof_dict_other {d : List (String × Val)} (hp : p h c = .ok (.dict d)) (hn : c.val ≠ .none) (hs : ∀ t, c.val ≠ .str t) :
    (oneofMod p).validate h c ≠ .ok () := by
  intro hv
  cases hc : c.val <;> simp_all [oneofMod, pyContains, rejectIf]
example := oneof_dict_other (h := fun _ => {}) (c := { val := .int 1 }) (p := .const (.dict [("a", .int 1)])) rfl (by simp) (by simp)

example : (oneofMod (fun _ _ => .ok (.str "admin"))).validate (fun _ => {}) { val := .str "dmi" } = .ok () :=
  (oneof_text_choices (s := "admin") (t := "dmi") rfl rfl).1 ⟨['a'], ['n'], rfl⟩

/-- Assigning to a field a value equal to the one it has changes nothing at all. -/
theorem assign_equal_nothing {env : Env} (R : Relations env) {a : Nat} {f : Field} {v : Val} {w w' : World} (hf : HasField env w a f)
    (he : Same v (w.attr a f.name)) (h : setAttr env a f.name v w = (.ok (), w')) : w' = w :=
  assign_same R hf ((pyEq_iff _ _).2 he) h

/-- In particular assigning the value a field has, unless there is a NaN in it. -/
theorem assign_own_nothing {env : Env} (R : Relations env) {a : Nat} {f : Field} {w w' : World} (hf : HasField env w a f)
    (ho : Ordinary (w.attr a f.name)) (h : setAttr env a f.name (w.attr a f.name) w = (.ok (), w')) : w' = w :=
  assign_equal_nothing R hf (same_refl ho) h

/-- **C48**: `tobool` gives False exactly for what counts as false, True for everything else. -/
theorem tobool_spec : ∃ b, toboolMod.transform h c = .ok (.bool b) ∧ (b = false ↔ Falsy c.val) := by
  refine ⟨c.val.truthy, rfl, ?_⟩
  unfold Falsy
  cases hv : c.val with
  | bool b => cases b <;> simp [Val.truthy, Val.num?]
  | int n => simp [Val.truthy, Val.num?]
  | flt f => cases f <;> simp [Val.truthy, Val.num?]
  | str s =>
    have : (s.toList.length > 0) ↔ s ≠ "" := by
      rw [gt_iff_lt, List.length_pos_iff, ne_eq, ne_eq, String.toList_eq_nil_iff]
    simp only [Val.truthy, Val.num?, decide_eq_false_iff_not, this]
    simp
  | list xs => cases xs <;> simp [Val.truthy, Val.num?]
  | dict xs => cases xs <;> simp [Val.truthy, Val.num?]
  | _ => simp [Val.truthy, Val.num?]

/-- **C48**: `inverse` gives the other truth value for a truth value, and leaves everything
else. -/
theorem inverse_spec : (∀ b, c.val = .bool b → ∃ b', inverseMod.transform h c = .ok (.bool b') ∧ b' ≠ b) ∧
    ((∀ b, c.val ≠ .bool b) → inverseMod.transform h c = .ok c.val) := by
  constructor
  · intro b hb
    exact ⟨!b, by simp [inverseMod, hb], by cases b <;> simp⟩
  · intro hb
    cases hv : c.val with
    | bool b => exact absurd hv (hb b)
    | _ => simp [inverseMod, hv]

/-- `{"a": [1, -inf], "b": True}` equals `{"b": 1.0, "a": [True, -inf]}` -/
example : Same (.dict [("a", .list [.int 1, .flt .ninf]), ("b", .bool true)]) (.dict [("b", .flt (.fin 1)), ("a", .list [.bool true, .flt .ninf])]) :=
  .dict rfl (.cons rfl (.list (.cons (.num rfl rfl) (.cons .ninf .nil))) (.cons rfl (.num rfl rfl) .nil))

example : Ordinary (.dict [("a", .list [.int 1, .flt .ninf])]) :=
  .dict (by decide) (fun x hx => by
    cases List.mem_singleton.1 hx
    refine .list (fun y hy => ?_)
    simp only [List.mem_cons, List.not_mem_nil, or_false] at hy
    rcases hy with rfl | rfl <;> exact .atom (fun h => by cases h) (fun _ h => by cases h) (fun _ h => by cases h))

example : ¬ Same (.flt .nan) (.flt .nan) := fun h => by
  cases h with
  | num h => cases h

example : Falsy (.flt (.fin 0)) ∧ ¬ Falsy (.flt (.fin 1)) :=
  ⟨.inr (.inr (.inl rfl)), by simp [Falsy, Val.num?]⟩

/-- The first post of the demo has an author; assigning it again does nothing. -/
example : ∀ w', setAttr Demo.env 2 "author" (SymDemo.start.attr 2 "author") SymDemo.start = (.ok (), w') → w' = SymDemo.start :=
  fun _ => assign_own_nothing SymDemo.relations (f := Demo.fAuthor) (SymDemo.has_of (c := "Post") rfl rfl)
    (.atom (fun h => by cases h) (fun _ h => by cases h) (fun _ h => by cases h))

end JC
