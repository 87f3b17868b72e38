import Verif.Model.Numbers

/-
C08 (numeric bound validators), C10 (clamping and arithmetic transforms),
C48 (rounding transforms).
-/
namespace JC

/-! ### Specification -/

/-- The Python value is the number `q`: an int or a finite float (not a bool). -/
inductive IsNum : Val → Rat → Prop
  | int (n : Int) : IsNum (.int n) n
  | flt (q : Rat) : IsNum (.flt (.fin q)) q

/-- In this context the validator accepts if `P` holds, and otherwise raises a validation
error about exactly the validated path. -/
def Decides (l : Leaf) (h : Heap) (c : Ctx) (P : Prop) : Prop :=
  (P → l.validate h c = .ok ()) ∧
  (¬ P → ∃ msg, l.validate h c = .error (.validation [(dotJoin (c.fkeypathr.map Key.str), msg)]))

theorem Decides.ok_iff {l : Leaf} {h : Heap} {c : Ctx} {P : Prop} (hd : Decides l h c P) :
    l.validate h c = .ok () ↔ P := by
  constructor
  · intro ho
    apply Classical.byContradiction
    intro hn
    obtain ⟨m, hm⟩ := hd.2 hn
    rw [hm] at ho; cases ho
  · exact hd.1

theorem Decides.of_reject {l : Leaf} {h : Heap} {c : Ctx} {P : Prop} {b : Bool} {msg : String}
    (he : l.validate h c = rejectIf c msg b) (hb : b = true ↔ ¬ P) : Decides l h c P := by
  constructor
  · intro hp
    rw [he]
    cases b with
    | true => exact absurd hp (hb.1 rfl)
    | false => rfl
  · intro hp
    have := hb.2 hp
    subst this
    exact ⟨msg, he⟩

theorem IsNum.isNumber {v : Val} {q : Rat} (h : IsNum v q) : v.isNumber = true := by cases h <;> rfl
theorem IsNum.flt? {v : Val} {q : Rat} (h : IsNum v q) : v.flt? = some (.fin q) := by cases h <;> rfl
theorem IsNum.unique {v : Val} {q r : Rat} (h : IsNum v q) (h' : IsNum v r) : q = r := by
  have := h.flt?.symm.trans h'.flt?
  injection this with this; injection this

theorem numLt_num {a b : Val} {x y : Rat} (ha : IsNum a x) (hb : IsNum b y) :
    numLt a b = .ok (decide (x < y)) := by
  simp [numLt, numCmp, ha.flt?, hb.flt?, Flt.lt]
theorem numLe_num {a b : Val} {x y : Rat} (ha : IsNum a x) (hb : IsNum b y) :
    numLe a b = .ok (decide (x ≤ y)) := by
  simp [numLe, numCmp, ha.flt?, hb.flt?, Flt.le]

@[simp] theorem Except.bind_ok_eq {ε α β : Type} (a : α) (f : α → Except ε β) :
    ((Except.ok a : Except ε α) >>= f) = f a := rfl
@[simp] theorem Except.bind_error_eq {ε α β : Type} (e : ε) (f : α → Except ε β) :
    ((Except.error e : Except ε α) >>= f) = .error e := rfl

variable {h : Heap} {c : Ctx} {p : Param} {bv : Val} {x b : Rat}

/-! ### C08 -/

/-- **C08**: `min` / `gte` accept exactly the numbers at least the bound. -/
theorem min_decides (hx : IsNum c.val x) (hp : p h c = .ok bv) (hb : IsNum bv b) :
    Decides (minMod p) h c (b ≤ x) := by
  apply Decides.of_reject (b := decide (x < b)) (msg := "value is not greater than or equal")
  · simp [minMod, hx.isNumber, hp, numLt_num hx hb]
  · simp [Rat.not_le]

/-- **C08**: `max` / `lte`. -/
theorem max_decides (hx : IsNum c.val x) (hp : p h c = .ok bv) (hb : IsNum bv b) :
    Decides (maxMod p) h c (x ≤ b) := by
  apply Decides.of_reject (b := decide (b < x)) (msg := "value is not less than or equal")
  · simp [maxMod, hx.isNumber, hp, numLt_num hb hx]
  · simp [Rat.not_le]

/-- **C08**: `gt`. -/
theorem gt_decides (hx : IsNum c.val x) (hp : p h c = .ok bv) (hb : IsNum bv b) :
    Decides (gtMod p) h c (b < x) := by
  apply Decides.of_reject (b := decide (x ≤ b)) (msg := "value is not greater than")
  · simp [gtMod, hx.isNumber, hp, numLe_num hx hb]
  · simp [Rat.not_lt]

/-- **C08**: `lt`. -/
theorem lt_decides (hx : IsNum c.val x) (hp : p h c = .ok bv) (hb : IsNum bv b) :
    Decides (ltMod p) h c (x < b) := by
  apply Decides.of_reject (b := decide (b ≤ x)) (msg := "value is not less than")
  · simp [ltMod, hx.isNumber, hp, numLe_num hb hx]
  · simp [Rat.not_lt]

/-- **C08**: `range`, both ends included. -/
theorem range_decides {lo hi : Param} {av : Val} {a : Rat} (hx : IsNum c.val x)
    (hlo : lo h c = .ok av) (ha : IsNum av a) (hhi : hi h c = .ok bv) (hb : IsNum bv b) :
    Decides (rangeMod lo hi) h c (a ≤ x ∧ x ≤ b) := by
  have hn : c.val.isNone = false := by cases hv : c.val <;> rw [hv] at hx <;> first | rfl | cases hx
  have hmin := min_decides (p := .const av) (h := h) hx rfl ha
  have hmax := max_decides (p := .const bv) (h := h) hx rfl hb
  have hr : (rangeMod lo hi).validate h c =
      (do (minMod (.const av)).validate h c; (maxMod (.const bv)).validate h c) := by
    simp [rangeMod, hn, hlo, hhi]
  constructor
  · rintro ⟨h1, h2⟩
    rw [hr, hmin.1 h1, hmax.1 h2]; rfl
  · intro hnot
    by_cases h1 : a ≤ x
    · have h2 : ¬ x ≤ b := fun h2 => hnot ⟨h1, h2⟩
      obtain ⟨m, hm⟩ := hmax.2 h2
      exact ⟨m, by rw [hr, hmin.1 h1, hm]; rfl⟩
    · obtain ⟨m, hm⟩ := hmin.2 h1
      exact ⟨m, by rw [hr, hm]; rfl⟩

theorem isNum_zero : IsNum (.int 0) 0 := IsNum.int 0

/-- **C08**: `positive`. -/
theorem positive_decides (hx : IsNum c.val x) : Decides positiveMod h c (0 < x) := by
  apply Decides.of_reject (b := decide (x ≤ 0)) (msg := "value is not positive")
  · simp [positiveMod, hx.isNumber, numLe_num hx isNum_zero]
  · simp [Rat.not_lt]
/-- **C08**: `negative`. -/
theorem negative_decides (hx : IsNum c.val x) : Decides negativeMod h c (x < 0) := by
  apply Decides.of_reject (b := decide (0 ≤ x)) (msg := "value is not negative")
  · simp [negativeMod, hx.isNumber, numLe_num isNum_zero hx]
  · simp [Rat.not_lt]
/-- **C08**: `nonnegative`. -/
theorem nonnegative_decides (hx : IsNum c.val x) : Decides nonnegativeMod h c (0 ≤ x) := by
  apply Decides.of_reject (b := decide (x < 0)) (msg := "value is not nonnegative")
  · simp [nonnegativeMod, hx.isNumber, numLt_num hx isNum_zero]
  · simp [Rat.not_le]
/-- **C08**: `nonpositive`. -/
theorem nonpositive_decides (hx : IsNum c.val x) : Decides nonpositiveMod h c (x ≤ 0) := by
  apply Decides.of_reject (b := decide (0 < x)) (msg := "value is not nonpositive")
  · simp [nonpositiveMod, hx.isNumber, numLt_num isNum_zero hx]
  · simp [Rat.not_le]

/-- **C08**: `odd` on integers, negative ones included. -/
theorem odd_decides {n : Int} (hx : c.val = .int n) : Decides oddMod h c (∃ k, n = 2 * k + 1) := by
  apply Decides.of_reject (b := n.fmod 2 == 0) (msg := "value is not odd")
  · simp [oddMod, hx]
  · rw [beq_iff_eq, Int.fmod_eq_emod_of_nonneg _ (by decide)]
    constructor
    · rintro h ⟨k, rfl⟩; omega
    · intro h
      apply Classical.byContradiction
      intro h'
      exact h ⟨n / 2, by omega⟩
/-- **C08**: `even` on integers, negative ones included. -/
theorem even_decides {n : Int} (hx : c.val = .int n) : Decides evenMod h c (∃ k, n = 2 * k) := by
  apply Decides.of_reject (b := n.fmod 2 != 0) (msg := "value is not even")
  · simp [evenMod, hx]
  · rw [bne_iff_ne, Int.fmod_eq_emod_of_nonneg _ (by decide)]
    constructor
    · rintro h ⟨k, rfl⟩; omega
    · intro h h'
      exact h ⟨n / 2, by omega⟩

/-- The numeric validators. -/
inductive NumericValidator : Leaf → Prop
  | min (p : Param) : NumericValidator (minMod p)
  | max (p : Param) : NumericValidator (maxMod p)
  | gt (p : Param) : NumericValidator (gtMod p)
  | lt (p : Param) : NumericValidator (ltMod p)
  | positive : NumericValidator positiveMod
  | negative : NumericValidator negativeMod
  | nonnegative : NumericValidator nonnegativeMod
  | nonpositive : NumericValidator nonpositiveMod
  | odd : NumericValidator oddMod
  | even : NumericValidator evenMod

/-- Neither an int nor a float (a bool is neither). -/
def NotNumber (v : Val) : Prop := (∀ n, v ≠ .int n) ∧ ∀ f, v ≠ .flt f

theorem NotNumber.isNumber {v : Val} (h : NotNumber v) : v.isNumber = false := by
  cases v <;> first | rfl | exact absurd rfl (h.1 _) | exact absurd rfl (h.2 _)

/-- **C08**: a value that is not an int or float (None, a bool, a string, ...) is never
rejected by a numeric validator, whatever the bound. -/
theorem numeric_ignores_others {l : Leaf} (hl : NumericValidator l) (hn : NotNumber c.val) :
    l.validate h c = .ok () := by
  have hv := hn.isNumber
  cases hl <;>
    try simp [minMod, maxMod, gtMod, ltMod, positiveMod, negativeMod, nonnegativeMod, nonpositiveMod, hv]
  · cases hc : c.val <;> rw [hc] at hv <;> first | (simp [oddMod, hc]; done) | cases hv
  · cases hc : c.val <;> rw [hc] at hv <;> first | (simp [evenMod, hc]; done) | cases hv

/-- **C08**: nor by `range`, once both bounds are resolved. -/
theorem range_ignores_others {lo hi : Param} {a b : Val} (hn : NotNumber c.val) (hlo : lo h c = .ok a) (hhi : hi h c = .ok b) :
    (rangeMod lo hi).validate h c = .ok () := by
  have h1 : (minMod (.const a)).validate h c = .ok () := numeric_ignores_others (.min _) hn
  have h2 : (maxMod (.const b)).validate h c = .ok () := numeric_ignores_others (.max _) hn
  simp only [rangeMod, hlo, hhi]
  split
  · rfl
  · show ((minMod (.const a)).validate h c >>= fun _ => (maxMod (.const b)).validate h c) = .ok ()
    rw [h1]
    exact h2

example : (minMod (.const (.int 3))).validate (fun _ => {}) { val := .bool true } = .ok () :=
  numeric_ignores_others (.min _) ⟨fun _ h => (by cases h), fun _ h => (by cases h)⟩
example : (rangeMod (.const (.int 3)) (.const (.int 5))).validate (fun _ => {}) { val := .str "x" } = .ok () :=
  range_ignores_others ⟨fun _ h => (by cases h), fun _ h => (by cases h)⟩ rfl rfl

/-- **C08**: None is accepted by `range` too. -/
theorem range_none {lo hi : Param} (hv : c.val = .none) : (rangeMod lo hi).validate h c = .ok () := by
  simp [rangeMod, hv, Val.isNone]

/-- A finding: `nan` satisfies every numeric validator with a numeric bound. -/
theorem numeric_accepts_nan {l : Leaf} (hl : NumericValidator l) (hv : c.val = .flt .nan)
    (hp : ∀ p, (l = minMod p ∨ l = maxMod p ∨ l = gtMod p ∨ l = ltMod p) → ∃ bv f, p h c = .ok bv ∧ bv.flt? = some f) :
    l.validate h c = .ok () := by
  have e1 : ∀ bv f, bv.flt? = some f → numLt (.flt .nan) bv = .ok false := by
    intro bv f hf; simp only [numLt, numCmp, hf]; rfl
  have e2 : ∀ bv f, bv.flt? = some f → numLe (.flt .nan) bv = .ok false := by
    intro bv f hf; simp only [numLe, numCmp, hf]; rfl
  have e3 : ∀ bv f, bv.flt? = some f → numLt bv (.flt .nan) = .ok false := by
    intro bv f hf; simp only [numLt, numCmp, hf]; simp only [Val.flt?]; cases f <;> rfl
  have e4 : ∀ bv f, bv.flt? = some f → numLe bv (.flt .nan) = .ok false := by
    intro bv f hf; simp only [numLe, numCmp, hf]; simp only [Val.flt?]; cases f <;> rfl
  have z : (Val.int 0).flt? = some (.fin 0) := rfl
  cases hl with
  | min p => obtain ⟨bv, f, h1, h2⟩ := hp p (by simp); simp [minMod, hv, Val.isNumber, h1, e1 _ _ h2, rejectIf]
  | max p => obtain ⟨bv, f, h1, h2⟩ := hp p (by simp); simp [maxMod, hv, Val.isNumber, h1, e3 _ _ h2, rejectIf]
  | gt p => obtain ⟨bv, f, h1, h2⟩ := hp p (by simp); simp [gtMod, hv, Val.isNumber, h1, e2 _ _ h2, rejectIf]
  | lt p => obtain ⟨bv, f, h1, h2⟩ := hp p (by simp); simp [ltMod, hv, Val.isNumber, h1, e4 _ _ h2, rejectIf]
  | positive => simp [positiveMod, hv, Val.isNumber, e2 _ _ z, rejectIf]
  | negative => simp [negativeMod, hv, Val.isNumber, e4 _ _ z, rejectIf]
  | nonnegative => simp [nonnegativeMod, hv, Val.isNumber, e1 _ _ z, rejectIf]
  | nonpositive => simp [nonpositiveMod, hv, Val.isNumber, e3 _ _ z, rejectIf]
  | odd => simp [oddMod, hv]
  | even => simp [evenMod, hv]

/-- the hypotheses are satisfiable: a float value, an int bound, both outcomes -/
example : Decides (minMod (.const (.int 3))) (fun _ => {}) { val := .flt (.fin 3) } (((3 : Int) : Rat) ≤ 3) :=
  min_decides (.flt 3) rfl (.int 3)
example : (minMod (.const (.int 3))).validate (fun _ => {}) { val := .flt (.fin 3) } = .ok () :=
  (min_decides (.flt 3) rfl (.int 3)).1 (by decide)
example : ∃ m, (gtMod (.const (.int 3))).validate (fun _ => {}) { val := .int 3, fkeypathr := [.s "age"] } =
    .error (.validation [("age", m)]) :=
  (gt_decides (.int 3) rfl (.int 3)).2 (by decide)
example : oddMod.validate (fun _ => {}) { val := .int (-7) } = .ok () := (odd_decides rfl).1 ⟨-4, by decide⟩

/-! ### C10 -/

/-- The numeric transforms. -/
inductive NumericTransform : Leaf → Prop
  | lowerbond (p : Param) : NumericTransform (lowerbondMod p)
  | upperbond (p : Param) : NumericTransform (upperbondMod p)
  | abs : NumericTransform absMod
  | add (p : Param) : NumericTransform (addMod p)
  | sub (p : Param) : NumericTransform (subMod p)
  | mul (p : Param) : NumericTransform (mulMod p)
  | mod (p : Param) : NumericTransform (modMod p)
  | floor : NumericTransform floorMod
  | ceil : NumericTransform ceilMod
  | round : NumericTransform roundMod

/-- **C10**: a value that is not an int or float passes through a numeric transform as it is. -/
theorem numeric_transforms_ignore {l : Leaf} (hl : NumericTransform l) (hn : NotNumber c.val) : l.transform h c = .ok c.val := by
  have hv := hn.isNumber
  cases hl <;> try simp [lowerbondMod, upperbondMod, addMod, subMod, mulMod, modMod, intArith, hv]
  · cases hc : c.val <;> rw [hc] at hv <;> first | (simp [absMod, hc]; done) | cases hv
  · cases hc : c.val <;> rw [hc] at hv <;> first | (simp [floorMod, hc]; done) | cases hv
  · cases hc : c.val <;> rw [hc] at hv <;> first | (simp [ceilMod, hc]; done) | cases hv
  · cases hc : c.val <;> rw [hc] at hv <;> first | (simp [roundMod, hc]; done) | cases hv

example : (addMod (.const (.int 3))).transform (fun _ => {}) { val := .str "x" } = .ok (.str "x") :=
  numeric_transforms_ignore (.add _) ⟨fun _ h => (by cases h), fun _ h => (by cases h)⟩

/-- **C10**: `lowerbond` returns a number that is at least the bound, namely the larger of
value and bound; the value itself when it respects the bound. -/
theorem lowerbond_clamps (hx : IsNum c.val x) (hp : p h c = .ok bv) (hb : IsNum bv b) :
    ∃ v y, (lowerbondMod p).transform h c = .ok v ∧ IsNum v y ∧ b ≤ y ∧ x ≤ y ∧ (y = x ∨ y = b) ∧
      (b ≤ x → v = c.val) := by
  by_cases hlt : x < b
  · refine ⟨bv, b, ?_, hb, by grind, by grind, .inr rfl, by grind⟩
    simp [lowerbondMod, hx.isNumber, hp, numLt_num hx hb, hlt]
  · refine ⟨c.val, x, ?_, hx, by grind, by grind, .inl rfl, fun _ => rfl⟩
    simp [lowerbondMod, hx.isNumber, hp, numLt_num hx hb, hlt]

/-- **C10**: `upperbond`. -/
theorem upperbond_clamps (hx : IsNum c.val x) (hp : p h c = .ok bv) (hb : IsNum bv b) :
    ∃ v y, (upperbondMod p).transform h c = .ok v ∧ IsNum v y ∧ y ≤ b ∧ y ≤ x ∧ (y = x ∨ y = b) ∧
      (x ≤ b → v = c.val) := by
  by_cases hlt : b < x
  · refine ⟨bv, b, ?_, hb, by grind, by grind, .inr rfl, by grind⟩
    simp [upperbondMod, hx.isNumber, hp, numLt_num hb hx, hlt]
  · refine ⟨c.val, x, ?_, hx, by grind, by grind, .inl rfl, fun _ => rfl⟩
    simp [upperbondMod, hx.isNumber, hp, numLt_num hb hx, hlt]

/-- **C10**: clamping twice is clamping once (for a parameter that does not depend on the
value). -/
theorem lowerbond_idem {v : Val} (hx : IsNum c.val x) (hp : ∀ u, p h (c.nval u) = .ok bv) (hb : IsNum bv b)
    (hv : (lowerbondMod p).transform h c = .ok v) :
    (lowerbondMod p).transform h (c.nval v) = .ok v := by
  obtain ⟨v', y, h1, h2, h3, _, _, _⟩ := lowerbond_clamps hx (hp c.val) hb
  have hvv : v' = v := by
    have e : c.nval c.val = c := rfl
    rw [e] at *
    rw [h1] at hv; injection hv
  subst hvv
  obtain ⟨v'', z, g1, _, _, _, _, g6⟩ := lowerbond_clamps (c := c.nval v') (h := h) h2 (hp v') hb
  rw [g1, g6 h3]; rfl

theorem upperbond_idem {v : Val} (hx : IsNum c.val x) (hp : ∀ u, p h (c.nval u) = .ok bv) (hb : IsNum bv b)
    (hv : (upperbondMod p).transform h c = .ok v) :
    (upperbondMod p).transform h (c.nval v) = .ok v := by
  obtain ⟨v', y, h1, h2, h3, _, _, _⟩ := upperbond_clamps hx (hp c.val) hb
  have hvv : v' = v := by
    have e : c.nval c.val = c := rfl
    rw [e] at *
    rw [h1] at hv; injection hv
  subst hvv
  obtain ⟨v'', z, g1, _, _, _, _, g6⟩ := upperbond_clamps (c := c.nval v') (h := h) h2 (hp v') hb
  rw [g1, g6 h3]; rfl

/-- **C10**: `abs` returns the number without its sign. -/
theorem abs_spec (hx : IsNum c.val x) :
    ∃ v y, absMod.transform h c = .ok v ∧ IsNum v y ∧ 0 ≤ y ∧ (y = x ∨ y = -x) := by
  generalize hv : c.val = w at hx
  cases hx with
  | int n =>
    refine ⟨.int n.natAbs, _, by simp [absMod, hv], .int _, ?_, ?_⟩
    · exact_mod_cast Int.natCast_nonneg _
    · rcases Int.natAbs_eq n with h | h
      · left; rw [← h]
      · right; rw [← Rat.intCast_neg]; congr 1; omega
  | flt q =>
    refine ⟨_, _, by simp [absMod, hv, Flt.abs]; rfl, .flt _, ?_, ?_⟩
    · split <;> grind
    · split <;> grind

/-- **C10**: `abs` twice is `abs` once. -/
theorem abs_idem {v : Val} (hv : absMod.transform h c = .ok v) : absMod.transform h (c.nval v) = .ok v := by
  revert hv
  simp only [absMod, Ctx.nval]
  cases hc : c.val <;> intro hv <;> cases hv <;> simp
  next f =>
    cases f with
    | fin q =>
      simp only [Flt.abs]
      congr 1
      grind
    | _ => rfl

/-- **C10**: on integers `sub` undoes `add` and conversely. -/
theorem sub_add {n k : Int} (hx : c.val = .int n) (hp : ∀ u, p h (c.nval u) = .ok (.int k)) :
    ∃ v, (addMod p).transform h c = .ok v ∧ (subMod p).transform h (c.nval v) = .ok (.int n) := by
  have e : p h c = .ok (.int k) := hp c.val
  refine ⟨.int (k + n), by simp [addMod, intArith, hx, Val.isNumber, e], ?_⟩
  simp [subMod, intArith, Ctx.nval, Val.isNumber, show p h { c with val := .int (k + n) } = _ from hp _]
  omega
theorem add_sub {n k : Int} (hx : c.val = .int n) (hp : ∀ u, p h (c.nval u) = .ok (.int k)) :
    ∃ v, (subMod p).transform h c = .ok v ∧ (addMod p).transform h (c.nval v) = .ok (.int n) := by
  have e : p h c = .ok (.int k) := hp c.val
  refine ⟨.int (n - k), by simp [subMod, intArith, hx, Val.isNumber, e], ?_⟩
  simp [addMod, intArith, Ctx.nval, Val.isNumber, show p h { c with val := .int (n - k) } = _ from hp _]
  omega

/-- **C10**: `mod` by a positive integer lands in `[0, k)` and differs from the value by a
multiple of `k`. -/
theorem mod_spec {n k : Int} (hx : c.val = .int n) (hp : p h c = .ok (.int k)) (hk : 0 < k) :
    ∃ r : Int, (modMod p).transform h c = .ok (.int r) ∧ 0 ≤ r ∧ r < k ∧ ∃ q, n = k * q + r := by
  refine ⟨n.fmod k, ?_, Int.fmod_nonneg_of_pos _ hk, Int.fmod_lt_of_pos _ hk, n.fdiv k, ?_⟩
  · have : k ≠ 0 := by omega
    simp [modMod, intArith, hx, Val.isNumber, hp, this]
  · have := Int.fmod_add_mul_fdiv n k; omega

/-- **C10**: `inverse` is its own inverse, on every value. -/
theorem inverse_inverse {v : Val} (hv : inverseMod.transform h c = .ok v) :
    inverseMod.transform h (c.nval v) = .ok c.val := by
  revert hv
  simp only [inverseMod, Ctx.nval]
  cases hc : c.val <;> intro hv <;> cases hv <;> simp

example : (lowerbondMod (.const (.int 5))).transform (fun _ => {}) { val := .flt (.fin 2) } = .ok (.int 5) := by
  obtain ⟨v, y, h1, _, h3, _, _, _⟩ := lowerbond_clamps (c := { val := .flt (.fin 2) }) (h := fun _ => {})
    (p := .const (.int 5)) (.flt 2) rfl (.int 5)
  simp [lowerbondMod, Val.isNumber, Param.const, numLt, numCmp, Val.flt?, Flt.lt]
  decide
example : (modMod (.const (.int 5))).transform (fun _ => {}) { val := .int (-7) } = .ok (.int 3) := rfl

/-! ### C48 -/

/-- **C48**: `floor` is the largest integer not above the value, `ceil` the smallest not
below it; integers are unchanged. -/
theorem floor_spec (hx : IsNum c.val x) :
    ∃ n : Int, floorMod.transform h c = .ok (.int n) ∧ (n : Rat) ≤ x ∧ ∀ m : Int, (m : Rat) ≤ x → m ≤ n := by
  generalize hv : c.val = w at hx
  cases hx with
  | int n => exact ⟨n, by simp [floorMod, hv], Rat.le_refl, fun m hm => Rat.intCast_le_intCast.1 hm⟩
  | flt q =>
    exact ⟨x.floor, by simp [floorMod, hv, fltToInt], Rat.floor_le x, fun m hm => Rat.le_floor_iff.2 hm⟩
theorem ceil_spec (hx : IsNum c.val x) :
    ∃ n : Int, ceilMod.transform h c = .ok (.int n) ∧ x ≤ (n : Rat) ∧ ∀ m : Int, x ≤ (m : Rat) → n ≤ m := by
  generalize hv : c.val = w at hx
  cases hx with
  | int n => exact ⟨n, by simp [ceilMod, hv], Rat.le_refl, fun m hm => Rat.intCast_le_intCast.1 hm⟩
  | flt q =>
    exact ⟨x.ceil, by simp [ceilMod, hv, fltToInt], Rat.le_ceil, fun m hm => Rat.ceil_le_iff.2 hm⟩

/-- **C48**: `round` returns a nearest integer, and the even one of two nearest. -/
theorem round_spec (hx : IsNum c.val x) :
    ∃ n : Int, roundMod.transform h c = .ok (.int n) ∧ (n : Rat) - 1 / 2 ≤ x ∧ x ≤ n + 1 / 2 ∧
      ((x = n + 1 / 2 ∨ x = n - 1 / 2) → ∃ k, n = 2 * k) := by
  generalize hv : c.val = w at hx
  cases hx with
  | int n =>
    refine ⟨n, by simp [roundMod, hv], by grind, by grind, by grind⟩
  | flt =>
    refine ⟨roundHalfEven x, by simp [roundMod, hv, fltToInt], ?_⟩
    have h1 := Rat.floor_le x
    have h2 := Rat.lt_floor_add_one x
    rw [Rat.intCast_add] at h2
    simp only [Rat.intCast_one] at h2
    unfold roundHalfEven
    simp only
    split
    · exact ⟨by grind, by grind, by grind⟩
    · split
      · rw [Rat.intCast_add, Rat.intCast_one]; exact ⟨by grind, by grind, by grind⟩
      · split
        · exact ⟨by grind, by grind, fun _ => ⟨x.floor / 2, by omega⟩⟩
        · refine ⟨?_, ?_, fun _ => ⟨(x.floor + 1) / 2, by omega⟩⟩ <;>
            rw [Rat.intCast_add, Rat.intCast_one] <;> grind

/-- **C48**: an `int` field accepts exactly None and integers: booleans and floats with an
integer value are rejected. -/
theorem int_decides : Decides intMod h c (c.val = .none ∨ ∃ n, c.val = .int n) := by
  constructor
  · rintro (h | ⟨n, h⟩) <;> simp [intMod, h]
  · intro hn
    refine ⟨"value is not int", ?_⟩
    cases hc : c.val <;> simp [intMod, hc, Ctx.vexc, Ctx.sfkeypathr] <;> simp_all

/-- **C48**: a `bool` field accepts exactly None and booleans. -/
theorem bool_decides : Decides boolMod h c (c.val = .none ∨ ∃ n, c.val = .bool n) := by
  constructor
  · rintro (h | ⟨n, h⟩) <;> simp [boolMod, h]
  · intro hn
    refine ⟨"value is not bool", ?_⟩
    cases hc : c.val <;> simp [boolMod, hc, Ctx.vexc, Ctx.sfkeypathr] <;> simp_all

/-- **C48**: a `float` field turns an int into the float of the same value, and what it
returns for a number it also accepts. -/
theorem float_accepts_numbers (hx : IsNum c.val x) :
    ∃ v, floatMod.transform h c = .ok v ∧ IsNum v x ∧ v.isNone = false ∧ floatMod.validate h (c.nval v) = .ok () := by
  generalize hv : c.val = w at hx
  cases hx with
  | int n => exact ⟨.flt (.fin n), by simp [floatMod, hv], .flt _, rfl, by simp [floatMod, Ctx.nval]⟩
  | flt => exact ⟨.flt (.fin x), by simp [floatMod, hv], .flt _, rfl, by simp [floatMod, Ctx.nval]⟩

example : ∃ n : Int, roundMod.transform (fun _ => {}) { val := .flt (.fin (5 / 2)) } = .ok (.int n) ∧ ∃ k, n = 2 * k := by
  obtain ⟨n, h1, h2, h3, h4⟩ := round_spec (c := { val := .flt (.fin (5 / 2)) }) (h := fun _ => {}) (.flt (5 / 2))
  refine ⟨n, h1, h4 ?_⟩
  have h2' : (n : Rat) ≤ ((3 : Int) : Rat) := by
    have : ((3 : Int) : Rat) = 3 := rfl
    grind
  have h3' : ((2 : Int) : Rat) ≤ n := by
    have : ((2 : Int) : Rat) = 2 := rfl
    grind
  have := Rat.intCast_le_intCast.1 h2'
  have := Rat.intCast_le_intCast.1 h3'
  have : n = 2 ∨ n = 3 := by omega
  rcases this with rfl | rfl
  · left; have : ((2 : Int) : Rat) = 2 := rfl
    grind
  · right; have : ((3 : Int) : Rat) = 3 := rfl
    grind

end JC
