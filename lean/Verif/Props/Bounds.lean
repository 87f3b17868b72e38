import Verif.Props.Numbers

/-!
# C08: numeric bounds with the infinities

`Props/Numbers` has the bounds for finite numbers and NaN. Here value and bound are numbers
on the line with both ends added.
-/

namespace JC

/-- The number line with both ends. -/
inductive Line where
  | low | at (q : Rat) | high

/-- `a` lies strictly before `b`. -/
inductive Line.Before : Line → Line → Prop
  | low_at (q) : Line.Before .low (.at q)
  | low_high : Line.Before .low .high
  | at_at {q r : Rat} : q < r → Line.Before (.at q) (.at r)
  | at_high (q) : Line.Before (.at q) .high

/-- the value is this point of the line: an int, a float that is not NaN -/
inductive OnLine : Val → Line → Prop
  | int (n : Int) : OnLine (.int n) (.at n)
  | fin (q : Rat) : OnLine (.flt (.fin q)) (.at q)
  | pinf : OnLine (.flt .pinf) .high
  | ninf : OnLine (.flt .ninf) .low

theorem OnLine.isNumber {v : Val} {x : Line} (h : OnLine v x) : v.isNumber = true := by cases h <;> rfl

theorem numLt_line {a b : Val} {x y : Line} (ha : OnLine a x) (hb : OnLine b y) :
    ∃ r, numLt a b = .ok r ∧ (r = true ↔ x.Before y) := by
  obtain ⟨f, hf⟩ : ∃ f, a.flt? = some f := by cases ha <;> exact ⟨_, rfl⟩
  obtain ⟨g, hg⟩ : ∃ g, b.flt? = some g := by cases hb <;> exact ⟨_, rfl⟩
  refine ⟨Flt.lt f g, by simp only [numLt, numCmp, hf, hg], ?_⟩
  cases ha <;> cases hb <;> cases hf <;> cases hg <;> simp only [Flt.lt, decide_eq_true_eq] <;>
    first
    | exact ⟨(fun h => .at_at h), (fun h => by cases h; assumption)⟩
    | exact ⟨(fun _ => by constructor), (fun _ => by trivial)⟩
    | exact ⟨(fun h => by cases h), (fun h => by cases h)⟩

theorem numLe_line {a b : Val} {x y : Line} (ha : OnLine a x) (hb : OnLine b y) :
    ∃ r, numLe a b = .ok r ∧ (r = true ↔ ¬ y.Before x) := by
  obtain ⟨f, hf⟩ : ∃ f, a.flt? = some f := by cases ha <;> exact ⟨_, rfl⟩
  obtain ⟨g, hg⟩ : ∃ g, b.flt? = some g := by cases hb <;> exact ⟨_, rfl⟩
  refine ⟨Flt.le f g, by simp only [numLe, numCmp, hf, hg], ?_⟩
  cases ha <;> cases hb <;> cases hf <;> cases hg <;> simp only [Flt.le, decide_eq_true_eq] <;>
    first
    | exact ⟨(fun h h' => by cases h' with | at_at h' => exact Rat.not_lt.2 h h'), (fun h => Rat.not_lt.1 (fun h' => h (.at_at h')))⟩
    | exact ⟨(fun _ h => by cases h), (fun _ => by trivial)⟩
    | exact ⟨(fun h => by cases h), (fun h => absurd (by constructor) h)⟩

variable {h : Heap} {c : Ctx} {p : Param} {bv : Val} {x b : Line}

theorem Decides.of_less {l : Leaf} {a d : Val} {y z : Line} {msg : String} {P : Prop} (ha : OnLine a y) (hd : OnLine d z)
    (he : l.validate h c = (numLt a d >>= rejectIf c msg)) (hP : P ↔ ¬ y.Before z) : Decides l h c P := by
  obtain ⟨r, hr, hb⟩ := numLt_line ha hd
  refine Decides.of_reject (b := r) (msg := msg) (by rw [he, hr]; rfl) ?_
  rw [hb, hP, Classical.not_not]

theorem Decides.of_le {l : Leaf} {a d : Val} {y z : Line} {msg : String} {P : Prop} (ha : OnLine a y) (hd : OnLine d z)
    (he : l.validate h c = (numLe a d >>= rejectIf c msg)) (hP : P ↔ z.Before y) : Decides l h c P := by
  obtain ⟨r, hr, hb⟩ := numLe_line ha hd
  refine Decides.of_reject (b := r) (msg := msg) (by rw [he, hr]; rfl) ?_
  rw [hb, hP]

/-- **C08**: `min` / `gte` accept exactly what does not lie before the bound. -/
theorem min_decides_line (hx : OnLine c.val x) (hp : p h c = .ok bv) (hb : OnLine bv b) :
    Decides (minMod p) h c (¬ x.Before b) :=
  .of_less hx hb (by simp only [minMod, hx.isNumber, if_true, hp]; rfl) Iff.rfl

/-- **C08**: `max` / `lte`. -/
theorem max_decides_line (hx : OnLine c.val x) (hp : p h c = .ok bv) (hb : OnLine bv b) :
    Decides (maxMod p) h c (¬ b.Before x) :=
  .of_less hb hx (by simp only [maxMod, hx.isNumber, if_true, hp]; rfl) Iff.rfl

/-- **C08**: `gt`. -/
theorem gt_decides_line (hx : OnLine c.val x) (hp : p h c = .ok bv) (hb : OnLine bv b) :
    Decides (gtMod p) h c (b.Before x) :=
  .of_le hx hb (by simp only [gtMod, hx.isNumber, if_true, hp]; rfl) Iff.rfl

/-- **C08**: `lt`. -/
theorem lt_decides_line (hx : OnLine c.val x) (hp : p h c = .ok bv) (hb : OnLine bv b) :
    Decides (ltMod p) h c (x.Before b) :=
  .of_le hb hx (by simp only [ltMod, hx.isNumber, if_true, hp]; rfl) Iff.rfl

/-- **C08**: `positive`, `negative`, `nonnegative` and `nonpositive`. -/
theorem signs_decide_line (hx : OnLine c.val x) :
    Decides positiveMod h c (Line.Before (.at 0) x) ∧ Decides negativeMod h c (x.Before (.at 0)) ∧
    Decides nonnegativeMod h c (¬ x.Before (.at 0)) ∧ Decides nonpositiveMod h c (¬ Line.Before (.at 0) x) := by
  have z : OnLine (.int 0) (.at 0) := OnLine.int 0
  exact ⟨.of_le hx z (by simp only [positiveMod, hx.isNumber, if_true]; rfl) Iff.rfl,
    .of_le z hx (by simp only [negativeMod, hx.isNumber, if_true]; rfl) Iff.rfl,
    .of_less hx z (by simp only [nonnegativeMod, hx.isNumber, if_true]; rfl) Iff.rfl,
    .of_less z hx (by simp only [nonpositiveMod, hx.isNumber, if_true]; rfl) Iff.rfl⟩

/-- **C08**: `range`, both ends included. -/
theorem range_decides_line {lo hi : Param} {av : Val} {a : Line} (hx : OnLine c.val x)
    (hlo : lo h c = .ok av) (ha : OnLine av a) (hhi : hi h c = .ok bv) (hb : OnLine bv b) :
    Decides (rangeMod lo hi) h c (¬ x.Before a ∧ ¬ b.Before x) := by
  have hn : c.val.isNone = false := by cases hv : c.val <;> rw [hv] at hx <;> first | rfl | cases hx
  have hmin := min_decides_line (p := .const av) (h := h) hx rfl ha
  have hmax := max_decides_line (p := .const bv) (h := h) hx rfl hb
  have hr : (rangeMod lo hi).validate h c =
      (do (minMod (.const av)).validate h c; (maxMod (.const bv)).validate h c) := by
    simp [rangeMod, hn, hlo, hhi]
  constructor
  · rintro ⟨h1, h2⟩
    rw [hr, hmin.1 h1, hmax.1 h2]; rfl
  · intro hnot
    by_cases h1 : x.Before a
    · obtain ⟨m, hm⟩ := hmin.2 (fun hh => hh h1)
      exact ⟨m, by rw [hr, hm]; rfl⟩
    · obtain ⟨m, hm⟩ := hmax.2 (fun h2 => hnot ⟨h1, h2⟩)
      exact ⟨m, by rw [hr, hmin.1 h1, hm]; rfl⟩

/-- **C10**: `lowerbond` puts the bound for what lies before it, `upperbond` for what lies behind it,
and both leave everything else alone. -/
theorem bonds_clamp_line (hx : OnLine c.val x) (hp : p h c = .ok bv) (hb : OnLine bv b) :
    (x.Before b → (lowerbondMod p).transform h c = .ok bv) ∧ (¬ x.Before b → (lowerbondMod p).transform h c = .ok c.val) ∧
    (b.Before x → (upperbondMod p).transform h c = .ok bv) ∧ (¬ b.Before x → (upperbondMod p).transform h c = .ok c.val) := by
  obtain ⟨r, hr, hr'⟩ := numLt_line hx hb
  obtain ⟨q, hq, hq'⟩ := numLt_line hb hx
  have e1 : (lowerbondMod p).transform h c = .ok (if r = true then bv else c.val) := by
    simp [lowerbondMod, hx.isNumber, hp, hr]
  have e2 : (upperbondMod p).transform h c = .ok (if q = true then bv else c.val) := by
    simp [upperbondMod, hx.isNumber, hp, hq]
  rw [e1, e2, ← hr', ← hq']
  exact ⟨fun h => by rw [if_pos h], fun h => by rw [if_neg h], fun h => by rw [if_pos h], fun h => by rw [if_neg h]⟩

/-- minus infinity is raised to the bound, infinity is not -/
example : (lowerbondMod (.const (.int 3))).transform (fun _ => {}) { val := .flt .ninf } = .ok (.int 3) ∧
    (lowerbondMod (.const (.int 3))).transform (fun _ => {}) { val := .flt .pinf } = .ok (.flt .pinf) :=
  ⟨(bonds_clamp_line .ninf rfl (.int 3)).1 (.low_at _), (bonds_clamp_line .pinf rfl (.int 3)).2.1 (fun h => by cases h)⟩

/-- infinity is not less than infinity, a million is -/
example : (∃ m, (ltMod (.const (.flt .pinf))).validate (fun _ => {}) { val := .flt .pinf } = .error (.validation [("", m)])) ∧
    (ltMod (.const (.flt .pinf))).validate (fun _ => {}) { val := .int 1000000 } = .ok () :=
  ⟨(lt_decides_line .pinf rfl .pinf).2 (fun h => by cases h), (lt_decides_line (.int _) rfl .pinf).1 (.at_high _)⟩

end JC
