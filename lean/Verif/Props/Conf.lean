import Verif.Model.Conf

/-
C45: configuration defaults.
-/
namespace JC

/-! ### Specification -/

/-- what a strategy argument means when it is given -/
def StratArg.meaning : StratArg → Option Strategy
  | .absent => none
  | .fn u => some (.fn u)
  | .builtin s => some s
  | .named "camelize" => some .camelize
  | .named "underscore" => some .underscore
  | .named _ => some .identical

/-- the documented built-in defaults of the switches -/
def builtinFlag : BoolOpt → Bool
  | .strictInput => true
  | .validateAllFields | .abstract | .resetAllFields | .outputNull => false

/-- the graph a class belongs to -/
def graphOf (a : ConfArgs) : String := match a.cgraph with
  | some "" => "default"
  | some s => s
  | none => "default"

theorem figureOut_meaning (s : StratArg) : figureOut s = s.meaning := by
  cases s with
  | absent => rfl
  | fn u => rfl
  | builtin s => rfl
  | named s =>
    unfold figureOut StratArg.meaning
    by_cases h1 : s = "underscore"
    · subst h1; rfl
    · by_cases h2 : s = "camelize"
      · subst h2; rfl
      · simp [h1, h2]

/-- **C45**: every option of a class has the value given for it, `False` included, and the
built-in default when none was given. -/
theorem conf_values (a : ConfArgs) :
    (Conf.make a).outputKeyStrategy = .ok (a.output.meaning.getD .camelize) ∧
    (Conf.make a).inputKeyStrategy = .ok (a.input.meaning.getD .underscore) ∧
    (Conf.make a).refNameStrategy = .ok (a.refName.getD .referenceKey) ∧
    (∀ o, (Conf.make a).boolOpt o = .ok ((a.flag o).getD (builtinFlag o))) ∧
    (Conf.make a).cgraph = graphOf a := by
  refine ⟨?_, ?_, ?_, ?_, ?_⟩
  · simp only [Conf.outputKeyStrategy, confProp, Conf.make, defaultConf, figureOut_meaning]
    cases a.output.meaning <;> rfl
  · simp only [Conf.inputKeyStrategy, confProp, Conf.make, defaultConf, figureOut_meaning]
    cases a.input.meaning <;> rfl
  · simp only [Conf.refNameStrategy, confProp, Conf.make, defaultConf]
    cases a.refName <;> rfl
  · intro o
    simp only [Conf.boolOpt, confProp, Conf.make, defaultConf]
    cases a.flag o <;> cases o <;> rfl
  · simp only [Conf.make, confGraph, graphOf]
    split
    · rename_i h; rw [h]
    · rename_i s h
      rw [h]
      split
      · rename_i hs; subst hs; rfl
      · rename_i hs
        split
        · rename_i h'; cases h'; exact absurd rfl hs
        · rename_i h'; cases h'; rfl
        · rename_i h'; cases h'

/-- **C45**: callbacks and guards are what was given, in order; a single one is a list of
one. -/
theorem conf_hooks (a : ConfArgs) (h : HookName) :
    (∀ u, a.hook h = .one u → (Conf.make a).hooks h = [u]) ∧
    (∀ us, a.hook h = .many us → (Conf.make a).hooks h = us) ∧
    (a.hook h = .absent → (Conf.make a).hooks h = []) := by
  refine ⟨?_, ?_, ?_⟩ <;> intros <;> simp_all [Conf.hooks, Conf.make, hookList]

/-- **C45**: the decorator passes its arguments on unless `camelize_json_keys=False`, which
makes both key strategies the identity. -/
theorem decorator_values (ck : Option Bool) (a : ConfArgs) :
    (ck ≠ some false → (decoratorConf ck a).outputKeyStrategy = .ok (a.output.meaning.getD .camelize) ∧
      (decoratorConf ck a).inputKeyStrategy = .ok (a.input.meaning.getD .underscore)) ∧
    (ck = some false → (decoratorConf ck a).outputKeyStrategy = .ok .identical ∧ (decoratorConf ck a).inputKeyStrategy = .ok .identical) ∧
    (∀ o, (decoratorConf ck a).boolOpt o = .ok ((a.flag o).getD (builtinFlag o))) ∧
    (decoratorConf ck a).refNameStrategy = .ok (a.refName.getD .referenceKey) ∧
    (decoratorConf ck a).cgraph = graphOf a := by
  unfold decoratorConf
  by_cases h : ck = some false
  · rw [if_pos h]
    obtain ⟨h1, h2, h3, h4, h5⟩ := conf_values { a with output := .builtin .identical, input := .builtin .identical }
    exact ⟨fun hn => absurd h hn, fun _ => ⟨h1, h2⟩, h4, h3, h5⟩
  · rw [if_neg h]
    obtain ⟨h1, h2, h3, h4, h5⟩ := conf_values a
    exact ⟨fun _ => ⟨h1, h2⟩, fun hn => absurd hn h, h4, h3, h5⟩

/-- **Finding** (negation of C45 for the decorator): an explicit key strategy loses against
`camelize_json_keys=False`. -/
theorem decorator_explicit_loses :
    ¬ ∀ (ck : Option Bool) (a : ConfArgs) (s : Strategy), a.output.meaning = some s → (decoratorConf ck a).outputKeyStrategy = .ok s := by
  intro h
  have := h (some false) { output := .named "camelize" } .camelize rfl
  rw [((decorator_values (some false) _).2.1 rfl).1] at this
  cases this

/-- **Finding**: the empty string as graph name does not count as explicit. -/
theorem conf_empty_graph : (Conf.make { cgraph := some "" }).cgraph = "default" := rfl

/-- a `False` given explicitly wins over the default `True` -/
example : (Conf.make { flag := fun _ => some false }).boolOpt .strictInput = .ok false := rfl

end JC
