import Verif.Model.Partial
import Verif.Props.Symmetry

/-
C76: partial objects: `pick`, `omit`, `complete`.
-/
namespace JC
variable {env : Env}

/-- The class has no field and no reference ids with this name. -/
def Unused (cd : ClassDef) (n : String) : Prop := ∀ f ∈ cd.fields, f.name ≠ n ∧ f.refName ≠ n

theorem Unused.field {cd : ClassDef} {n : String} (h : Unused cd n) : cd.field? n = none := by
  unfold ClassDef.field?
  rw [List.find?_eq_none]
  intro f hf
  simpa using (h f hf).1

theorem Unused.key {cd : ClassDef} {n : String} (h : Unused cd n) : cd.localKey? n = none := by
  unfold ClassDef.localKey?
  rw [List.find?_eq_none]
  intro f hf
  simp [(h f hf).2]

theorem setPublic_refuses {i : Nat} {n : String} {v : Val} {w : World} (hn : n ∈ readOnlyProps) (hu : Unused (w.cdef env i) n) :
    setPublic env i n v w = (.error .attributeError, w) := by
  have hn' : readOnlyProps.contains n = true := by simpa using hn
  show (Py.get >>= _) w = _
  rw [Py.bind_run, Py.get_run]
  simp only [hn', hu.field, hu.key, Option.isNone_none, Bool.and_self, if_true]
  rfl

/-- **C76 is violated by `pick`**: it raises an AttributeError for every object and every list of
names, and changes nothing. -/
theorem pick_raises {i : Nat} {w : World} (hu : Unused (w.cdef env i) "is_partial") (picks : List String) :
    pickFields env i picks w = (.error .attributeError, w) := by
  unfold pickFields
  rw [Py.bind_run, setPublic_refuses (by decide) hu]

/-- **C76 is violated by `omit`**: the same. -/
theorem omit_raises {i : Nat} {w : World} (hu : Unused (w.cdef env i) "is_partial") (omits : List String) :
    omitFields env i omits w = (.error .attributeError, w) := by
  unfold omitFields
  rw [Py.bind_run, setPublic_refuses (by decide) hu]

/-- **C76**: a completed `complete` leaves what the object reports about its modifications as it was,
whatever the ORM assigned, and everything else as the ORM left it. -/
theorem complete_keeps_report {fetch : Nat → Py PState Unit} {i : Nat} {s s' : PState} (h : completeObj fetch i s = (.ok (), s')) :
    ((s'.w.heap i).isModified = (s.w.heap i).isModified ∧ (s'.w.heap i).modFields = (s.w.heap i).modFields) ∧
    ((s.w.heap i).picks = none → s' = s) ∧
    ((s.w.heap i).picks ≠ none → ∃ s₁, fetch i s = (.ok (), s₁) ∧ (∀ j, j ≠ i → s'.w.heap j = s₁.w.heap j) ∧
      (s'.w.heap i).attrs = (s₁.w.heap i).attrs ∧ (s'.w.heap i).isNew = (s₁.w.heap i).isNew ∧ (s'.w.heap i).picks = (s₁.w.heap i).picks ∧
      (s'.w.heap i).prev = (s₁.w.heap i).prev) := by
  unfold completeObj at h
  split at h
  · rename_i hp
    rcases hf : fetch i s with ⟨e | u, s₁⟩
    · rw [hf] at h; cases h
    · rw [hf] at h
      simp only [Prod.mk.injEq, true_and] at h
      subst h
      refine ⟨⟨by simp [updObj, World.upd], by simp [updObj, World.upd]⟩, (fun h => by rw [h] at hp; cases hp), (fun _ => ⟨s₁, rfl, ?_⟩)⟩
      refine ⟨fun j hj => by simp [updObj, World.upd, hj], ?_⟩
      simp [updObj, World.upd]
  · rename_i hp
    cases h
    refine ⟨⟨rfl, rfl⟩, fun _ => rfl, fun h => ?_⟩
    exfalso
    apply hp
    cases hq : (s.w.heap i).picks with
    | none => exact absurd hq h
    | some _ => rfl

/-- **C76 is violated by `complete`**: after it, giving any field that is no relation a new value
raises an AttributeError; the value is not stored, and the object says it is modified. -/
theorem completed_assign_raises {fetch : Nat → Py PState Unit} {i : Nat} {s s' : PState} (hp : (s.w.heap i).picks ≠ none)
    (h : completeObj fetch i s = (.ok (), s')) (hn : (s'.w.heap i).isNew = false) {f : Field} {n : String}
    (hf : (s'.w.cdef env i).field? n = some f) (hs : f.store ≠ .calculated) {v : Val} (hv : pyEq v ((s'.w.heap i).attrs n) = false) :
    ∃ s'', assignPlain env i n v s' = (.error .attributeError, s'') ∧ (s''.w.heap i).attrs = (s'.w.heap i).attrs ∧
      (s''.w.heap i).modFields = (s'.w.heap i).modFields ∧ (s''.w.heap i).isModified = true := by
  have hl : s'.listed i = true := by
    unfold completeObj at h
    split at h
    · rcases hf : fetch i s with ⟨e | u, s₁⟩
      · rw [hf] at h; cases h
      · rw [hf] at h
        simp only [Prod.mk.injEq, true_and] at h
        subst h
        simp
    · rename_i hq
      exfalso
      apply hq
      cases hq : (s.w.heap i).picks with
      | none => exact absurd hq hp
      | some _ => rfl
  have hv' : pyEq v (s'.w.attr i n) = false := hv
  unfold assignPlain
  rw [hf]
  simp only [hl, hn, hv', Bool.not_false, Bool.true_and, Bool.and_true, bne_iff_ne, ne_eq, hs, not_false_eq_true, if_true]
  exact ⟨_, rfl, by simp [updObj, World.upd], by simp [updObj, World.upd], by simp [updObj, World.upd]⟩

/-- Without `complete`, an assignment is recorded and stored as usual. -/
theorem assign_as_usual {i : Nat} {s : PState} (hl : s.listed i = false) (n : String) (v : Val) :
    assignPlain env i n v s = ((setAttr env i n v s.w).1, { s with w := (setAttr env i n v s.w).2 }) := by
  unfold assignPlain liftP
  cases (s.w.cdef env i).field? n with
  | none => rfl
  | some f => simp [hl]

/-- Nor does `complete` matter to an object that is new. -/
theorem assign_new_as_usual {i : Nat} {s : PState} (hn : (s.w.heap i).isNew = true) (n : String) (v : Val) :
    assignPlain env i n v s = ((setAttr env i n v s.w).1, { s with w := (setAttr env i n v s.w).2 }) := by
  unfold assignPlain liftP
  cases (s.w.cdef env i).field? n with
  | none => rfl
  | some f => simp [hn]

end JC

namespace JC.PartialDemo

def fName : Field := { name := "name", jsonName := "name", chain := [.leaf {}] }
def fCity : Field := { name := "city", jsonName := "city", chain := [.leaf {}] }
def env : Env := { cls := fun _ => { name := "User", fields := [fName, fCity] } }

/-- A persisted user of whom only the name was fetched, and the name was changed. -/
def start : PState := { w := { heap := fun _ => { cls := "User", isNew := false, isModified := true, modFields := ["name"], picks := some ["name"],
                                                  attrs := fun n => if n = "name" then .str "n" else .none } } }
/-- The ORM fetches the city. -/
def fetch (i : Nat) : Py PState Unit := assignPlain env i "city" (.str "Rome")

def text : Val → String
  | .str t => t
  | _ => "?"

def after : PState := (completeObj fetch 0 start).2

theorem completed : completeObj fetch 0 start = (.ok (), after) := rfl

/-- The city is there, and is not reported as modified. -/
example : text ((after.w.heap 0).attrs "city") = "Rome" ∧ (after.w.heap 0).modFields = ["name"] :=
  ⟨by decide +kernel, (complete_keeps_report completed).1.2⟩

/-- Then the user moves: an AttributeError. -/
example : ∃ s, assignPlain env 0 "city" (.str "Oslo") after = (.error .attributeError, s) := by
  obtain ⟨s, h, -⟩ := completed_assign_raises (env := env) (f := fCity) (n := "city") (v := .str "Oslo") (by decide) completed rfl rfl (by decide) (by decide +kernel)
  exact ⟨s, h⟩

example : pickFields env 0 ["name"] start.w = (.error .attributeError, start.w) :=
  pick_raises (by
    intro f hf
    have : f = fName ∨ f = fCity := by simpa [env, World.cdef] using hf
    rcases this with rfl | rfl <;> decide) _

end JC.PartialDemo
