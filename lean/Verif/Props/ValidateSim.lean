import Verif.Props.Sim

/-
Relational lemmas for `InstanceOfModifier.validate`, and facts about the mark graph.
-/
namespace JC

/-! ### Objects inside values -/

mutual
/-- All objects occurring in a value, at any depth. -/
def Val.objs : Val → List Nat
  | .obj i => [i]
  | .list xs => objsL xs
  | .dict kvs => objsD kvs
  | _ => []
/-- all objects in a list of values -/
def objsL : List Val → List Nat
  | [] => []
  | x :: xs => x.objs ++ objsL xs
/-- all objects in the values of a dict -/
def objsD : List (String × Val) → List Nat
  | [] => []
  | (_, x) :: xs => x.objs ++ objsD xs
end

theorem mem_objsL {xs : List Val} {x : Val} (hx : x ∈ xs) {j : Nat} (hj : j ∈ x.objs) :
    j ∈ objsL xs := by
  induction xs with
  | nil => cases hx
  | cons y ys ih =>
    rcases List.mem_cons.1 hx with rfl | h
    · simp [objsL, hj]
    · simp [objsL, ih h]

theorem mem_objsD {xs : List (String × Val)} {x : Val} (hx : x ∈ xs.map Prod.snd) {j : Nat}
    (hj : j ∈ x.objs) : j ∈ objsD xs := by
  induction xs with
  | nil => cases hx
  | cons y ys ih =>
    obtain ⟨k, y⟩ := y
    simp only [List.map_cons] at hx
    rcases List.mem_cons.1 hx with rfl | h
    · simp [objsD, hj]
    · simp [objsD, ih h]

theorem objs_children {v x : Val} (hx : x ∈ v.children) {j : Nat} (hj : j ∈ x.objs) : j ∈ v.objs := by
  cases v with
  | list xs => exact mem_objsL hx hj
  | dict xs => exact mem_objsD hx hj
  | _ => cases hx

/-! ### Mark graph -/

theorem mLookup_cons_mono {k x l} (h : (mLookup k l).isSome) : (mLookup k (x :: l)).isSome := by
  obtain ⟨k', o⟩ := x
  simp only [mLookup]
  split
  · rfl
  · exact h

variable {env : Env}

theorem markGet_mono {w w' : World} (hh : w'.heap = w.heap)
    (hm : ∀ k, (mLookup k w.marks).isSome → (mLookup k w'.marks).isSome) {j : Nat}
    (h : (w.markGet env j).isSome) : (w'.markGet env j).isSome := by
  unfold World.markGet at h ⊢
  have hid : w'.id env j = w.id env j := by simp [World.id, World.cdef, World.attr, hh]
  rw [hid, hh]
  cases hv : w.id env j with
  | none => rw [hv] at h; exact hm _ h
  | _ =>
    rw [hv] at h
    simp only at h ⊢
    split at h
    · next o ho =>
      have := hm _ (by rw [ho]; rfl)
      split
      · rfl
      · next h2 => rw [h2] at this; cases this
    · split
      · rfl
      · exact hm _ h

theorem markPut_heap (w : World) (i : Nat) : (w.markPut env i).heap = w.heap := by
  unfold World.markPut; simp only; split <;> rfl

theorem markPut_mono (w : World) (i : Nat) (k) (h : (mLookup k w.marks).isSome) :
    (mLookup k (w.markPut env i).marks).isSome := by
  unfold World.markPut; simp only; split <;> exact mLookup_cons_mono h

theorem mLookup_head {k o l} : mLookup k ((k, o) :: l) = some o := by simp [mLookup]

theorem markGet_markPut_self (w : World) (i : Nat) : ((w.markPut env i).markGet env i).isSome := by
  have hid : (w.markPut env i).id env i = w.id env i := by
    simp [World.id, World.cdef, World.attr, markPut_heap]
  unfold World.markGet
  rw [hid, markPut_heap]
  unfold World.markPut
  cases hv : w.id env i <;> simp [mLookup_head]

theorem markGet_markPut_mono (w : World) (i j : Nat) (h : (w.markGet env j).isSome) :
    ((w.markPut env i).markGet env j).isSome :=
  markGet_mono (markPut_heap w i) (markPut_mono w i) h

@[simp] theorem visit_heap (w : World) (i : Nat) : (w.visit i).heap = w.heap := rfl
@[simp] theorem visit_marks (w : World) (i : Nat) : (w.visit i).marks = w.marks := rfl

theorem markGet_visit (w : World) (i j : Nat) : (w.visit i).markGet env j = w.markGet env j := rfl

theorem visit_markPut_heap (w : World) (i : Nat) : ((w.markPut env i).visit i).heap = w.heap :=
  markPut_heap w i

/-! ### Simulation of the field loop -/

variable {K : World → World → Prop} {bad : Exc → Prop}

/-- Reading a field in two related states. -/
def GetAgree (env : Env) (bad : Exc → Prop) (skip : Bool) (w₁ w₂ : World) (i : Nat) (n : String) : Prop :=
  (∃ v, w₁.getattr env i n = .ok v ∧ w₂.getattr env i n = .ok v) ∨
  (∃ e, w₁.getattr env i n = .error e ∧ w₂.getattr env i n = .error e ∧ ¬ bad e) ∨
  (skip = true ∧ ∃ v₁ v₂, w₁.getattr env i n = .ok v₁ ∧ w₂.getattr env i n = .ok v₂)

theorem sim_validateFields {ops₁ ops₂ : Field → Ops World} {c : Ctx} {i : Nat}
    {only : Option (List String)} {all : Bool} {fs : List Field}
    (hget : ∀ f ∈ fs, ∀ w₁ w₂, K w₁ w₂ → GetAgree env bad (skipField f only) w₁ w₂ i f.name)
    (hops : ∀ f ∈ fs, skipField f only = false → ∀ w₁ w₂ v, K w₁ w₂ →
      w₁.getattr env i f.name = .ok v →
      Sim K bad (validateField env ops₁ c i f v) (validateField env ops₂ c i f v)) (acc) :
    Sim K bad (validateFields env ops₁ c i only all fs acc)
      (validateFields env ops₂ c i only all fs acc) := by
  induction fs generalizing acc with
  | nil => exact Sim.pure acc
  | cons f fs ih =>
    have ih := fun acc => ih (fun m' hm' => hget m' (by simp [hm']))
      (fun m' hm' => hops m' (by simp [hm'])) acc
    intro w₁ w₂ hk
    simp only [validateFields]
    rcases hget f (by simp) w₁ w₂ hk with ⟨v, h1, h2⟩ | ⟨e, h1, h2, hb⟩ | ⟨hs, v₁, v₂, h1, h2⟩
    · rw [h1, h2]
      simp only
      by_cases hs : skipField f only = true
      · rw [hs]; exact ih acc w₁ w₂ hk
      · have hs : skipField f only = false := by simpa using hs
        rw [hs]
        have h' := hops f (by simp) hs w₁ w₂ v hk h1 w₁ w₂ hk
        rcases e1 : validateField env ops₁ c i f v w₁ with ⟨r₁, w₁'⟩
        rcases e2 : validateField env ops₂ c i f v w₂ with ⟨r₂, w₂'⟩
        rw [e1, e2] at h'
        obtain ⟨heq, hb, hk'⟩ := h'
        simp only at heq hb hk'
        subst heq
        cases r₁ with
        | ok a => exact ih acc w₁' w₂' hk'
        | error e =>
          cases e with
          | validation msgs =>
            simp only
            cases all with
            | true => exact ih _ w₁' w₂' hk'
            | false => exact ⟨rfl, fun e' he' => hb e' (by simpa using he'), hk'⟩
          | _ => exact ⟨rfl, fun e' he' => hb e' (by simpa using he'), hk'⟩
    · rw [h1, h2]
      exact ⟨rfl, fun e' he' => (by cases he'; exact hb), hk⟩
    · rw [h1, h2, hs]
      exact ih acc w₁ w₂ hk

theorem sim_validateField {ops₁ ops₂ : Field → Ops World} {c : Ctx} {i : Nat} {f : Field} {v : Val}
    (hcls : ∀ w₁ w₂, K w₁ w₂ → ∀ j, (w₁.heap j).cls = (w₂.heap j).cls)
    (hattr : ¬ bad .attributeError)
    (h : ∀ w ek, (∃ w', K w w' ∧ c.ekey env w f.name = .ok ek) → Sim K bad
      ((ops₁ f).validate (if f.ftype = .inst then c.nexto v f.name ek ((w.heap i).cls, f.name)
        else c.nextvo v f.name ek ((w.heap i).cls, f.name) (c.original.getD i)))
      ((ops₂ f).validate (if f.ftype = .inst then c.nexto v f.name ek ((w.heap i).cls, f.name)
        else c.nextvo v f.name ek ((w.heap i).cls, f.name) (c.original.getD i)))) :
    Sim K bad (validateField env ops₁ c i f v) (validateField env ops₂ c i f v) := by
  intro w₁ w₂ hk
  have hek : c.ekey env w₁ f.name = c.ekey env w₂ f.name := by
    unfold Ctx.ekey World.cdef
    cases c.owner with
    | none => rfl
    | some o => simp only [hcls w₁ w₂ hk o]
  simp only [validateField, Py.bind_run, Py.get_run, readW]
  rw [← hek]
  cases he : c.ekey env w₁ f.name with
  | error e =>
    refine ⟨rfl, fun e' he' => ?_, hk⟩
    cases he'
    unfold Ctx.ekey at he
    cases ho : c.owner with
    | none => rw [ho] at he; cases he; exact hattr
    | some o => rw [ho] at he; cases he
  | ok ek =>
    simp only
    rw [← hcls w₁ w₂ hk i]
    exact h w₁ ek ⟨w₂, hk, he⟩ w₁ w₂ hk

end JC

namespace JC
variable {env : Env} {K K' : World → World → Prop} {bad : Exc → Prop}

theorem sim_instBody {ops₁ ops₂ : Field → Ops World} {cls : String} {c : Ctx} {i : Nat}
    (hv : ∀ msgs, ¬ bad (.validation msgs))
    (hmeta : ∀ w₁ w₂, K w₁ w₂ → (w₁.heap i).cls = (w₂.heap i).cls ∧
      onlyModified (w₁.heap i) = onlyModified (w₂.heap i))
    (hf : ∀ w₁ w₂, K w₁ w₂ → Sim K bad
      (validateFields env ops₁ c i (onlyModified (w₁.heap i))
        (c.cfg.allFields.getD (env.cls cls).validateAllFields) (w₁.cdef env i).fields [])
      (validateFields env ops₂ c i (onlyModified (w₁.heap i))
        (c.cfg.allFields.getD (env.cls cls).validateAllFields) (w₁.cdef env i).fields [])) :
    Sim K bad (instValidateBody env ops₁ cls c i) (instValidateBody env ops₂ cls c i) := by
  intro w₁ w₂ hk
  have h := Sim.bind (hf w₁ w₂ hk) (fun a => Sim.raiseMsgs hv a) w₁ w₂ hk
  have hm := hmeta w₁ w₂ hk
  have e2 : instValidateBody env ops₂ cls c i w₂ =
      (validateFields env ops₂ c i (onlyModified (w₁.heap i))
        (c.cfg.allFields.getD (env.cls cls).validateAllFields) (w₁.cdef env i).fields [] >>=
        fun a => raiseMsgs a) w₂ := by
    show _ = _
    rw [hm.2]
    have : w₁.cdef env i = w₂.cdef env i := by unfold World.cdef; rw [hm.1]
    rw [this]
    rfl
  rw [e2]
  exact h

theorem sim_instValidate {ops₁ ops₂ : Field → Ops World} {cls : String} {c : Ctx}
    (hv : ∀ msgs, ¬ bad (.validation msgs)) (ha : ¬ bad .attributeError)
    (hmark : ∀ w₁ w₂ i, c.val = .obj i → K w₁ w₂ →
      (w₁.markGet env i).isSome = (w₂.markGet env i).isSome)
    (hput : ∀ w₁ w₂ i, c.val = .obj i → K w₁ w₂ → (w₁.markGet env i).isSome = false →
      K' ((w₁.markPut env i).visit i) ((w₂.markPut env i).visit i))
    (hback : ∀ w₁ w₂, K' w₁ w₂ → K w₁ w₂)
    (hcls : ∀ w₁ w₂, K' w₁ w₂ → ∀ j, (w₁.heap j).cls = (w₂.heap j).cls)
    (hbody : ∀ i, c.val = .obj i → (∃ w₁ w₂, K w₁ w₂ ∧ (w₁.markGet env i).isSome = false) →
      Sim K' bad (instValidateBody env ops₁ cls c i) (instValidateBody env ops₂ cls c i)) :
    Sim K bad (instValidate env ops₁ cls c) (instValidate env ops₂ cls c) := by
  unfold instValidate
  split
  · exact Sim.pure ()
  · next i hval =>
    intro w₁ w₂ hk
    simp only
    rw [← hmark w₁ w₂ i hval hk]
    by_cases hm : (w₁.markGet env i).isSome = true
    · rw [if_pos hm, if_pos hm]
      exact ⟨rfl, (by intro e he; cases he), hk⟩
    · rw [if_neg hm, if_neg hm]
      have hm : (w₁.markGet env i).isSome = false := by simpa using hm
      have hk' := hput w₁ w₂ i hval hk hm
      rw [← hcls _ _ hk' i]
      split
      · have := hbody i hval ⟨w₁, w₂, hk, hm⟩ _ _ hk'
        exact ⟨this.1, this.2.1, hback _ _ this.2.2⟩
      · exact ⟨rfl, (by intro e he; cases he; exact hv _), hback _ _ hk'⟩
  · exact Sim.raise ha

end JC
