import Verif.Props.Validate

/-
C21: validate() of persisted objects does not depend on their unmodified embedded fields.
-/
namespace JC

/-- Field names are distinct within a class (a Python class body is a dict). -/
def DistinctNames (env : Env) : Prop :=
  ∀ cls, ∀ f ∈ (env.cls cls).fields, (env.cls cls).field? f.name = some f

/-- `n` is an embedded field of the persisted object `o`, not its primary key, and no
modification is recorded for it (`modified_fields` contains no key path starting with it). -/
def UnmodifiedEmbedded (env : Env) (o : Obj) (n : String) : Prop :=
  o.isNew = false ∧ (∃ f, (env.cls o.cls).field? n = some f ∧ f.store = .embedded) ∧
    n ∉ initialKeypaths o.modFields ∧ (env.cls o.cls).primary ≠ some n

/-- The heaps agree on everything except the values of unmodified embedded fields of
persisted objects. -/
def AgreeOnModified (env : Env) (h₁ h₂ : Heap) : Prop :=
  ∀ i, h₂ i = { h₁ i with attrs := (h₂ i).attrs } ∧
    ∀ n, ¬ UnmodifiedEmbedded env (h₁ i) n → (h₂ i).attrs n = (h₁ i).attrs n

/-- Validators and getters that do not themselves read unmodified embedded fields
(`presentwith`, `compare` and user code could). -/
structure UserCodeIgnoresUnmodified (env : Env) : Prop where
  leaf : ∀ cls, ∀ f ∈ (env.cls cls).fields, Mod.AllL (fun l => ∀ h₁ h₂ c,
    AgreeOnModified env h₁ h₂ → l.validate h₁ c = l.validate h₂ c) (fun _ => True) f.chain
  getter : ∀ cls, ∀ f ∈ (env.cls cls).fields, ∀ h₁ h₂ i,
    AgreeOnModified env h₁ h₂ → f.getter h₁ i = f.getter h₂ i

variable {env : Env}

/-- Relation kept by the two runs: the heaps are fixed, the mark graphs are equal. -/
def KMod (H₁ H₂ : Heap) (w₁ w₂ : World) : Prop :=
  w₁.marks = w₂.marks ∧ w₁.heap = H₁ ∧ w₂.heap = H₂

theorem AgreeOnModified.cls {h₁ h₂ : Heap} (h : AgreeOnModified env h₁ h₂) (i : Nat) :
    (h₁ i).cls = (h₂ i).cls := by rw [(h i).1]

theorem AgreeOnModified.only {h₁ h₂ : Heap} (h : AgreeOnModified env h₁ h₂) (i : Nat) :
    onlyModified (h₁ i) = onlyModified (h₂ i) := by rw [(h i).1]; rfl

theorem AgreeOnModified.id {w₁ w₂ : World} (h : AgreeOnModified env w₁.heap w₂.heap) (i : Nat) :
    w₁.id env i = w₂.id env i := by
  unfold World.id World.cdef World.attr
  rw [h.cls i]
  split
  · next n hn =>
    rw [(h i).2 n]
    intro hu
    rw [← h.cls i] at hn
    exact hu.2.2.2 hn
  · rfl

variable {H₁ H₂ : Heap}

theorem KMod.agree {w₁ w₂ : World} (hA : AgreeOnModified env H₁ H₂) (h : KMod H₁ H₂ w₁ w₂) :
    AgreeOnModified env w₁.heap w₂.heap := by rw [h.2.1, h.2.2]; exact hA

theorem KMod.markGet {w₁ w₂ : World} (hA : AgreeOnModified env H₁ H₂) (h : KMod H₁ H₂ w₁ w₂) (i : Nat) :
    w₁.markGet env i = w₂.markGet env i := by
  unfold World.markGet
  rw [h.1, (h.agree hA).cls i, (h.agree hA).id i]

theorem KMod.put {w₁ w₂ : World} (hA : AgreeOnModified env H₁ H₂) (h : KMod H₁ H₂ w₁ w₂) (i : Nat) :
    KMod H₁ H₂ ((w₁.markPut env i).visit i) ((w₂.markPut env i).visit i) := by
  refine ⟨?_, ?_, ?_⟩
  · rw [visit_marks, visit_marks]
    unfold World.markPut
    simp only
    rw [(h.agree hA).id i, (h.agree hA).cls i]
    split <;> simp [h.1]
  · rw [visit_heap, markPut_heap]; exact h.2.1
  · rw [visit_heap, markPut_heap]; exact h.2.2

theorem getAgree_mod (hn : DistinctNames env) (hu : UserCodeIgnoresUnmodified env)
    {w₁ w₂ : World} (hA : AgreeOnModified env w₁.heap w₂.heap) {i : Nat} {f : Field}
    (hf : f ∈ (w₁.cdef env i).fields) :
    GetAgree env (fun _ => False) (skipField f (onlyModified (w₁.heap i))) w₁ w₂ i f.name := by
  have hcd : w₂.cdef env i = w₁.cdef env i := by unfold World.cdef; rw [hA.cls i]
  have hf? : (w₁.cdef env i).field? f.name = some f := hn _ f hf
  unfold GetAgree World.getattr
  rw [hcd, hf?]
  simp only
  by_cases hc : f.store = .calculated
  · simp only [hc, if_true]
    have := hu.getter _ f hf w₁.heap w₂.heap i hA
    rw [← this]
    cases hg : f.getter w₁.heap i with
    | ok v => exact .inl ⟨v, rfl, rfl⟩
    | error e => exact .inr (.inl ⟨e, rfl, rfl, fun h => h⟩)
  · simp only [hc, if_false]
    by_cases hU : UnmodifiedEmbedded env (w₁.heap i) f.name
    · refine .inr (.inr ⟨?_, _, _, rfl, rfl⟩)
      obtain ⟨h1, ⟨f', hf', hs⟩, h3, _⟩ := hU
      have hff : f = f' := by
        have := hf?.symm.trans hf'
        simpa using this
      rw [← hff] at hs
      simp only [onlyModified, h1, skipField, hs]
      simpa using h3
    · exact .inl ⟨_, rfl, by rw [World.attr, (hA i).2 _ hU]; rfl⟩

theorem validate_mod_sim (hn : DistinctNames env) (hu : UserCodeIgnoresUnmodified env)
    (hA : AgreeOnModified env H₁ H₂) (n : Nat) :
    ∀ cls st (c : Ctx), Sim (KMod H₁ H₂) (fun _ => False) ((instOps env n cls st).validate c)
      ((instOps env n cls st).validate c) := by
  induction n with
  | zero => intro cls st c; exact Sim.raise (by simp)
  | succ n ih =>
    intro cls st c
    simp only [instOps]
    refine sim_instValidate (K' := KMod H₁ H₂) (by simp) (by simp) ?_ ?_ (fun _ _ h => h) ?_ ?_
    · intro w₁ w₂ i _ hk; rw [hk.markGet hA]
    · intro w₁ w₂ i _ hk _; exact hk.put hA i
    · intro w₁ w₂ hk j; exact (hk.agree hA).cls j
    · intro i hv _
      apply sim_instBody (by simp)
      · intro w₁ w₂ hk; exact ⟨(hk.agree hA).cls i, (hk.agree hA).only i⟩
      · intro w₀ w₀' hk₀
        apply sim_validateFields
        · intro f hf w₁ w₂ hk
          have e : w₀.heap = w₁.heap := hk₀.2.1.trans hk.2.1.symm
          have := getAgree_mod (i := i) (f := f) hn hu (hk.agree hA)
            (by unfold World.cdef at hf ⊢; rw [← e]; exact hf)
          rw [← e] at this
          exact this
        · intro f hf _ w w' v _ hget
          apply sim_validateField
          · intro w₁ w₂ hk j; exact (hk.agree hA).cls j
          · simp
          · intro w'' ek _
            have hs : SimValidate (KMod H₁ H₂) (fun _ => False) env env (instOps env n)
                (instOps env n) (fun _ => True) :=
              { hv := by simp
                ha := by simp
                noMarks₁ := instOps_noMarks env n
                noMarks₂ := instOps_noMarks env n
                col := fun _ _ _ _ _ => trivial
                alter := fun _ _ => trivial
                owner := by intro w₁ w₂ o hk; unfold World.cdef; rw [(hk.agree hA).cls o]
                vis := fun cls st c _ => ih cls st c }
            refine sim_den_chain hs f.chain ?_ _ trivial
            refine Mod.AllL.mono (fun l hl => ?_) (fun _ h => h) _ (hu.leaf _ f hf)
            intro c w₁ w₂ _ hk
            exact ⟨hl _ _ c (hk.agree hA), fun e _ h => h⟩

/-- **C21**. Take two states that differ only in the values of embedded, unmodified,
non-primary-key fields of persisted objects. If validators and getters do not read such
fields of other fields' owners themselves, then `validate()` gives the same outcome —
acceptance, or the same messages under the same key paths — in both states. -/
theorem validate_ignores_unmodified (hn : DistinctNames env) (hu : UserCodeIgnoresUnmodified env)
    (w₁ w₂ : World) (hA : AgreeOnModified env w₁.heap w₂.heap) (i : Nat) (all : Option Bool) (n : Nat) :
    (apiValidate env n i all w₁).1 = (apiValidate env n i all w₂).1 := by
  have h := (validate_mod_sim hn hu hA n (w₁.heap i).cls none
    (rootCtx w₁ i { allFields := all } (.obj i)) { w₁ with marks := [] } { w₂ with marks := [] }
    ⟨rfl, rfl, rfl⟩).1
  have hr : rootCtx w₂ i { allFields := all } (.obj i) = rootCtx w₁ i { allFields := all } (.obj i) := by
    unfold rootCtx
    rw [(hA i).1]
  unfold apiValidate withFreshMarks
  rw [hr, ← hA.cls i]
  exact h

/-- Corollary in terms of one object: overwriting an unmodified embedded field with any
value does not change the outcome of `validate()`, whichever object it is called on. -/
theorem validate_ignores_field (hn : DistinctNames env) (hu : UserCodeIgnoresUnmodified env)
    (w : World) (j : Nat) (name : String) (v : Val) (hj : UnmodifiedEmbedded env (w.heap j) name)
    (i : Nat) (all : Option Bool) (n : Nat) :
    (apiValidate env n i all w).1 =
      (apiValidate env n i all (w.upd j (fun o => { o with attrs := fun m => if m = name then v else o.attrs m }))).1 := by
  apply validate_ignores_unmodified hn hu
  intro k
  by_cases hk : k = j
  · subst hk
    simp only [World.upd, if_true]
    refine ⟨trivial, fun m hm => ?_⟩
    have : m ≠ name := fun h => hm (h ▸ hj)
    rw [if_neg this]
  · simp only [World.upd, hk, if_false]
    exact ⟨trivial, fun _ _ => trivial⟩

theorem Demo.distinct : DistinctNames Demo.env := by
  intro cls f hf
  rcases Demo.env_cases cls with h | h | h <;> rw [h] at hf ⊢
  · simp only [Demo.user, List.mem_cons, List.not_mem_nil, or_false] at hf
    rcases hf with rfl | rfl | rfl | rfl | rfl | rfl <;> rfl
  · simp only [Demo.post, List.mem_cons, List.not_mem_nil, or_false] at hf
    rcases hf with rfl | rfl | rfl <;> rfl
  · cases hf

theorem Demo.ignores : UserCodeIgnoresUnmodified Demo.env where
  leaf := by
    intro cls f hf
    rcases Demo.env_cases cls with h | h | h <;> rw [h] at hf
    · simp only [Demo.user, List.mem_cons, List.not_mem_nil, or_false] at hf
      rcases hf with rfl | rfl | rfl | rfl | rfl | rfl <;>
        simp [Demo.fId, Demo.fName, Demo.fSecret, Demo.fTmp, Demo.fFriend, Demo.fPosts,
          Mod.AllL, Mod.All, Demo.optStr, Demo.reqStr]
    · simp only [Demo.post, List.mem_cons, List.not_mem_nil, or_false] at hf
      rcases hf with rfl | rfl | rfl <;>
        simp [Demo.fId, Demo.fName, Demo.fAuthor, Mod.AllL, Mod.All, Demo.optStr, Demo.reqStr]
    · cases hf
  getter := by
    intro cls f hf h₁ h₂ i _
    rcases Demo.env_cases cls with h | h | h <;> rw [h] at hf
    · simp only [Demo.user, List.mem_cons, List.not_mem_nil, or_false] at hf
      rcases hf with rfl | rfl | rfl | rfl | rfl | rfl <;> rfl
    · simp only [Demo.post, List.mem_cons, List.not_mem_nil, or_false] at hf
      rcases hf with rfl | rfl | rfl <;> rfl
    · cases hf

/-- A persisted user whose `name` is not marked modified: an invalid `name` (None for a
required field) goes unnoticed. -/
def Demo.persisted : World := Demo.world.upd 1 (fun o => { o with isNew := false })

example : UnmodifiedEmbedded Demo.env (Demo.persisted.heap 1) "name" :=
  ⟨rfl, ⟨Demo.fName, rfl, rfl⟩, by decide, by decide⟩
example : (apiValidate Demo.env 4 1 none (Demo.persisted.upd 1 (fun o => { o with
      attrs := fun m => if m = "name" then .none else o.attrs m }))).1 = .ok () :=
  (validate_ignores_field Demo.distinct Demo.ignores Demo.persisted 1 "name" .none
    ⟨rfl, ⟨Demo.fName, rfl, rfl⟩, by decide, by decide⟩ 1 none 4).symm.trans (by rfl)
/-- The same object while new is rejected. -/
example : (apiValidate Demo.env 4 1 none (Demo.world.upd 1 (fun o => { o with
      attrs := fun m => if m = "name" then .none else o.attrs m }))).1 =
    .error (.validation [("name", "value required")]) := by rfl

end JC
