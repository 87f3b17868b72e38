import Verif.Props.Assign
import Verif.Props.Symmetry
import Verif.Model.Nested
import Verif.Props.Demo

/-
C74: changes of relations are tracked on both sides.
-/
namespace JC
variable {env : Env}

/-! ### Specification -/

/-- The attribute `a` holds the value of the field, or the reference ids it is stored by. -/
def KeptIn (f : Field) (a : String) : Prop := a = f.name ∨ (f.store = .localKey ∧ a = f.refName)

/-- No attribute belongs to two fields of a class, and no field of any class has the name of
reference ids. -/
def SeparateNames (env : Env) : Prop :=
  ∀ c, (∀ f ∈ (env.cls c).fields, ∀ g ∈ (env.cls c).fields, ∀ a, KeptIn f a → KeptIn g a → f = g) ∧
    ∀ d, ∀ f ∈ (env.cls c).fields, ∀ g ∈ (env.cls d).fields, f.store = .localKey → f.refName ≠ g.name

/-- `g` is a relation to a single object and the other side of some field. -/
def SingleOpposite (env : Env) (g : Field) : Prop :=
  g.ftype = .inst ∧ ∃ d, ∃ f ∈ (env.cls d).fields, ∃ c n, f.foreign = some (c, n) ∧ (env.cls c).field? n = some g

/-- What is not reported: `a` belongs to a single relation, and was cleared from the other
side. The name of a relation that is stored by reference id is in `modified_fields`. -/
def ClearedFrom (env : Env) (o : Obj) (a : String) : Prop :=
  o.attrs a = .none ∧ ∃ g, SingleOpposite env g ∧ KeptIn g a ∧ (g.store = .localKey → g.name ∈ o.modFields)

/-- the name of a single relation stored by reference id, the other side of some field -/
def SingleKey (env : Env) (n : String) : Prop := ∃ g, SingleOpposite env g ∧ g.store = .localKey ∧ g.name = n

/-- Operations that report changes. A list of reference ids is not sorted, and dict methods
are not used on reference ids. -/
def FOp.Reports (cd : ClassDef) : FOp → Prop
  | .set _ _ => True
  | .lst n op => op.Reported ∧ ((op = .reverse ∨ ∃ f e, op = .sort f e) → ∀ f ∈ cd.fields, f.store = .localKey → f.refName ≠ n)
  | .dct n op => op.NoIter ∧ op.Explicit ∧ ∀ f ∈ cd.fields, f.store = .localKey → f.refName ≠ n

/-- A history of operations on any objects; all of them complete. -/
inductive Completed (env : Env) : World → World → Prop where
  | none (w) : Completed env w w
  | more {w w₁ w₂ : World} {i : Nat} {op : FOp} : op.Reports (w.cdef env i) → op.run env i w = (.ok (), w₁) → Completed env w₁ w₂ → Completed env w w₂

/-! ### Proof -/

/-- From `w` to `w'`, changes of the objects in `S` are reported, except those at `ex`. -/
structure Tracks (env : Env) (S : Nat → Prop) (ex : Nat → String → Prop) (w w' : World) : Prop where
  cls : ∀ j, S j → (w'.heap j).cls = (w.heap j).cls
  new : ∀ j, S j → (w'.heap j).isNew = (w.heap j).isNew
  keep : ∀ j, S j → ∀ n ∈ (w.heap j).modFields, n ∈ (w'.heap j).modFields
  flag : ∀ j, S j → (w.heap j).isModified = true → (w'.heap j).isModified = true
  report : ∀ j, S j → (w.heap j).isNew = false → ∀ f ∈ (w.cdef env j).fields, ∀ a, KeptIn f a → ¬ ex j a →
    w'.attr j a ≠ w.attr j a → f.name ∈ (w'.heap j).modFields ∨ ClearedFrom env (w'.heap j) a
  known : ∀ j, S j → (∀ n ∈ (w.heap j).modFields, (w.heap j).isModified = true ∨ SingleKey env n) →
    ∀ n ∈ (w'.heap j).modFields, (w'.heap j).isModified = true ∨ SingleKey env n
  some : ∀ j, S j → ((w.heap j).isModified = true → (w.heap j).modFields ≠ []) →
    (w'.heap j).isModified = true → (w'.heap j).modFields ≠ []
  next : w.next ≤ w'.next

variable {S : Nat → Prop} {ex : Nat → String → Prop}

theorem Tracks.cdef {w w' : World} (h : Tracks env S ex w w') {j : Nat} (hj : S j) : w'.cdef env j = w.cdef env j := by
  unfold World.cdef; rw [h.cls j hj]

theorem Tracks.refl (w : World) : Tracks env S ex w w :=
  ⟨fun _ _ => rfl, fun _ _ => rfl, fun _ _ _ h => h, fun _ _ h => h, fun _ _ _ _ _ _ _ _ h => absurd rfl h, fun _ _ h => h, fun _ _ h => h,
    Nat.le_refl _⟩

theorem ClearedFrom.keep {o o' : Obj} {a : String} (h : ClearedFrom env o a) (ha : o'.attrs a = o.attrs a)
    (hm : ∀ n ∈ o.modFields, n ∈ o'.modFields) : ClearedFrom env o' a := by
  obtain ⟨h1, g, h2, h3, h4⟩ := h
  exact ⟨ha.trans h1, g, h2, h3, fun hs => hm _ (h4 hs)⟩

theorem Tracks.trans {w w₁ w₂ : World} (h : Tracks env S ex w w₁) (h' : Tracks env S ex w₁ w₂) : Tracks env S ex w w₂ where
  cls j hj := (h'.cls j hj).trans (h.cls j hj)
  new j hj := (h'.new j hj).trans (h.new j hj)
  keep j hj n hn := h'.keep j hj n (h.keep j hj n hn)
  flag j hj hn := h'.flag j hj (h.flag j hj hn)
  known j hj hk := h'.known j hj (h.known j hj hk)
  some j hj hk := h'.some j hj (h.some j hj hk)
  next := Nat.le_trans h.next h'.next
  report := by
    intro j hj hn f hf a ha hex hne
    by_cases h1 : w₂.attr j a = w₁.attr j a
    · rcases h.report j hj hn f hf a ha hex (fun h2 => hne (h1.trans h2)) with h2 | h2
      · exact .inl (h'.keep j hj _ h2)
      · exact .inr (h2.keep h1 (h'.keep j hj))
    · refine h'.report j hj ((h.new j hj).trans hn) f ?_ a ha hex h1
      rw [h.cdef hj]; exact hf

/-- all fields kept in `a` are reported -/
def MarkedAt (env : Env) (w : World) (i : Nat) (a : String) : Prop :=
  (w.heap i).isNew = false → ∀ f ∈ (w.cdef env i).fields, KeptIn f a → f.name ∈ (w.heap i).modFields

/-- nothing but `a` of `i` -/
def AtAttr (i : Nat) (a : String) : Nat → String → Prop := fun j b => j = i ∧ b = a

theorem Tracks.weaken {w w' : World} (h : Tracks env S (fun _ _ => False) w w') : Tracks env S ex w w' :=
  { h with report := fun j hj hn f hf a ha _ hne => h.report j hj hn f hf a ha id hne }

/-- the exception is reported in the end -/
theorem Tracks.close {w w' : World} {i : Nat} {a : String} (h : Tracks env S (AtAttr i a) w w') (hm : MarkedAt env w' i a) :
    Tracks env S (fun _ _ => False) w w' :=
  ⟨h.cls, h.new, h.keep, h.flag, (by
      intro j hj hn f hf b hb _ hne
      by_cases hc : j = i ∧ b = a
      · obtain ⟨rfl, rfl⟩ := hc
        refine .inl (hm ((h.new j hj).trans hn) f ?_ hb)
        rw [h.cdef hj]; exact hf
      · exact h.report j hj hn f hf b hb hc hne), h.known, h.some, h.next⟩

theorem MarkedAt.mono {w w' : World} {i : Nat} {a : String} (h : MarkedAt env w i a) (hi : S i) (t : Tracks env S ex w w') :
    MarkedAt env w' i a := by
  intro hn f hf hk
  rw [t.cdef hi] at hf
  exact t.keep i hi _ (h ((t.new i hi).symm.trans hn) f hf hk)

/-- A computation that completes reports what it changes, except at `ex`. -/
def Tr (env : Env) (S : Nat → Prop) (ex : Nat → String → Prop) {α : Type} (m : Py World α) : Prop :=
  ∀ w x w', m w = (.ok x, w') → Tracks env S ex w w'

/-- nothing is left unreported -/
abbrev Tr0 (env : Env) (S : Nat → Prop) {α : Type} (m : Py World α) : Prop := Tr env S (fun _ _ => False) m

section
variable {α β : Type}

theorem Tr.bind {m : Py World α} {k : α → Py World β} (hm : Tr env S ex m) (hk : ∀ a, Tr env S ex (k a)) : Tr env S ex (m >>= k) := by
  intro w x w' h
  obtain ⟨a, w₁, h1, h2⟩ := bind_ok h
  exact (hm _ _ _ h1).trans (hk a _ _ _ h2)

theorem Tr.pure (a : α) : Tr env S ex (Pure.pure a : Py World α) := by
  intro w x w' h
  cases h; exact Tracks.refl _

theorem Tr.raise (e : Exc) : Tr env S ex (Py.raise e : Py World α) := by
  intro w x w' h; cases h

theorem Tr.get : Tr env S ex (Py.get : Py World World) := by
  intro w x w' h
  cases h; exact Tracks.refl _

theorem Tr.read (f : World → Except Exc α) : Tr env S ex (readW f) := by
  intro w x w' h
  obtain ⟨rfl, -⟩ := readW_ok h
  exact Tracks.refl _

theorem Tr0.weaken {m : Py World α} (h : Tr0 env S m) : Tr env S ex m := fun w x w' hr => (h w x w' hr).weaken

end

/-- a change of one object -/
theorem tracks_upd {w : World} {i : Nat} {g : Obj → Obj} (hc : (g (w.heap i)).cls = (w.heap i).cls)
    (hn : (g (w.heap i)).isNew = (w.heap i).isNew) (hk : ∀ n ∈ (w.heap i).modFields, n ∈ (g (w.heap i)).modFields)
    (hf : (w.heap i).isModified = true → (g (w.heap i)).isModified = true)
    (hr : (w.heap i).isNew = false → ∀ f ∈ (w.cdef env i).fields, ∀ a, KeptIn f a → ¬ ex i a → (g (w.heap i)).attrs a ≠ (w.heap i).attrs a →
      f.name ∈ (g (w.heap i)).modFields ∨ ClearedFrom env (g (w.heap i)) a)
    (hkn : (∀ n ∈ (w.heap i).modFields, (w.heap i).isModified = true ∨ SingleKey env n) →
      ∀ n ∈ (g (w.heap i)).modFields, (g (w.heap i)).isModified = true ∨ SingleKey env n)
    (hs : ((w.heap i).isModified = true → (w.heap i).modFields ≠ []) → (g (w.heap i)).isModified = true → (g (w.heap i)).modFields ≠ []) :
    Tracks env S ex w (w.upd i g) := by
  have hh : ∀ j, (w.upd i g).heap j = if j = i then g (w.heap i) else w.heap j := fun _ => rfl
  refine ⟨?_, ?_, ?_, ?_, ?_, ?_, ?_, Nat.le_refl _⟩ <;> intro j hj <;> (try unfold World.attr) <;> rw [hh] <;> by_cases hji : j = i <;>
    first
    | (subst hji; simp only [if_true]; assumption)
    | (rw [if_neg hji]; done)
    | (rw [if_neg hji]; first | (intro _ _ _ _ _ _ h; exact absurd rfl h) | (intro _ h; exact h) | (intro h; exact h))

theorem tr_quietUpd {i : Nat} {g : Obj → Obj} (hc : ∀ o, (g o).cls = o.cls) (hn : ∀ o, (g o).isNew = o.isNew) (hk : ∀ o, (g o).modFields = o.modFields)
    (hf : ∀ o, (g o).isModified = o.isModified) (ha : ∀ o, (g o).attrs = o.attrs) : Tr0 env S (updObj i g) := by
  intro w x w' h
  cases h
  refine tracks_upd (hc _) (hn _) (fun n h => by rw [hk]; exact h) (fun h => by rw [hf]; exact h) ?_ ?_ ?_
  · intro _ f _ a _ _ h
    rw [ha] at h; exact absurd rfl h
  · rw [hk, hf]; exact id
  · rw [hk, hf]; exact id

theorem setAdd_ne_nil {m : String} {xs : List String} : setAdd m xs ≠ [] := by
  intro h
  have : m ∈ setAdd m xs := (mem_setAdd _ _ _).2 (.inr rfl)
  rw [h] at this; cases this

theorem tr_addUnlinked (i : Nat) (n : String) (v : Val) : Tr0 env S (addUnlinked i n v) :=
  tr_quietUpd (fun _ => rfl) (fun _ => rfl) (fun _ => rfl) (fun _ => rfl) (fun _ => rfl)

theorem tr_delUnlinked (i : Nat) (n : String) (v : Val) : Tr0 env S (delUnlinked i n v) :=
  tr_quietUpd (fun _ => rfl) (fun _ => rfl) (fun _ => rfl) (fun _ => rfl) (fun _ => rfl)

/-- an update that marks -/
theorem tracks_mark {w : World} {i : Nat} {n : String} {g : Obj → Obj} (hc : (g (w.heap i)).cls = (w.heap i).cls)
    (hn : (g (w.heap i)).isNew = (w.heap i).isNew) (ha : (g (w.heap i)).attrs = (w.heap i).attrs)
    (h : (w.heap i).isNew = false → (g (w.heap i)).isModified = true ∧ (g (w.heap i)).modFields = setAdd n (w.heap i).modFields)
    (h' : (w.heap i).isNew = true → g (w.heap i) = w.heap i) :
    Tracks env S ex w (w.upd i g) := by
  cases hb : (w.heap i).isNew with
  | false =>
    obtain ⟨h1, h2⟩ := h hb
    refine tracks_upd hc hn (fun m hm => by rw [h2]; exact (mem_setAdd _ _ _).2 (.inl hm)) (fun _ => h1) ?_ (fun _ _ _ => .inl h1) (fun _ _ => by
      rw [h2]; exact setAdd_ne_nil)
    intro _ f _ a _ _ h
    rw [ha] at h; exact absurd rfl h
  | true =>
    have e := h' hb
    refine tracks_upd hc hn (fun m hm => by rw [e]; exact hm) (fun h => by rw [e]; exact h) ?_ (by rw [e]; exact id) (by rw [e]; exact id)
    intro hf; rw [hb] at hf; cases hf

theorem tr_markModified (i : Nat) (n : String) : Tr0 env S (markModified i n) := by
  intro w x w' h
  cases h
  refine tracks_mark (n := n) ?_ ?_ ?_ ?_ ?_
  · split <;> rfl
  · split <;> rfl
  · split <;> rfl
  · intro h; rw [h]; exact ⟨rfl, rfl⟩
  · intro h; rw [h]; rfl

/-- what `markModified` reports -/
theorem markModified_mem (i : Nat) (n : String) {w w' : World} (h : markModified i n w = (.ok (), w')) (hn : (w'.heap i).isNew = false) :
    n ∈ (w'.heap i).modFields := by
  cases h
  simp only [World.upd, if_true] at hn ⊢
  split at hn
  · rename_i h1; rw [h1] at hn; cases hn
  · rename_i h1; simp only [h1]; exact (mem_setAdd _ _ _).2 (.inr rfl)

theorem tr_track (i : Nat) (f : Field) : Tr0 env S (track env i f) := by
  intro w x w' h
  cases h
  refine tracks_mark (n := f.name) ?_ ?_ ?_ ?_ ?_
  · split <;> rfl
  · split <;> rfl
  · split <;> rfl
  · intro h; rw [h]; exact ⟨rfl, rfl⟩
  · intro h; rw [h]; rfl

theorem track_mem (i : Nat) (f : Field) {w w' : World} (h : track env i f w = (.ok (), w')) (hn : (w'.heap i).isNew = false) :
    f.name ∈ (w'.heap i).modFields := by
  cases h
  simp only [World.upd, if_true] at hn ⊢
  split at hn
  · rename_i h1; rw [h1] at hn; cases hn
  · rename_i h1; simp only [h1]; exact (mem_setAdd _ _ _).2 (.inr rfl)

theorem tr_markLocalKey (i : Nat) (f : Field) : Tr0 env S (markLocalKey i f) := by
  intro w x w' h
  cases h
  cases hb : (!(w.heap i).isNew && !((w.heap i).modFields.contains f.name)) with
  | true =>
    refine tracks_mark (n := f.name) ?_ ?_ ?_ ?_ ?_
    · rw [hb]; rfl
    · rw [hb]; rfl
    · rw [hb]; rfl
    · intro h; rw [hb]; exact ⟨rfl, rfl⟩
    · intro h; rw [h] at hb; cases hb
  | false =>
    refine tracks_upd ?_ ?_ ?_ ?_ ?_ ?_ ?_ <;> rw [hb]
    · rfl
    · rfl
    · exact fun _ h => h
    · exact id
    · exact fun _ _ _ _ _ _ h => absurd rfl h
    · exact id
    · exact id

theorem markLocalKey_mem (i : Nat) (f : Field) {w w' : World} (h : markLocalKey i f w = (.ok (), w')) (hn : (w'.heap i).isNew = false) :
    f.name ∈ (w'.heap i).modFields := by
  cases h
  simp only [World.upd, if_true] at hn ⊢
  split at hn
  · rename_i h1; simp only [h1, if_true]; exact (mem_setAdd _ _ _).2 (.inr rfl)
  · rename_i h1
    simp only [h1]
    rw [hn] at h1
    simpa using h1

theorem tr_willChange (d : Bool) (i : Nat) (n : String) : Tr0 env S (willChange env d i n) := by
  intro w x w' h
  unfold willChange at h
  simp only at h
  split at h
  · split at h
    · cases h
    · cases h; exact Tracks.refl _
  · split at h
    · cases h
      exact tr_quietUpd (g := fun o => { o with prev := o.prev ++ [(n, o.attrs n)] }) (fun _ => rfl) (fun _ => rfl) (fun _ => rfl) (fun _ => rfl)
        (fun _ => rfl) w () _ rfl
    · cases h; exact Tracks.refl _

/-- A plain assignment leaves only its own change unreported. -/
theorem tr_rawSet (i : Nat) (n : String) (v : Val) : Tr env S (AtAttr i n) (rawSet i n v) := by
  intro w x w' h
  cases h
  refine tracks_upd rfl rfl (fun _ h => h) id ?_ id id
  intro _ f _ a _ hex hne
  by_cases ha : a = n
  · exact absurd ⟨rfl, ha⟩ hex
  · simp only [if_neg ha] at hne
    exact absurd rfl hne

theorem tr_linkGraph (i j : Nat) : Tr0 env S (linkGraph env i j) := by
  intro w x w' h
  unfold linkGraph mergeGraphs at h
  have hp : ∀ k, (putSelf env i w).heap k = w.heap k := by
    intro k
    unfold putSelf
    split
    · rfl
    · split <;> rfl
  have hp' : (putSelf env i w).next = w.next := by
    unfold putSelf
    split
    · rfl
    · split <;> rfl
  have key : ∀ w'' : World, (∀ k, ∃ g, w''.heap k = { w.heap k with graph := g }) → w''.next = w.next → Tracks env S (fun _ _ => False) w w'' := by
    intro w'' hk hnx
    refine ⟨?_, ?_, ?_, ?_, ?_, ?_, ?_, by rw [hnx]; exact Nat.le_refl _⟩ <;> intro k _ <;> obtain ⟨g, hg⟩ := hk k <;> (try unfold World.attr) <;> rw [hg]
    · exact fun _ h => h
    · exact id
    · exact fun _ _ _ _ _ _ h => absurd rfl h
    · exact id
    · exact id
  split at h
  · cases h
    exact key _ (fun k => ⟨(w.heap k).graph, hp k⟩) hp'
  · split at h
    · cases h
    · cases h
      refine key _ (fun k => ?_) hp'
      simp only
      rw [hp]
      split
      · exact ⟨_, rfl⟩
      · exact ⟨(w.heap k).graph, rfl⟩

theorem tr_forItems {body : Val → Py World Unit} (xs : List Val) (h : ∀ x ∈ xs, Tr env S ex (body x)) : Tr env S ex (forItems xs body) := by
  induction xs with
  | nil => exact Tr.pure _
  | cons x xs ih => exact (h x (by simp)).bind (fun _ => ih (fun y hy => h y (by simp [hy])))

/-! ### Unlinking -/

theorem field_found {cd : ClassDef} {n : String} {f : Field} (h : cd.field? n = some f) : f ∈ cd.fields ∧ f.name = n := by
  have h1 := List.mem_of_find?_eq_some h
  have h2 := List.find?_some h
  exact ⟨h1, by simpa using h2⟩

theorem localKey_found {cd : ClassDef} {n : String} {f : Field} (h : cd.localKey? n = some f) :
    f ∈ cd.fields ∧ f.store = .localKey ∧ f.refName = n := by
  have h1 := List.mem_of_find?_eq_some h
  have h2 := List.find?_some h
  simp only [Bool.and_eq_true, decide_eq_true_eq] at h2
  exact ⟨h1, h2.1, h2.2⟩

/-- marking the field of a local key reports the key -/
theorem marked_keyfield (hd : SeparateNames env) {w : World} {i : Nat} {p : String} {f : Field} (hl : (w.cdef env i).localKey? p = some f)
    (h : (w.heap i).isNew = false → f.name ∈ (w.heap i).modFields) : MarkedAt env w i p := by
  intro hn g hg hk
  obtain ⟨hm, hs, hr⟩ := localKey_found hl
  have := (hd _).1 g hg f hm p hk (.inr ⟨hs, hr.symm⟩)
  rw [this]; exact h hn

/-- marking a name that is no local key reports the attribute of that name -/
theorem marked_name {w : World} {i : Nat} {p : String} (hl : (w.cdef env i).localKey? p = none)
    (h : (w.heap i).isNew = false → p ∈ (w.heap i).modFields) : MarkedAt env w i p := by
  intro hn g hg hk
  rcases hk with rfl | ⟨hs, rfl⟩
  · exact h hn
  · have := List.find?_eq_none.1 hl g hg
    simp [hs] at this

/-- What the unlinking commands do. -/
def UGood (env : Env) (run : UCmd → Py World Unit) : Prop :=
  (∀ S i f v, (∃ d, f ∈ (env.cls d).fields) → Tr0 env S (run (.unlink i f v))) ∧
  ∀ S i p v, Tr0 env S (run (.del i p v)) ∧ ∀ w w', run (.del i p v) w = (.ok (), w') → MarkedAt env w' i p

theorem tr_setDel {run : UCmd → Py World Unit} (h : UGood env run) (i : Nat) (n : String) (u v : Val) :
    Tr0 env S (do rawSet i n u; run (.del i n v)) := by
  intro w x w' hr
  obtain ⟨_, w2, h3, h4⟩ := bind_ok hr
  have t2 := tr_rawSet (env := env) (S := S) i n _ w _ w2 h3
  exact (t2.trans ((h.2 S i n v).1 w2 _ w' h4).weaken).close ((h.2 S i n v).2 w2 w' h4)

theorem tr_listRemoveAttr {run : UCmd → Py World Unit} (h : UGood env run) (i : Nat) (n : String) (v : Val) :
    Tr0 env S (listRemoveAttr env run i n v) := by
  unfold listRemoveAttr
  refine Tr.get.bind (fun w1 => ?_)
  split
  · refine (tr_willChange _ _ _).bind (fun _ => ?_)
    split
    · exact tr_setDel h i n _ v
    · exact Tr.raise _
  · exact Tr.raise _

/-- clearing the field of the other side -/
theorem tr_clear {i j : Nat} {of : Field} (hso : SingleOpposite env of) :
    Tr0 env S (do rawSet j of.name .none; unlinkKey j of; addUnlinked j of.name (.obj i)) := by
  intro w x w' hr
  obtain ⟨_, w1, h1, h2⟩ := bind_ok hr
  obtain ⟨_, w2, h3, h4⟩ := bind_ok h2
  refine Tracks.trans ?_ (tr_addUnlinked j _ _ w2 _ w' h4)
  cases h1
  unfold unlinkKey at h3
  split at h3
  · rename_i hst
    cases h3
    have e : ∀ (w : World) (g₁ g₂ g₃ : Obj → Obj), ((w.upd j g₁).upd j g₂).upd j g₃ = w.upd j (fun o => g₃ (g₂ (g₁ o))) := by
      intro w g₁ g₂ g₃
      simp only [World.upd, if_true]
      congr 1
      funext k
      split <;> rfl
    show Tracks env S _ w (((w.upd j _).upd j _).upd j _)
    rw [e]
    refine tracks_upd rfl rfl (fun n hn => (mem_setAdd _ _ _).2 (.inl hn)) id ?_ ?_ ?_
    · intro _ g _ a _ _ hne
      right
      refine ⟨?_, of, hso, ?_, fun _ => (mem_setAdd _ _ _).2 (.inr rfl)⟩
      · simp only at hne ⊢
        split
        · rfl
        · rename_i h1
          rw [if_neg h1] at hne
          split
          · rfl
          · rename_i h2; rw [if_neg h2] at hne; exact absurd rfl hne
      · simp only at hne
        by_cases h1 : a = of.refName
        · exact .inr ⟨hst, h1⟩
        · rw [if_neg h1] at hne
          by_cases h2 : a = of.name
          · exact .inl h2
          · rw [if_neg h2] at hne; exact absurd rfl hne
    · intro hk n hn
      rcases (mem_setAdd _ _ _).1 hn with hn | rfl
      · exact hk n hn
      · exact .inr ⟨of, hso, hst, rfl⟩
    · intro _ _; exact setAdd_ne_nil
  · rename_i hst
    cases h3
    refine tracks_upd rfl rfl (fun n hn => hn) id ?_ id id
    intro _ g _ a _ _ hne
    right
    simp only at hne
    by_cases h2 : a = of.name
    · exact ⟨by simp [h2], of, hso, .inl h2, fun hs => absurd hs hst⟩
    · rw [if_neg h2] at hne; exact absurd rfl hne

theorem tr_unlinkOther {run : UCmd → Py World Unit} (h : UGood env run) (i : Nat) {f of : Field} {d : String} (hf : f ∈ (env.cls d).fields)
    (hof : env.foreignField f = some of) (item : Val) : Tr0 env S (unlinkOther env run i of item) := by
  unfold unlinkOther
  split
  · refine Tr.get.bind (fun w1 => ?_)
    split
    · rename_i hty
      split
      · refine tr_clear ⟨hty, d, f, hf, ?_⟩
        unfold Env.foreignField at hof
        split at hof
        · rename_i c n hc; exact ⟨c, n, hc, hof⟩
        · cases hof
      · exact Tr.pure _
    · split
      · split
        · exact (tr_listRemoveAttr h _ _ _).bind (fun _ => tr_addUnlinked _ _ _)
        · exact Tr.pure _
      · exact Tr.pure _
    · exact Tr.pure _
  · exact Tr.raise _

theorem tr_unlinkBody {run : UCmd → Py World Unit} (h : UGood env run) (i : Nat) {f : Field} {d : String} (hf : f ∈ (env.cls d).fields) (v : Val) :
    Tr0 env S (unlinkBody env run i f v) := by
  unfold unlinkBody
  split
  · split
    · exact Tr.pure _
    · exact tr_addUnlinked _ _ _
  · rename_i of hof
    exact tr_forItems _ (fun x _ => (tr_addUnlinked _ _ _).bind (fun _ => tr_unlinkOther h i hf hof x))

theorem delLocal_steps {run : UCmd → Py World Unit} (h : UGood env run) {i : Nat} {f : Field} {p : String} {v : Val} {w w' : World} {x : Unit}
    (hr : delLocal env run i f p v w = (.ok x, w')) : ∃ w1, markLocalKey i f w = (.ok (), w1) ∧ ∀ S, Tracks env S (fun _ _ => False) w1 w' := by
  unfold delLocal at hr
  obtain ⟨_, w1, h1, h2⟩ := bind_ok hr
  refine ⟨w1, h1, fun S => ?_⟩
  revert h2
  refine Tr.bind (m := Py.get) Tr.get (fun w1 => ?_) w1 x w'
  split
  · refine (Tr.read _).bind (fun n => ?_)
    split
    · refine (Tr.read _).bind (fun m => ?_)
      split
      · exact tr_listRemoveAttr h _ _ _
      · exact Tr.pure _
    · exact Tr.pure _
  · exact Tr.pure _

theorem tr_delLocal {run : UCmd → Py World Unit} (h : UGood env run) (i : Nat) (f : Field) (p : String) (v : Val) :
    Tr0 env S (delLocal env run i f p v) := by
  intro w x w' hr
  obtain ⟨w1, h1, h2⟩ := delLocal_steps h hr
  exact (tr_markLocalKey i f w _ w1 h1).trans (h2 S)

theorem tr_delKey {run : UCmd → Py World Unit} (h : UGood env run) (i : Nat) (f : Field) (p : String) (v : Val) :
    Tr0 env S (delKey env run i f p v) := by
  unfold delKey
  split
  · refine Tr.get.bind (fun w1 => ?_)
    split
    · refine (Tr.read _).bind (fun n => ?_)
      split
      · refine (Tr.read _).bind (fun m => ?_)
        split
        · exact tr_listRemoveAttr h _ _ _
        · exact Tr.pure _
      · exact Tr.pure _
    · exact Tr.raise _
  · exact Tr.pure _

theorem tr_delRef {run : UCmd → Py World Unit} (h : UGood env run) (i : Nat) {fo : Option Field} (hf : ∀ f, fo = some f → ∃ d, f ∈ (env.cls d).fields)
    (p : String) (v : Val) : Tr0 env S (delRef env run i fo p v) := by
  unfold delRef
  split
  · split
    · exact (h.1 S i _ _ (hf _ rfl)).bind (fun _ => tr_delKey h _ _ _ _)
    · exact Tr.pure _
  · exact Tr.pure _

theorem uGood (hd : SeparateNames env) (n : Nat) : UGood env (runU env n) := by
  induction n with
  | zero => exact ⟨fun _ _ _ _ _ => Tr.raise _, fun _ _ _ _ => ⟨Tr.raise _, fun _ _ h => by cases h⟩⟩
  | succ n ih =>
    refine ⟨fun S i f v hf => ?_, fun S i p v => ?_⟩
    · obtain ⟨d, hf⟩ := hf
      exact tr_unlinkBody ih i hf v
    · constructor
      · intro w x w' hr
        replace hr : delBody env (runU env n) i p v w = _ := hr
        unfold delBody at hr
        have hr := get_bind_ok hr
        cases hl : (w.cdef env i).localKey? p with
        | some f =>
          rw [hl] at hr
          exact tr_delLocal ih _ _ _ _ w x w' hr
        | none =>
          rw [hl] at hr
          exact ((tr_delRef ih i (fun f hf => ⟨_, (field_found hf).1⟩) p v).bind (fun _ => tr_markModified _ _)) w x w' hr
      · intro w w' hr
        replace hr : delBody env (runU env n) i p v w = _ := hr
        unfold delBody at hr
        have hr := get_bind_ok hr
        cases hl : (w.cdef env i).localKey? p with
        | some f =>
          rw [hl] at hr
          obtain ⟨w1, h1, h2⟩ := delLocal_steps ih hr
          have t1 := tr_markLocalKey (env := env) (S := fun _ => True) i f w _ w1 h1
          have m1 : MarkedAt env w1 i p := marked_keyfield hd (f := f) (by rw [t1.cdef trivial]; exact hl) (markLocalKey_mem i f h1)
          exact m1.mono (S := fun _ => True) trivial (h2 _)
        | none =>
          rw [hl] at hr
          obtain ⟨_, w1, h1, h2⟩ := bind_ok hr
          have t1 := tr_delRef (S := fun _ => True) ih i (fun f hf => ⟨_, (field_found hf).1⟩) p v w _ w1 h1
          have t2 := tr_markModified (env := env) (S := fun _ => True) i p w1 _ w' h2
          refine marked_name ?_ (markModified_mem i p h2)
          rw [t2.cdef trivial, t1.cdef trivial]; exact hl

theorem uGood_unlink (hd : SeparateNames env) {i : Nat} {f : Field} (hf : ∃ d, f ∈ (env.cls d).fields) (v : Val) :
    Tr0 env S (unlinkField env i f v) := (uGood hd env.fuel).1 S i f v hf

/-! ### Linking -/

/-- What the linking commands do. -/
def LGood (env : Env) (run : LCmd → Py World Unit) : Prop :=
  (∀ S i f v, Tr0 env S (run (.link i f v))) ∧
  (∀ S i p k v, Tr0 env S (run (.add i p k v)) ∧ ∀ w w', run (.add i p k v) w = (.ok (), w') → MarkedAt env w' i p) ∧
  ∀ S i n v w x w', (w.cdef env i).localKey? n = none → run (.set i n v) w = (.ok x, w') → Tracks env S (fun _ _ => False) w w'

theorem not_key (hd : SeparateNames env) {d : String} {g : Field} (hg : g ∈ (env.cls d).fields) (w : World) (i : Nat) :
    (w.cdef env i).localKey? g.name = none := by
  refine List.find?_eq_none.2 (fun f hf h => ?_)
  simp only [Bool.and_eq_true, decide_eq_true_eq] at h
  exact (hd _).2 d f hf g hg h.1 h.2

theorem tr_setAdd {run : LCmd → Py World Unit} (h : LGood env run) (i : Nat) (n : String) (u v : Val) (k : Int) :
    Tr0 env S (do rawSet i n u; run (.add i n k v)) := by
  intro w x w' hr
  obtain ⟨_, w2, h3, h4⟩ := bind_ok hr
  have t2 := tr_rawSet (env := env) (S := S) i n _ w _ w2 h3
  exact (t2.trans ((h.2.1 S i n k v).1 w2 _ w' h4).weaken).close ((h.2.1 S i n k v).2 w2 w' h4)

theorem tr_listAppendAttr {run : LCmd → Py World Unit} (h : LGood env run) (i : Nat) (n : String) (v : Val) :
    Tr0 env S (listAppendAttr env run i n v) := by
  unfold listAppendAttr
  refine Tr.get.bind (fun w1 => ?_)
  split
  · exact (tr_willChange _ _ _).bind (fun _ => tr_setAdd h i n _ v _)
  · exact Tr.raise _

theorem tr_linkBody (hd : SeparateNames env) {run : LCmd → Py World Unit} (h : LGood env run) (i : Nat) (f : Field) (v : Val) : Tr0 env S (linkBody env run i f v) := by
  unfold linkBody
  split
  · split
    · exact Tr.pure _
    · exact tr_delUnlinked _ _ _
  · rename_i of hof
    obtain ⟨d, hmem⟩ : ∃ d, of ∈ (env.cls d).fields := by
      unfold Env.foreignField at hof
      split at hof
      · exact ⟨_, (field_found hof).1⟩
      · cases hof
    have hset : ∀ j v, Tr0 env S (run (.set j of.name v)) := fun j v w x w' hr => h.2.2 S j _ v w x w' (not_key hd hmem w j) hr
    refine tr_forItems _ (fun x _ => (tr_delUnlinked _ _ _).bind (fun _ => ?_))
    unfold linkOther
    split
    · refine Tr.bind ?_ (fun _ => tr_linkGraph _ _)
      unfold linkSide
      refine Tr.get.bind (fun w1 => ?_)
      split
      · split
        · exact Tr.pure _
        · exact (hset _ _).bind (fun _ => tr_delUnlinked _ _ _)
      · split
        · split
          · exact Tr.pure _
          · exact (tr_listAppendAttr h _ _ _).bind (fun _ => tr_delUnlinked _ _ _)
        · exact (hset _ _).bind (fun _ => tr_delUnlinked _ _ _)
      · exact Tr.pure _
    · exact Tr.raise _

theorem tr_addRef {run : LCmd → Py World Unit} (h : LGood env run) (i : Nat) (fo : Option Field) (p : String) (k : Int) (v : Val) :
    Tr0 env S (addRef env run i fo p k v) := by
  unfold addRef
  split
  · split
    · refine (h.1 S _ _ _).bind (fun _ => ?_)
      unfold addKey
      split
      · refine Tr.get.bind (fun w1 => ?_)
        split
        · refine (Tr.read _).bind (fun n => ?_)
          split
          · refine (Tr.read _).bind (fun m => ?_)
            split
            · exact Tr.raise _
            · exact tr_setAdd h _ _ _ _ _
          · exact Tr.pure _
        · exact Tr.raise _
      · exact Tr.pure _
    · exact Tr.pure _
  · exact Tr.pure _

/-- the value of a field, with its key -/
def AtField (i : Nat) (f : Field) : Nat → String → Prop := fun j b => j = i ∧ KeptIn f b

theorem Tracks.widen {ex' : Nat → String → Prop} {w w' : World} (h : Tracks env S ex w w') (hx : ∀ j a, ex j a → ex' j a) : Tracks env S ex' w w' :=
  ⟨h.cls, h.new, h.keep, h.flag, (fun j hj hn f hf a ha hex hne => h.report j hj hn f hf a ha (fun h' => hex (hx _ _ h')) hne), h.known, h.some, h.next⟩

theorem Tr.widen {ex' : Nat → String → Prop} {α : Type} {m : Py World α} (h : Tr env S ex m) (hx : ∀ j a, ex j a → ex' j a) : Tr env S ex' m :=
  fun w x w' hr => (h w x w' hr).widen hx

/-- the exceptions at a field are reported in the end -/
theorem Tracks.closeField (hd : SeparateNames env) {w w' : World} {i : Nat} {g : Field} (hg : g ∈ (w.cdef env i).fields)
    (h : Tracks env S (AtField i g) w w') (hm : (w'.heap i).isNew = false → g.name ∈ (w'.heap i).modFields) : Tracks env S (fun _ _ => False) w w' :=
  ⟨h.cls, h.new, h.keep, h.flag, (by
      intro j hj hn f hf b hb _ hne
      by_cases hc : j = i ∧ KeptIn g b
      · obtain ⟨rfl, hc⟩ := hc
        rw [(hd _).1 f hf g hg b hb hc]
        exact .inl (hm ((h.new j hj).trans hn))
      · exact h.report j hj hn f hf b hb hc hne), h.known, h.some, h.next⟩

theorem tr_syncKey (i : Nat) (f : Field) (v : Val) : Tr env S (AtField i f) (syncKey env i f v) := by
  unfold syncKey
  split
  · exact Tr.pure _
  · rename_i hs
    have hs : f.store = .localKey := Classical.not_not.1 hs
    have raw : ∀ u, Tr env S (AtField i f) (rawSet i f.refName u) := fun u => (tr_rawSet i f.refName u).widen (fun j a h => ⟨h.1, .inr ⟨hs, h.2⟩⟩)
    split
    · exact raw _
    · exact Tr.get.bind (fun w => raw _)
    · exact raw _
    · exact (Tr.read _).bind (fun ks => raw _)
    · exact Tr.raise _
    · exact Tr.pure _

theorem lGood (hd : SeparateNames env) (n : Nat) : LGood env (runL env n) := by
  induction n with
  | zero => exact ⟨fun _ _ _ _ => Tr.raise _, fun _ _ _ _ _ => ⟨Tr.raise _, fun _ _ h => by cases h⟩, fun _ _ _ _ _ _ _ _ h => by cases h⟩
  | succ n ih =>
    have tail : ∀ S i p k v, Tr0 env S (addTail env (runL env n) i p k v) ∧ ∀ w w', addTail env (runL env n) i p k v w = (.ok (), w') →
        (w.cdef env i).localKey? p = none → MarkedAt env w' i p := by
      intro S i p k v
      have two : Tr0 env S (do olistDel env i p v; runL env n (.add i p k v)) ∧
          ∀ w w', (do olistDel env i p v; runL env n (.add i p k v)) w = (.ok (), w') → MarkedAt env w' i p := by
        refine ⟨(((uGood hd env.fuel).2 S i p v).1).bind (fun _ => (ih.2.1 S i p k v).1), ?_⟩
        intro w w' hr
        obtain ⟨_, w1, -, h2⟩ := bind_ok hr
        exact (ih.2.1 S i p k v).2 w1 w' h2
      unfold addTail
      split
      · exact ⟨two.1, fun w w' h _ => two.2 w w' h⟩
      · exact ⟨two.1, fun w w' h _ => two.2 w w' h⟩
      · refine ⟨tr_markModified _ _, fun w w' h hl => ?_⟩
        have t := tr_markModified (env := env) (S := fun _ => True) i p w _ w' h
        exact marked_name (by rw [t.cdef trivial]; exact hl) (markModified_mem i p h)
    refine ⟨fun S i f v => tr_linkBody hd ih i f v, fun S i p k v => ⟨?_, ?_⟩, fun S i n' v w x w' hk hr => ?_⟩
    · intro w x w' hr
      replace hr : addBody env (runL env n) i p k v w = _ := hr
      unfold addBody at hr
      have hr := get_bind_ok hr
      cases hl : (w.cdef env i).localKey? p with
      | some f =>
        rw [hl] at hr
        exact tr_markLocalKey _ _ w x w' hr
      | none =>
        rw [hl] at hr
        exact ((tr_addRef ih i _ p k v).bind (fun _ => (tail S i p k v).1)) w x w' hr
    · intro w w' hr
      replace hr : addBody env (runL env n) i p k v w = _ := hr
      unfold addBody at hr
      have hr := get_bind_ok hr
      cases hl : (w.cdef env i).localKey? p with
      | some f =>
        rw [hl] at hr
        have t1 := tr_markLocalKey (env := env) (S := fun _ => True) i f w _ w' hr
        exact marked_keyfield hd (f := f) (by rw [t1.cdef trivial]; exact hl) (markLocalKey_mem i f hr)
      | none =>
        rw [hl] at hr
        obtain ⟨_, w1, h1, h2⟩ := bind_ok hr
        have t1 := tr_addRef (S := fun _ => True) ih i _ p k v w _ w1 h1
        exact (tail S i p k v).2 w1 w' h2 (by rw [t1.cdef trivial]; exact hl)
    · replace hr : setBody env (runL env n) i n' v w = _ := hr
      unfold setBody at hr
      have hr := get_bind_ok hr
      cases hl : (w.cdef env i).field? n' with
      | none =>
        rw [hl] at hr
        refine (tr_rawSet i n' v w x w' hr).close (fun hn g hg hc => ?_)
        have t := tr_rawSet (env := env) (S := fun _ => True) i n' v w x w' hr
        rw [t.cdef trivial] at hg
        rcases hc with rfl | ⟨hs, rfl⟩
        · have := List.find?_eq_none.1 hl g hg
          simp at this
        · have := List.find?_eq_none.1 hk g hg
          simp [hs] at this
      | some f =>
        rw [hl] at hr
        simp only at hr
        obtain ⟨hf, rfl⟩ := field_found hl
        split at hr
        · cases hr
        · split at hr
          · cases hr; exact Tracks.refl _
          · obtain ⟨_, w1, h1, h2⟩ := bind_ok hr
            have t1 := tr_track (S := S) i f w _ w1 h1
            have m1 := track_mem i f h1
            have t2 : ∀ S, Tracks env S (AtField i f) w1 w' := by
              intro S
              have raw : Tr env S (AtField i f) (rawSet i f.name v) := (tr_rawSet i f.name v).widen (fun j a h => ⟨h.1, .inl h.2⟩)
              split at h2
              · exact ((Tr0.weaken (uGood_unlink hd ⟨_, hf⟩ _)).bind (fun _ => raw.bind (fun _ => (tr_syncKey i f v).bind (fun _ => (ih.1 S i f v).weaken))))
                  w1 x w' h2
              · exact raw w1 x w' h2
            refine Tracks.closeField hd hf (t1.weaken.trans (t2 S)) (fun hn => ?_)
            exact (t2 (fun _ => True)).keep i trivial _ (m1 (((t2 (fun _ => True)).new i trivial).symm.trans hn))

theorem tr_setField (hd : SeparateNames env) {i : Nat} {n : String} {v : Val} {w w' : World} {x : Unit} (hk : (w.cdef env i).localKey? n = none)
    (hr : setField env i n v w = (.ok x, w')) : Tracks env S (fun _ _ => False) w w' := (lGood hd env.fuel).2.2 S i n v w x w' hk hr

theorem tr_setAttr (hd : SeparateNames env) (i : Nat) (n : String) (v : Val) : Tr0 env S (setAttr env i n v) := by
  intro w x w' hr
  unfold setAttr at hr
  replace hr := get_bind_ok hr
  cases hl : (w.cdef env i).localKey? n with
  | none => rw [hl] at hr; exact tr_setField hd hl hr
  | some f =>
    rw [hl] at hr
    simp only at hr
    unfold setLocalKey at hr
    replace hr := get_bind_ok hr
    obtain ⟨hf, hs, rfl⟩ := localKey_found hl
    split at hr
    · cases hr; exact Tracks.refl _
    · obtain ⟨_, w1, h1, h2⟩ := bind_ok hr
      obtain ⟨_, w2, h3, h4⟩ := bind_ok h2
      have raw : ∀ S u, Tr env S (AtField i f) (rawSet i f.refName u) := fun S u => (tr_rawSet i f.refName u).widen (fun j a h => ⟨h.1, .inr ⟨hs, h.2⟩⟩)
      have hset : ∀ S u, Tr env S (AtField i f) (setField env i f.name u) := fun S u w x w' hr =>
        (tr_setField hd (not_key hd hf w i) hr).weaken
      have t1 : ∀ S, Tr env S (AtField i f) (setLocalKeyField env i f v) := by
        intro S
        unfold setLocalKeyField
        split
        · exact (raw S _).bind (fun _ => hset S _)
        · split
          · exact (raw S _).bind (fun _ => hset S _)
          · exact (raw S _).bind (fun _ => (Tr.read _).bind (fun _ => hset S _))
          · exact Tr.raise _
        · exact Tr.pure _
      have t3 := raw (fun _ => True) v w2 _ w' h4
      refine Tracks.closeField hd hf ((t1 S w _ w1 h1).trans ((tr_markModified i f.name w1 _ w2 h3).weaken.trans (raw S v w2 _ w' h4))) (fun hn => ?_)
      exact t3.keep i trivial _ (markModified_mem i f.name h3 ((t3.new i trivial).symm.trans hn))

/-! ### Methods of lists and dicts -/

theorem tr_forEvs {ε : Type} {run : ε → Py World Unit} (log : List ε) (h : ∀ e ∈ log, Tr env S ex (run e)) : Tr env S ex (forEvs run log) := by
  induction log with
  | nil => exact Tr.pure _
  | cons e es ih => exact (h e (by simp)).bind (fun _ => ih (fun e' h' => h e' (by simp [h'])))

theorem tr_raiseOpt (e : Option Exc) : Tr env S ex (raiseOpt e) := by
  cases e
  · exact Tr.pure _
  · exact Tr.raise _

theorem tr_ownerLEv (hd : SeparateNames env) (i : Nat) (n : String) (e : LEv Val) : Tr0 env S (ownerLEv env i n e) := by
  cases e with
  | will => exact tr_willChange _ _ _
  | add k v => exact ((lGood hd env.fuel).2.1 S i n k v).1
  | del v => exact ((uGood hd env.fuel).2 S i n v).1
  | sor => exact tr_markModified _ _

theorem tr_odictAdd (i : Nat) (n : String) (m : Nat) : ∀ v, Tr0 env S (odictAdd i n m v) := by
  induction m with
  | zero => intro v; exact Tr.raise _
  | succ m ih =>
    intro v
    cases v with
    | list xs => exact (tr_markModified _ _).bind (fun _ => ih _)
    | dict xs => exact (tr_markModified _ _).bind (fun _ => ih _)
    | _ => exact tr_markModified _ _

theorem tr_ownerDEv (i : Nat) (n : String) (e : DEv Val) : Tr0 env S (ownerDEv env i n e) := by
  cases e with
  | will => exact tr_willChange _ _ _
  | add k v => exact tr_odictAdd _ _ _ _
  | del v => exact tr_markModified _ _

/-- one of the calls reports the attribute -/
theorem forEvs_marked {ε : Type} {run : ε → Py World Unit} {i : Nat} {n : String} {P : ClassDef → Prop} (log : List ε)
    (ht : ∀ e ∈ log, Tr0 env (fun _ => True) (run e)) {e : ε} (he : e ∈ log)
    (hm : ∀ w w', P (w.cdef env i) → run e w = (.ok (), w') → MarkedAt env w' i n) :
    ∀ {w w' : World}, P (w.cdef env i) → forEvs run log w = (.ok (), w') → MarkedAt env w' i n := by
  induction log with
  | nil => cases he
  | cons d ds ih =>
    intro w w' hP h
    obtain ⟨_, w1, h1, h2⟩ := bind_ok h
    have t1 := ht d (by simp) w _ w1 h1
    rcases List.mem_cons.1 he with rfl | he
    · exact (hm w w1 hP h1).mono (S := fun _ => True) trivial (tr_forEvs ds (fun e' h' => ht e' (by simp [h'])) w1 _ w' h2)
    · exact ih (fun e' h' => ht e' (by simp [h'])) he (by rw [t1.cdef trivial]; exact hP) h2

/-- an event of a sort -/
def LEv.isSor {α : Type} : LEv α → Bool
  | .sor => true
  | _ => false

theorem no_key {cd : ClassDef} {n : String} (h : ∀ f ∈ cd.fields, f.store = .localKey → f.refName ≠ n) : cd.localKey? n = none := by
  refine List.find?_eq_none.2 (fun f hf hc => ?_)
  simp only [Bool.and_eq_true, decide_eq_true_eq] at hc
  exact h f hf hc.1 hc.2

theorem marked_modified {w w' : World} {i : Nat} {n : String} (hl : (w.cdef env i).localKey? n = none) (h : markModified i n w = (.ok (), w')) :
    MarkedAt env w' i n := by
  have t := tr_markModified (env := env) (S := fun _ => True) i n w _ w' h
  exact marked_name (by rw [t.cdef trivial]; exact hl) (markModified_mem i n h)

theorem marked_odictAdd {i : Nat} {n : String} (m : Nat) : ∀ {v : Val} {w w' : World}, (w.cdef env i).localKey? n = none →
    odictAdd i n m v w = (.ok (), w') → MarkedAt env w' i n := by
  induction m with
  | zero => intro v w w' _ h; cases h
  | succ m ih =>
    intro v w w' hl h
    have two : ∀ u, (do markModified i n; odictAdd i n m u) w = (.ok (), w') → MarkedAt env w' i n := by
      intro u h
      obtain ⟨_, w1, h1, h2⟩ := bind_ok h
      have t := tr_markModified (env := env) (S := fun _ => True) i n w _ w1 h1
      exact ih (by rw [t.cdef trivial]; exact hl) h2
    cases v with
    | list xs => exact two _ h
    | dict xs => exact two _ h
    | _ => exact marked_modified hl h

theorem sor_only {α : Type} {eqv : α → α → Bool} {op : LOp α} {xs : List α} (h : .sor ∈ (ownedOp eqv op xs).log) :
    op = .reverse ∨ ∃ f e, op = .sort f e := by
  have hadds : ∀ s k (ys : List α), LEv.sor ∉ addsFrom s k ys := by
    intro s k ys
    induction ys generalizing k with
    | nil => simp [addsFrom]
    | cons y ys ih => simp [addsFrom, ih]
  have hdels : ∀ ys : List α, LEv.sor ∉ dels ys := by intro ys; simp [dels]
  have hnot : ∀ r (evs : List α → List (LEv α)), (∀ ys, LEv.sor ∉ evs ys) → LEv.sor ∉ (notified xs r evs).log := by
    intro r evs he
    unfold notified
    split <;> simp [he, failed]
  have hext : ∀ a : ItArg α, LEv.sor ∉ (ownedExtend a xs).log := by
    intro a
    cases a <;> simp only [ownedExtend, List.mem_append, not_or] <;> (first | exact ⟨by split <;> simp, hadds _ _ _⟩ | simp)
  cases op with
  | append v => simp [ownedOp] at h
  | extend a => exact absurd h (hext a)
  | insert k v => simp [ownedOp] at h
  | remove v => exact absurd h (hnot _ _ (fun _ => by simp))
  | sort f e => exact .inr ⟨_, _, rfl⟩
  | clear => simp [ownedOp, hdels] at h
  | pop k => exact absurd h (hnot _ _ (fun _ => hdels _))
  | reverse => exact .inl rfl
  | iadd a => exact absurd h (hext a)
  | imul n =>
    simp only [ownedOp, List.mem_append] at h
    rcases h with (h | h) | h
    · split at h <;> simp at h
    · exact absurd h (hdels _)
    · exact absurd h (hadds _ _ _)
  | setIdx k v => exact absurd h (hnot _ _ (fun _ => by simp [hdels]))
  | setSlice sl a =>
    simp only [ownedOp] at h
    split at h
    · simp at h
    · exact absurd h (hnot _ _ (fun _ => by simp [hdels, hadds]))
  | delIdx k => exact absurd h (hnot _ _ (fun _ => hdels _))
  | delSlice sl =>
    simp only [ownedOp] at h
    split at h
    · simp at h
    · exact absurd h (hnot _ _ (fun _ => hdels _))

/-- announcing a change changes no value -/
theorem willChange_attr {d : Bool} {i : Nat} {n : String} {w w' : World} {x : Unit} (h : willChange env d i n w = (.ok x, w')) (j : Nat) (a : String) :
    w'.attr j a = w.attr j a := by
  unfold willChange at h
  simp only at h
  split at h
  · split at h
    · cases h
    · cases h; rfl
  · split at h
    · cases h
      simp only [World.attr, World.upd]
      split
      · rename_i hj; subst hj; rfl
      · rfl
    · cases h; rfl

theorem forEvs_attr {ε : Type} {run : ε → Py World Unit} {i : Nat} {a : String} (log : List ε)
    (h : ∀ e ∈ log, ∀ w x w', run e w = (.ok x, w') → w'.attr i a = w.attr i a) :
    ∀ {w w' : World} {x : Unit}, forEvs run log w = (.ok x, w') → w'.attr i a = w.attr i a := by
  induction log with
  | nil => intro w w' x hr; cases hr; rfl
  | cons e es ih =>
    intro w w' x hr
    obtain ⟨_, w1, h1, h2⟩ := bind_ok hr
    exact (ih (fun e' h' => h e' (by simp [h'])) h2).trans (h e (by simp) w _ w1 h1)

theorem tracks_rawSame {i : Nat} {n : String} {v : Val} {w w' : World} {x : Unit} (hv : w.attr i n = v) (h : rawSet i n v w = (.ok x, w')) :
    Tracks env S (fun _ _ => False) w w' := by
  have t := tr_rawSet (env := env) (S := S) i n v w x w' h
  cases h
  refine ⟨t.cls, t.new, t.keep, t.flag, ?_, t.known, t.some, t.next⟩
  intro j hj hn f hf a ha hex hne
  by_cases hc : j = i ∧ a = n
  · obtain ⟨rfl, rfl⟩ := hc
    exact absurd (by simp [World.attr, World.upd, ← hv]) hne
  · exact t.report j hj hn f hf a ha hc hne

/-- Announcement, change, reports: the shape of all methods. -/
theorem tracks_method {ε : Type} {run : ε → Py World Unit} {skip : ε → Bool} {i : Nat} {n : String} {v : Val} {log : List ε} {exc : Option Exc}
    {P : ClassDef → Prop} {w w' : World} {x : Unit}
    (ht : ∀ S, ∀ e ∈ log, Tr0 env S (run e))
    (hw : ∀ e ∈ log, skip e = true → ∀ w x w', run e w = (.ok x, w') → w'.attr i n = w.attr i n)
    (hm : ∀ e ∈ log, skip e = false → ∀ w w', P (w.cdef env i) → run e w = (.ok (), w') → MarkedAt env w' i n)
    (hP : P (w.cdef env i)) (hsame : (∀ e ∈ log, skip e = true) → w.attr i n = v)
    (h : (do forEvs run (log.filter skip); rawSet i n v; forEvs run (log.filter (fun e => !skip e)); raiseOpt exc) w = (.ok x, w')) :
    Tracks env S (fun _ _ => False) w w' := by
  obtain ⟨_, w1, h1, h2⟩ := bind_ok h
  obtain ⟨_, w2, h3, h4⟩ := bind_ok h2
  obtain ⟨_, w3, h5, h6⟩ := bind_ok h4
  have te : ∀ S (p : ε → Bool), Tr0 env S (forEvs run (log.filter p)) :=
    fun S p => tr_forEvs _ (fun e he => ht S e (List.mem_filter.1 he).1)
  have t1 := fun S => te S _ w _ w1 h1
  have t2 := fun S => tr_rawSet (env := env) (S := S) i n _ w1 _ w2 h3
  have t3 := te S _ w2 _ w3 h5
  refine Tracks.trans ?_ (tr_raiseOpt (env := env) (S := S) (ex := fun _ _ => False) _ w3 _ w' h6)
  refine (t1 S).trans ?_
  by_cases hno : ∀ e ∈ log, skip e = true
  · refine (tracks_rawSame ?_ h3).trans t3
    rw [← hsame hno]
    exact forEvs_attr _ (fun e he => hw e (List.mem_filter.1 he).1 (List.mem_filter.1 he).2) h1
  · obtain ⟨e, he, hb⟩ : ∃ e ∈ log, skip e = false := by
      refine Classical.byContradiction (fun hc => hno (fun e he => ?_))
      cases hb : skip e with
      | true => rfl
      | false => exact absurd ⟨e, he, hb⟩ hc
    refine ((t2 S).trans t3.weaken).close (forEvs_marked (P := P) _ (fun e he => ht _ e (List.mem_filter.1 he).1)
      (List.mem_filter.2 ⟨he, by simp [hb]⟩) (hm e he hb) ?_ h5)
    rw [(t2 (fun _ => True)).cdef trivial, (t1 (fun _ => True)).cdef trivial]
    exact hP

theorem tr_op (hd : SeparateNames env) {i : Nat} {op : FOp} {w w' : World} {x : Unit} (hp : op.Reports (w.cdef env i))
    (h : op.run env i w = (.ok x, w')) : Tracks env S (fun _ _ => False) w w' := by
  cases op with
  | set n v => exact tr_setAttr hd i n v w x w' h
  | lst n op =>
    obtain ⟨hrep, hsort⟩ := hp
    replace h : listOp env i n op w = _ := h
    unfold listOp at h
    replace h := get_bind_ok h
    cases ha : w.attr i n with
    | list xs =>
      rw [ha] at h
      refine tracks_method (skip := LEv.isWill) (P := fun cd => (op = .reverse ∨ ∃ f e, op = .sort f e) → cd.localKey? n = none)
        (fun S e _ => tr_ownerLEv hd i n e) ?_ ?_ (fun hs => no_key (hsort hs)) (fun hno => by rw [ha, reported_same hrep hno]) h
      · intro e _ hw w x w' hr
        cases e with
        | will => exact willChange_attr hr _ _
        | _ => cases hw
      · intro e he hw w w' hP hr
        cases e with
        | will => cases hw
        | add k v => exact ((lGood hd env.fuel).2.1 (fun _ => True) i n k v).2 w w' hr
        | del v => exact ((uGood hd env.fuel).2 (fun _ => True) i n v).2 w w' hr
        | sor => exact marked_modified (hP (sor_only he)) hr
    | _ => rw [ha] at h; cases h
  | dct n op =>
    obtain ⟨hi, hex, hkey⟩ := hp
    replace h : dictOp env i n op w = _ := h
    unfold dictOp at h
    replace h := get_bind_ok h
    cases ha : w.attr i n with
    | dict kvs =>
      rw [ha] at h
      refine tracks_method (skip := DEv.isWill) (P := fun cd => cd.localKey? n = none)
        (fun S e _ => tr_ownerDEv i n e) ?_ ?_ (no_key hkey) (fun hno => by rw [ha, reported_same_dict hi hex hno]) h
      · intro e _ hw w x w' hr
        cases e with
        | will => exact willChange_attr hr _ _
        | _ => cases hw
      · intro e he hw w w' hP hr
        cases e with
        | will => cases hw
        | add k v => exact marked_odictAdd _ hP hr
        | del v => exact marked_modified hP hr
    | _ => rw [ha] at h; cases h

theorem tracks_completed (hd : SeparateNames env) {w w' : World} (h : Completed env w w') : Tracks env S (fun _ _ => False) w w' := by
  induction h with
  | none w => exact Tracks.refl _
  | more hp h1 _ ih => exact (tr_op hd hp h1).trans ih

/-- **C74**. After any completed history over any objects, every field of every persisted object
whose value or whose reference ids differ from before is in `modified_fields` under the field's
name, unless it is a relation to a single object that was cleared from the other side. -/
theorem relation_changes_reported (hd : SeparateNames env) {w w' : World} (h : Completed env w w') {j : Nat} (hn : (w.heap j).isNew = false)
    {f : Field} (hf : f ∈ (env.cls (w.heap j).cls).fields) {a : String} (ha : KeptIn f a) (hc : (w'.heap j).attrs a ≠ (w.heap j).attrs a) :
    f.name ∈ (w'.heap j).modFields ∨ ClearedFrom env (w'.heap j) a :=
  (tracks_completed (S := fun _ => True) hd h).report j trivial hn f hf a ha id hc

/-- **C74**, `is_modified`. If it is True exactly when there are modified fields, it stays so,
except that it may be False while all modified fields are single relations stored by reference
id, the other side of some field. It never turns False. -/
theorem modified_flag_follows (hd : SeparateNames env) {w w' : World} (h : Completed env w w') (j : Nat)
    (hw : (w.heap j).isModified = true ↔ (w.heap j).modFields ≠ []) :
    ((w'.heap j).isModified = true → (w'.heap j).modFields ≠ []) ∧
    (∀ n ∈ (w'.heap j).modFields, (w'.heap j).isModified = true ∨ SingleKey env n) ∧
    ((w.heap j).isModified = true → (w'.heap j).isModified = true) ∧ ∀ n ∈ (w.heap j).modFields, n ∈ (w'.heap j).modFields := by
  have t := tracks_completed (S := fun _ => True) hd h
  refine ⟨t.some j trivial hw.1, t.known j trivial (fun n hn => .inl (hw.2 ?_)), t.flag j trivial, t.keep j trivial⟩
  intro h0; rw [h0] at hn; cases hn

end JC

namespace JC.TrackDemo

open JC
open JC.Demo (fId attrsOf)

/-- Articles with tags, kept on both sides: the article stores the ids of its tags. -/
def fTags : Field := { name := "tags", jsonName := "tags", store := .localKey, ftype := .list, refName := "tag_ids", jrefName := "tagIds",
                       foreign := some ("Tag", "arts"), chain := [.listOf false .no [.instOf "Tag" none]] }
def fArts : Field := { name := "arts", jsonName := "arts", store := .foreignKey, ftype := .list,
                       foreign := some ("Art", "tags"), chain := [.listOf false .no [.instOf "Art" none]] }
/-- An article has one cover, which stores its id. -/
def fCover : Field := { name := "cover", jsonName := "cover", store := .foreignKey, ftype := .inst, isInst := true,
                        foreign := some ("Cover", "art"), chain := [.instOf "Cover" none] }
def fArt : Field := { name := "art", jsonName := "art", store := .localKey, ftype := .inst, isInst := true, refName := "art_id", jrefName := "artId",
                      foreign := some ("Art", "cover"), chain := [.instOf "Art" none] }
def art : ClassDef := { name := "Art", primary := some "id", fields := [fId, fTags, fCover] }
def tag : ClassDef := { name := "Tag", primary := some "id", fields := [fId, fArts] }
def cover : ClassDef := { name := "Cover", primary := some "id", fields := [fId, fArt] }
def env : Env where
  cls := fun n => if n = "Art" then art else if n = "Tag" then tag else if n = "Cover" then cover else {}
  pystr := fun v => match v with
    | .str s => s
    | _ => ""

/-- A persisted article with two tags and a cover; tag 4 is new and has no id. -/
def world : World where
  heap := fun i => match i with
    | 0 => { cls := "Art", isNew := false, graph := 0, attrs := attrsOf [("id", .str "a"), ("tags", .list [.obj 1, .obj 2]),
             ("tag_ids", .list [.str "t1", .str "t2"]), ("cover", .obj 3)] }
    | 1 => { cls := "Tag", isNew := false, graph := 0, attrs := attrsOf [("id", .str "t1"), ("arts", .list [.obj 0])] }
    | 2 => { cls := "Tag", isNew := false, graph := 0, attrs := attrsOf [("id", .str "t2"), ("arts", .list [.obj 0])] }
    | 3 => { cls := "Cover", isNew := false, graph := 0, attrs := attrsOf [("id", .str "c"), ("art", .obj 0), ("art_id", .str "a")] }
    | 4 => { cls := "Tag", graph := 0, attrs := attrsOf [("arts", .list [])] }
    | _ => {}
  next := 5

theorem env_cases (cls : String) : env.cls cls = art ∨ env.cls cls = tag ∨ env.cls cls = cover ∨ env.cls cls = {} := by
  simp only [env]
  split
  · exact .inl rfl
  · split
    · exact .inr (.inl rfl)
    · split
      · exact .inr (.inr (.inl rfl))
      · exact .inr (.inr (.inr rfl))

theorem names : SeparateNames env := by
  have mem : ∀ c, ∀ f ∈ (env.cls c).fields, f = fId ∨ f = fTags ∨ f = fCover ∨ f = fArts ∨ f = fArt := by
    intro c f hf
    rcases env_cases c with h | h | h | h <;> rw [h] at hf <;>
      simp only [art, tag, cover, List.mem_cons, List.not_mem_nil, or_false] at hf
    · rcases hf with h | h | h <;> simp [h]
    · rcases hf with h | h <;> simp [h]
    · rcases hf with h | h <;> simp [h]
  intro c
  refine ⟨fun f hf g hg a ha hb => ?_, fun d f hf g hg hs => ?_⟩
  · rcases mem c f hf with rfl | rfl | rfl | rfl | rfl <;> rcases mem c g hg with rfl | rfl | rfl | rfl | rfl <;>
      first
      | rfl
      | (exfalso; revert ha hb; simp only [KeptIn, fId, fTags, fCover, fArts, fArt]; rintro (h | ⟨h, h'⟩) (k | ⟨k, k'⟩) <;> simp_all)
  · rcases mem c f hf with rfl | rfl | rfl | rfl | rfl <;> rcases mem d g hg with rfl | rfl | rfl | rfl | rfl <;>
      simp_all [fId, fTags, fCover, fArts, fArt]

/-- the operation completes -/
def completes (r : Except Exc Unit × World) : Bool := match r.1 with
  | .ok _ => true
  | .error _ => false

theorem completes_eq {r : Except Exc Unit × World} (h : completes r = true) : r = (.ok (), r.2) := by
  rcases r with ⟨e | u, w⟩
  · cases h
  · rfl

/-- `tag1.arts.remove(article)`: a change from the other side; then `article.tag_ids.append("t9")`. -/
def op₁ : FOp := .lst "arts" (.remove (.obj 0))
def op₂ : FOp := .lst "tag_ids" (.append (.str "t9"))
def w₁ : World := (op₁.run env 1 world).2
def w₂ : World := (op₂.run env 0 w₁).2

theorem reports₁ : op₁.Reports tag := ⟨⟨trivial, fun _ _ h => by cases h⟩, fun h => by rcases h with h | ⟨_, _, h⟩ <;> cases h⟩
theorem reports₂ (cd : ClassDef) : op₂.Reports cd := ⟨⟨trivial, fun _ _ h => by cases h⟩, fun h => by rcases h with h | ⟨_, _, h⟩ <;> cases h⟩

theorem history : Completed env world w₂ :=
  .more (i := 1) reports₁ (completes_eq (by decide +kernel)) (.more (i := 0) (reports₂ _) (completes_eq (r := op₂.run env 0 w₁) (by decide +kernel)) (.none _))

/-- The article is persisted; its tags and their ids change, from both sides. -/
theorem changed : (world.heap 0).isNew = false ∧ w₂.attr 0 "tags" = .list [.obj 2] ∧ w₂.attr 0 "tag_ids" = .list [.str "t2", .str "t9"] ∧
    (w₂.heap 0).modFields = ["tags"] ∧ (w₂.heap 0).isModified = true := by
  refine ⟨rfl, by rfl, by rfl, by rfl, by rfl⟩

/-- The hypotheses of the theorems are met by a history that changes a field. -/
example : fTags.name ∈ (w₂.heap 0).modFields ∨ ClearedFrom env (w₂.heap 0) "tag_ids" :=
  relation_changes_reported names history rfl (f := fTags) (by simp [env, world, art]) (.inr ⟨rfl, rfl⟩) (by
    have h := changed.2.2.1
    unfold World.attr at h
    rw [h]
    simp [world, attrsOf, dictGet])
example := (modified_flag_follows names history 0 (by decide +kernel)).2.1

/-- A single relation cleared from the other side: `article.cover = None`. The cover loses the
article and its id; its modified fields name the relation, but it is not modified. -/
theorem unlinked_not_modified :
    let w' := (FOp.run env 0 (.set "cover" .none) world).2
    completes (FOp.run env 0 (.set "cover" .none) world) = true ∧ (world.heap 3).isNew = false ∧
    world.attr 3 "art_id" = .str "a" ∧ w'.attr 3 "art_id" = .none ∧ (w'.heap 3).modFields = ["art"] ∧ (w'.heap 3).isModified = false := by
  refine ⟨by decide +kernel, rfl, rfl, by rfl, by rfl, by rfl⟩

/-- From the side that stores the id, `cover.art = None`: the article loses its cover and reports
nothing. -/
theorem unlinked_not_reported :
    let w' := (FOp.run env 3 (.set "art" .none) world).2
    completes (FOp.run env 3 (.set "art" .none) world) = true ∧ (world.heap 0).isNew = false ∧
    world.attr 0 "cover" = .obj 3 ∧ w'.attr 0 "cover" = .none ∧ (w'.heap 0).modFields = [] ∧ (w'.heap 0).isModified = false := by
  refine ⟨by decide +kernel, rfl, rfl, by rfl, by rfl, by rfl⟩

/-- `article.tag_ids.reverse()`: the modified field is called `tag_ids`, which is no field, so
`persisted_modified_fields` raises. -/
theorem ids_reversed_misreported :
    let w' := (FOp.run env 0 (.lst "tag_ids" .reverse) world).2
    completes (FOp.run env 0 (.lst "tag_ids" .reverse) world) = true ∧ w'.attr 0 "tag_ids" = .list [.str "t2", .str "t1"] ∧
    (w'.heap 0).modFields = ["tag_ids"] ∧ persistedModified art (w'.heap 0).modFields = .error .valueError := by
  refine ⟨by decide +kernel, by rfl, by rfl, by rfl⟩

/-- `article.tags.append(tag)` with a tag without id raises, and leaves the tag in the list of an
article that reports nothing. -/
theorem failed_append_unreported :
    let r := FOp.run env 0 (.lst "tags" (.append (.obj 4))) world
    completes r = false ∧ r.2.attr 0 "tags" = .list [.obj 1, .obj 2, .obj 4] ∧ (r.2.heap 0).modFields = [] ∧ (r.2.heap 0).isModified = false := by
  refine ⟨by decide +kernel, by rfl, by rfl, by rfl⟩

end JC.TrackDemo
