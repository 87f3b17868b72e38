import Verif.Model.Operator
import Verif.Props.LocalKey
import Verif.Props.Assign
import Verif.Props.Construct
import Verif.Props.Permit

/-
C59: operator assignment.
-/
namespace JC
variable {env : Env}

/-! ### Specification -/

/-- The two states differ at most in the operator of object `i` and in the reference ids `ns`
of object `i`. -/
def OnlyKeys (i : Nat) (ns : List String) (w w' : World) : Prop :=
  (∀ j, j ≠ i → w'.heap j = w.heap j) ∧
  (∃ op at', w'.heap i = { w.heap i with operator := op, attrs := at' } ∧ ∀ n, n ∉ ns → at' n = (w.heap i).attrs n) ∧
  (∀ h, { w' with heap := h } = { w with heap := h })

/-- Whose key is assigned to a field: the operator's, or that of the object that the
transformer yields in some state on the way, where the operator is already recorded. -/
def OwnerFor (i : Nat) (op : Val) (ns : List String) (w : World) (a : OpField) (x : Nat) : Prop :=
  match a.transformer with
  | none => op = .obj x
  | some (_, f) => ∃ w₁, OnlyKeys i ns w w₁ ∧ (w₁.heap i).operator = op ∧ f w₁.heap op i = .ok (.obj x)

/-- A stored value is a key, as far as `==` can tell. -/
def HoldsKey (v k : Val) : Prop := v = k ∨ pyEq k v = true

/-- The declaration assigns something: no transformer, or one with one or two parameters. -/
def OpField.Assigns (a : OpField) : Prop := ∀ n f, a.transformer = some (n, f) → n = 1 ∨ n = 2

/-- The reference ids of the fields. -/
def refNames (fs : List OpField) : List String := fs.map fun a => a.field.refName

/-- The fields to assign are relations kept by one reference id each, without a loaded object. -/
structure Assignable (env : Env) (w : World) (i : Nat) (fs : List OpField) : Prop where
  key : ∀ a ∈ fs, (w.cdef env i).localKey? a.field.refName = some a.field
  field : ∀ a ∈ fs, (w.cdef env i).field? a.field.name = some a.field
  one : ∀ a ∈ fs, a.field.ftype = .inst
  empty : ∀ a ∈ fs, w.attr i a.field.name = .none
  names : ∀ a ∈ fs, ∀ b ∈ fs, a.field.name ≠ b.field.refName
  distinct : (refNames fs).Nodup
  primary : ∀ a ∈ fs, ∀ c, (env.cls c).primary ≠ some a.field.refName

/-! ### Assigning one key -/

/-- the object with a reference id replaced -/
def withKey (n : String) (v : Val) (o : Obj) : Obj := { o with attrs := fun m => if m = n then v else o.attrs m }

theorem setKey_run (hfuel : env.fuel ≠ 0) {w : World} {i : Nat} {f : Field} (v : Val) (hnew : (w.heap i).isNew = true)
    (hk : (w.cdef env i).localKey? f.refName = some f) (hf : (w.cdef env i).field? f.name = some f) (hi : f.ftype = .inst)
    (he : w.attr i f.name = .none) (hn : f.name ≠ f.refName) :
    setAttr env i f.refName v w =
      (.ok (), if pyEq v (w.attr i f.refName) then w else w.upd i (withKey f.refName v)) := by
  obtain ⟨m, hm⟩ := Nat.exists_eq_succ_of_ne_zero hfuel
  obtain ⟨-, hs, -⟩ := localKey_mem hk
  have h0 : setAttr env i f.refName v w = setLocalKey env i f v w := by
    unfold setAttr
    simp only [Py.bind_run, Py.get, hk]
  rw [h0]
  unfold setLocalKey
  simp only [Py.bind_run, Py.get]
  cases hp : pyEq v (w.attr i f.refName) with
  | true => simp [Py.pure_run]
  | false =>
    simp only [Bool.false_eq_true, if_false]
    have h1 : rawSet i f.refName v w = (.ok (), w.upd i (withKey f.refName v)) := rfl
    have hc : (w.upd i (withKey f.refName v)).cdef env i = w.cdef env i := cdef_upd rfl
    have ha : (w.upd i (withKey f.refName v)).attr i f.name = .none := by
      unfold World.attr
      rw [upd_heap_self]
      simp only [withKey, if_neg hn]
      exact he
    have h2 : setField env i f.name .none (w.upd i (withKey f.refName v)) = (.ok (), w.upd i (withKey f.refName v)) := by
      unfold setField
      rw [hm]
      simp only [runL, setBody, Py.bind_run, Py.get, hc, hf, ha]
      simp [hs, pyEq, Py.pure_run]
    have h3 : setLocalKeyField env i f v w = (.ok (), w.upd i (withKey f.refName v)) := by
      unfold setLocalKeyField
      rw [hi]
      simp only [Py.bind_run, h1, h2]
    have h4 : markModified i f.name (w.upd i (withKey f.refName v)) = (.ok (), w.upd i (withKey f.refName v)) := by
      rw [markModified_run]
      congr 1
      rw [upd_upd]
      apply upd_congr
      simp [markObj, withKey, hnew]
    have h5 : rawSet i f.refName v (w.upd i (withKey f.refName v)) = (.ok (), w.upd i (withKey f.refName v)) := by
      change (_, (w.upd i (withKey f.refName v)).upd i (withKey f.refName v)) = _
      congr 1
      rw [upd_upd]
      apply upd_congr
      simp only [withKey]
      congr 1
      funext m
      split <;> rfl
    simp only [Py.bind_run, h3, h4, h5]

/-! ### Frame -/

theorem OnlyKeys.refl (i : Nat) (ns : List String) (w : World) : OnlyKeys i ns w w :=
  ⟨fun _ _ => rfl, ⟨_, _, rfl, fun _ _ => rfl⟩, fun _ => rfl⟩

theorem OnlyKeys.trans {i : Nat} {ns : List String} {w₁ w₂ w₃ : World} (h : OnlyKeys i ns w₁ w₂) (h' : OnlyKeys i ns w₂ w₃) :
    OnlyKeys i ns w₁ w₃ := by
  obtain ⟨a1, ⟨o1, t1, e1, f1⟩, c1⟩ := h
  obtain ⟨a2, ⟨o2, t2, e2, f2⟩, c2⟩ := h'
  refine ⟨fun j hj => (a2 j hj).trans (a1 j hj), ⟨o2, t2, ?_, fun n hn => ?_⟩, fun x => (c2 x).trans (c1 x)⟩
  · rw [e2, e1]
  · rw [f2 n hn, e1]; exact f1 n hn

theorem OnlyKeys.mono {i : Nat} {ns ms : List String} {w₁ w₂ : World} (h : OnlyKeys i ns w₁ w₂) (hs : ∀ n ∈ ns, n ∈ ms) :
    OnlyKeys i ms w₁ w₂ := by
  obtain ⟨a1, ⟨o1, t1, e1, f1⟩, c1⟩ := h
  exact ⟨a1, ⟨o1, t1, e1, fun n hn => f1 n fun hm => hn (hs n hm)⟩, c1⟩

theorem OnlyKeys.cls {i : Nat} {ns : List String} {w w' : World} (h : OnlyKeys i ns w w') (j : Nat) :
    w'.cdef env j = w.cdef env j := by
  obtain ⟨a1, ⟨o1, t1, e1, -⟩, -⟩ := h
  unfold World.cdef
  by_cases hj : j = i
  · subst hj; rw [e1]
  · rw [a1 j hj]

theorem OnlyKeys.isNew {i : Nat} {ns : List String} {w w' : World} (h : OnlyKeys i ns w w') :
    (w'.heap i).isNew = (w.heap i).isNew := by
  obtain ⟨-, ⟨o1, t1, e1, -⟩, -⟩ := h
  rw [e1]

theorem OnlyKeys.attr {i : Nat} {ns : List String} {w w' : World} (h : OnlyKeys i ns w w') {n : String} (hn : n ∉ ns) (j : Nat) :
    w'.attr j n = w.attr j n := by
  obtain ⟨a1, ⟨o1, t1, e1, f1⟩, -⟩ := h
  unfold World.attr
  by_cases hj : j = i
  · subst hj; rw [e1]; exact f1 n hn
  · rw [a1 j hj]

theorem OnlyKeys.id {i : Nat} {ns : List String} {w w' : World} (h : OnlyKeys i ns w w')
    (hp : ∀ n ∈ ns, ∀ c, (env.cls c).primary ≠ some n) (j : Nat) : w'.id env j = w.id env j := by
  unfold World.id
  rw [h.cls j]
  cases hq : (w.cdef env j).primary with
  | none => rfl
  | some n => exact h.attr (fun hn => hp n hn _ hq) j

theorem onlyKeys_withKey (w : World) (i : Nat) (n : String) (v : Val) : OnlyKeys i [n] w (w.upd i (withKey n v)) := by
  refine ⟨fun j hj => upd_heap_other w _ hj, ⟨(w.heap i).operator, (withKey n v (w.heap i)).attrs, ?_, fun m hm => ?_⟩, fun _ => rfl⟩
  · rw [upd_heap_self]; rfl
  · simp only [List.mem_singleton] at hm
    simp [withKey, hm]

theorem onlyKeys_operator (w : World) (i : Nat) (op : Val) :
    OnlyKeys i [] w (w.upd i (fun o => { o with operator := op })) :=
  ⟨fun j hj => upd_heap_other w _ hj, ⟨op, (w.heap i).attrs, by rw [upd_heap_self], fun _ _ => rfl⟩, fun _ => rfl⟩

theorem Assignable.frame {w w' : World} {i : Nat} {fs : List OpField} {ns : List String} (h : Assignable env w i fs)
    (ho : OnlyKeys i ns w w') (hn : ∀ a ∈ fs, a.field.name ∉ ns) : Assignable env w' i fs where
  key a ha := by rw [ho.cls]; exact h.key a ha
  field a ha := by rw [ho.cls]; exact h.field a ha
  one := h.one
  empty a ha := by rw [ho.attr (hn a ha)]; exact h.empty a ha
  names := h.names
  distinct := h.distinct
  primary := h.primary

theorem Assignable.tail {w : World} {i : Nat} {a : OpField} {fs : List OpField} (h : Assignable env w i (a :: fs)) :
    Assignable env w i fs where
  key b hb := h.key b (by simp [hb])
  field b hb := h.field b (by simp [hb])
  one b hb := h.one b (by simp [hb])
  empty b hb := h.empty b (by simp [hb])
  names b hb c hc := h.names b (by simp [hb]) c (by simp [hc])
  distinct := (List.nodup_cons.1 h.distinct).2
  primary b hb := h.primary b (by simp [hb])

/-- assigning one key: what is stored and what stays -/
theorem setKey_spec (hfuel : env.fuel ≠ 0) {w : World} {i : Nat} {a : OpField} {fs : List OpField} (v : Val)
    (hnew : (w.heap i).isNew = true) (hA : Assignable env w i (a :: fs)) :
    ∃ w₁, setAttr env i a.field.refName v w = (.ok (), w₁) ∧ OnlyKeys i [a.field.refName] w w₁ ∧
      (w₁.heap i).operator = (w.heap i).operator ∧ HoldsKey (w₁.attr i a.field.refName) v := by
  have ha : a ∈ a :: fs := by simp
  refine ⟨_, setKey_run hfuel v hnew (hA.key a ha) (hA.field a ha) (hA.one a ha) (hA.empty a ha) (hA.names a ha a ha), ?_⟩
  split
  · rename_i hp
    exact ⟨.refl _ _ _, rfl, Or.inr hp⟩
  · refine ⟨onlyKeys_withKey _ _ _ _, by rw [upd_heap_self]; rfl, Or.inl ?_⟩
    unfold World.attr
    rw [upd_heap_self]
    simp [withKey]

theorem itemId_ok {w : World} {v k : Val} (h : itemId env w v = .ok k) : ∃ x, v = .obj x ∧ k = w.id env x := by
  unfold itemId at h
  split at h
  · injection h with h; exact ⟨_, rfl, h.symm⟩
  · cases h

theorem opbyOne_spec (hfuel : env.fuel ≠ 0) {w : World} {i : Nat} {op : Val} {a : OpField} {fs : List OpField}
    (hnew : (w.heap i).isNew = true) (hop : (w.heap i).operator = op) (hA : Assignable env w i (a :: fs))
    (hok : (opbyOne env i op a w).1 = .ok ()) :
    ∃ w₁, opbyOne env i op a w = (.ok (), w₁) ∧ OnlyKeys i [a.field.refName] w w₁ ∧ (w₁.heap i).operator = op ∧
      (a.Assigns → ∃ x, OwnerFor i op [] w a x ∧ HoldsKey (w₁.attr i a.field.refName) (w.id env x)) := by
  cases ht : a.transformer with
  | none =>
    unfold opbyOne at hok ⊢
    simp only [ht, Py.bind_run, readW] at hok ⊢
    cases hk : itemId env w op with
    | error e => simp [hk] at hok
    | ok k =>
      obtain ⟨x, hx, rfl⟩ := itemId_ok hk
      obtain ⟨w₁, h1, h2, h3, h4⟩ := setKey_spec hfuel (w.id env x) hnew hA
      refine ⟨w₁, h1, h2, h3.trans hop, fun _ => ⟨x, ?_, h4⟩⟩
      unfold OwnerFor; rw [ht]; exact hx
  | some nf =>
    obtain ⟨n, f⟩ := nf
    by_cases hn : n = 1 ∨ n = 2
    · unfold opbyOne at hok ⊢
      simp only [ht, if_pos hn, Py.bind_run, readW] at hok ⊢
      cases hf : f w.heap op i with
      | error e => simp [hf] at hok
      | ok y =>
        simp only [hf] at hok ⊢
        cases hk : itemId env w y with
        | error e => simp [hk] at hok
        | ok k =>
          obtain ⟨x, hx, rfl⟩ := itemId_ok hk
          obtain ⟨w₁, h1, h2, h3, h4⟩ := setKey_spec hfuel (w.id env x) hnew hA
          refine ⟨w₁, h1, h2, h3.trans hop, fun _ => ⟨x, ?_, h4⟩⟩
          unfold OwnerFor; rw [ht]; exact ⟨w, .refl _ _ _, hop, hx ▸ hf⟩
    · refine ⟨w, ?_, .refl _ _ _, hop, fun h => absurd (h n f ht) hn⟩
      unfold opbyOne
      simp only [ht, if_neg hn]
      rfl

/-- one round of the loop -/
theorem opbyStep (hfuel : env.fuel ≠ 0) {w : World} {i : Nat} {op : Val} {a : OpField} {fs : List OpField}
    (hnew : (w.heap i).isNew = true) (hop : (w.heap i).operator = op) (hA : Assignable env w i (a :: fs))
    (hok : (opbyLoop env i op (a :: fs) w).1 = .ok ()) :
    ∃ w₁, opbyLoop env i op (a :: fs) w = opbyLoop env i op fs w₁ ∧ OnlyKeys i [a.field.refName] w w₁ ∧
      (w₁.heap i).operator = op ∧
      (a.Assigns → ∃ x, OwnerFor i op [] w a x ∧ HoldsKey (w₁.attr i a.field.refName) (w.id env x)) := by
  have hok' : (opbyOne env i op a w).1 = .ok () := by
    rw [opbyLoop, Py.bind_run] at hok
    revert hok
    rcases opbyOne env i op a w with ⟨e | u, w₁⟩
    · exact id
    · intro _; rfl
  obtain ⟨w₁, h1, h2⟩ := opbyOne_spec hfuel hnew hop hA hok'
  exact ⟨w₁, by rw [opbyLoop, Py.bind_run, h1], h2⟩

theorem OwnerFor.frame {i : Nat} {op : Val} {ns ms : List String} {w w₁ : World} {a : OpField} {x : Nat}
    (h : OwnerFor i op ns w₁ a x) (ho : OnlyKeys i ms w w₁) (hs : ∀ n ∈ ns, n ∈ ms) : OwnerFor i op ms w a x := by
  unfold OwnerFor at *
  split
  · rename_i ht; rw [ht] at h; exact h
  · rename_i n f ht
    rw [ht] at h
    obtain ⟨w₂, h1, h2, h3⟩ := h
    exact ⟨w₂, ho.trans (h1.mono hs), h2, h3⟩

theorem opbyLoop_spec (hfuel : env.fuel ≠ 0) (i : Nat) (op : Val) : ∀ (fs : List OpField) (w : World),
    (w.heap i).isNew = true → (w.heap i).operator = op → Assignable env w i fs → (opbyLoop env i op fs w).1 = .ok () →
    OnlyKeys i (refNames fs) w (opbyLoop env i op fs w).2 ∧ ((opbyLoop env i op fs w).2.heap i).operator = op ∧
      ∀ a ∈ fs, a.Assigns → ∃ x, OwnerFor i op (refNames fs) w a x ∧
        HoldsKey ((opbyLoop env i op fs w).2.attr i a.field.refName) (w.id env x)
  | [], w, _, hop, _, _ => ⟨.refl _ _ _, hop, by simp⟩
  | a :: fs, w, hnew, hop, hA, hok => by
    obtain ⟨w₁, hrun, hk, hop1, hself⟩ := opbyStep hfuel hnew hop hA hok
    have hA1 : Assignable env w₁ i fs := hA.tail.frame hk (fun b hb => by
      simp only [List.mem_singleton]
      exact hA.names b (by simp [hb]) a (by simp))
    rw [hrun] at hok ⊢
    obtain ⟨h1, h2, h3⟩ := opbyLoop_spec hfuel i op fs w₁ (by rw [hk.isNew]; exact hnew) hop1 hA1 hok
    have hk' : OnlyKeys i (refNames (a :: fs)) w w₁ := hk.mono (by simp [refNames])
    have hsub : ∀ n ∈ refNames fs, n ∈ refNames (a :: fs) := fun n hn => List.mem_cons_of_mem _ hn
    have hid : ∀ x, w₁.id env x = w.id env x := fun x => hk.id (fun n hn c => by
      rw [List.mem_singleton.1 hn]; exact hA.primary a (by simp) c) x
    refine ⟨hk'.trans (h1.mono hsub), h2, fun b hb hbA => ?_⟩
    rcases List.mem_cons.1 hb with rfl | hb'
    · obtain ⟨x, hx, hst⟩ := hself hbA
      refine ⟨x, hx.frame (.refl _ _ _) (by simp), ?_⟩
      rw [h1.attr (List.nodup_cons.1 hA.distinct).1]
      exact hst
    · obtain ⟨x, hx, hst⟩ := h3 b hb' hbA
      exact ⟨x, hx.frame hk' hsub, hid x ▸ hst⟩

/-! ### `opby` -/

theorem opby_run (fs : List OpField) (i : Nat) (op : Val) (w : World) :
    apiOpby env fs i op w =
      if op.isNone = false ∧ (w.heap i).isNew = true then opbyLoop env i op fs (w.upd i (fun o => { o with operator := op }))
      else (.ok (), w.upd i (fun o => { o with operator := op })) := by
  have hn : ((w.upd i (fun o => { o with operator := op })).heap i).isNew = (w.heap i).isNew := by rw [upd_heap_self]
  have h1 : apiOpby env fs i op w = (if op.isNone then pure () else
      if ((w.upd i (fun o => { o with operator := op })).heap i).isNew then opbyLoop env i op fs else pure () : Py World Unit)
        (w.upd i (fun o => { o with operator := op })) := rfl
  rw [h1, hn]
  cases op.isNone <;> cases (w.heap i).isNew <;> rfl

/-- **C59.** When `opby` completes on a new object, the operator is recorded, each field declared
with `asopd` or `asop` holds the key of the operator or of the object that its transformer
yields, and nothing else changes: no other object, no other value, no modification mark.
Missing: fields in which an object is already loaded. -/
theorem opby_assigns_partial (hfuel : env.fuel ≠ 0) {w : World} {i : Nat} {op : Val} {fs : List OpField}
    (hnew : (w.heap i).isNew = true) (hop : op ≠ .none) (hA : Assignable env w i fs)
    (hok : (apiOpby env fs i op w).1 = .ok ()) :
    OnlyKeys i (refNames fs) w (apiOpby env fs i op w).2 ∧ ((apiOpby env fs i op w).2.heap i).operator = op ∧
      ∀ a ∈ fs, a.Assigns → ∃ x, OwnerFor i op (refNames fs) w a x ∧
        HoldsKey ((apiOpby env fs i op w).2.attr i a.field.refName) (w.id env x) := by
  rw [opby_run, if_pos ⟨isNone_false hop, hnew⟩] at hok ⊢
  have h0 := onlyKeys_operator w i op
  obtain ⟨h1, h2, h3⟩ := opbyLoop_spec hfuel i op fs _ (by rw [h0.isNew]; exact hnew) (by rw [upd_heap_self])
    (hA.frame h0 (by simp)) hok
  have h0' : OnlyKeys i (refNames fs) w _ := h0.mono (by simp)
  refine ⟨h0'.trans h1, h2, fun a ha hs => ?_⟩
  obtain ⟨x, hx, hst⟩ := h3 a ha hs
  exact ⟨x, hx.frame h0' (fun _ h => h), h0.id (env := env) (by simp) x ▸ hst⟩

/-- Direct assignment of an object completes. -/
theorem opby_direct_completes (hfuel : env.fuel ≠ 0) (i u : Nat) : ∀ (fs : List OpField) (w : World),
    (w.heap i).isNew = true → Assignable env w i fs → (∀ a ∈ fs, a.transformer = none) →
    (apiOpby env fs i (.obj u) w).1 = .ok () := by
  have hloop : ∀ (fs : List OpField) (w : World), (w.heap i).isNew = true → Assignable env w i fs →
      (∀ a ∈ fs, a.transformer = none) → (opbyLoop env i (.obj u) fs w).1 = .ok () := by
    intro fs
    induction fs with
    | nil => intros; rfl
    | cons a fs ih =>
      intro w hnew hA ht
      obtain ⟨w₁, h1, h2, -, -⟩ := setKey_spec hfuel (w.id env u) hnew hA
      have hrun : opbyLoop env i (.obj u) (a :: fs) w = opbyLoop env i (.obj u) fs w₁ := by
        have h0 : opbyOne env i (.obj u) a w = (.ok (), w₁) := by
          unfold opbyOne
          simp only [ht a (by simp), Py.bind_run, readW, itemId, h1]
        rw [opbyLoop, Py.bind_run, h0]
      rw [hrun]
      exact ih w₁ (by rw [h2.isNew]; exact hnew) (hA.tail.frame h2 (fun b hb => by
        simp only [List.mem_singleton]
        exact hA.names b (by simp [hb]) a (by simp))) (fun b hb => ht b (by simp [hb]))
  intro fs w hnew hA ht
  have h0 := onlyKeys_operator w i (.obj u)
  rw [opby_run, if_pos ⟨rfl, hnew⟩]
  exact hloop fs _ (by rw [h0.isNew]; exact hnew) (hA.frame h0 (by simp)) ht

/-- On an object that is not new, or with no operator, `opby` assigns no field. -/
theorem opby_only_records (fs : List OpField) (i : Nat) (op : Val) (w : World) (h : op = .none ∨ (w.heap i).isNew = false) :
    (apiOpby env fs i op w).1 = .ok () ∧ ((apiOpby env fs i op w).2.heap i).operator = op ∧
      OnlyKeys i [] w (apiOpby env fs i op w).2 := by
  rw [opby_run, if_neg]
  · exact ⟨rfl, by rw [upd_heap_self], onlyKeys_operator w i op⟩
  · rintro ⟨h1, h2⟩
    rcases h with rfl | h
    · cases h1
    · rw [h] at h2; cases h2

/-- A transformer with three parameters can be declared, and assigns nothing. -/
theorem three_parameters_broken (fs : List OpField) (i : Nat) (op : Val) (w : World)
    (h : ∀ a ∈ fs, ∃ f, a.transformer = some (3, f)) :
    (apiOpby env fs i op w).1 = .ok () ∧ OnlyKeys i [] w (apiOpby env fs i op w).2 := by
  have hl : ∀ w : World, opbyLoop env i op fs w = (.ok (), w) := by
    clear w
    induction fs with
    | nil => intro w; rfl
    | cons a fs ih =>
      intro w
      obtain ⟨f, hf⟩ := h a (by simp)
      have h0 : opbyOne env i op a w = (.ok (), w) := by
        unfold opbyOne
        rw [hf]
        rfl
      rw [opbyLoop, Py.bind_run, h0]
      exact ih (fun b hb => h b (by simp [hb])) w
  rw [opby_run, hl, ite_self]
  exact ⟨rfl, onlyKeys_operator w i op⟩

/-! ### The check -/

/-- What the check demands of the object that holds the field. -/
theorem asop_iff {refs : String → String → Option String} {h : Heap} {c : Ctx} {o : Nat} {f : Field} (ho : c.holder = some o) (hk : c.keypathr.getLast? = some (.s f.name))
    (hf : refs (h o).cls f.name = some f.refName) :
    (asopLeaf refs).validate h c = .ok () ↔
      ((h o).isNew = true ∨ f.name ∈ (h o).modFields → (h o).attrs f.refName ≠ .none) := by
  simp only [asopLeaf, ho, hk, hf]
  by_cases hm : (h o).isNew = true ∨ f.name ∈ (h o).modFields
  · rw [if_pos (by simpa [Bool.or_eq_true] using hm)]
    by_cases hv : (h o).attrs f.refName = .none
    · simp [hv, hm, Val.isNone]
    · simp [isNone_false hv, hv]
  · rw [if_neg (by simpa [Bool.or_eq_true] using hm)]
    simp [hm]

/-- On items of a list the check looks for a field named by the index: the objects of a new
object cannot be validated, those of a persisted one are not checked. -/
theorem asop_in_list_broken (refs : String → String → Option String) {h : Heap} {c : Ctx} {o : Nat} {k : Int} (ho : c.holder = some o)
    (hk : c.keypathr.getLast? = some (.i k)) :
    ((h o).isNew = true → (asopLeaf refs).validate h c = .error .valueError) ∧ ((h o).isNew = false → (asopLeaf refs).validate h c = .ok ()) := by
  simp only [asopLeaf, ho, hk]
  constructor <;> intro hn <;> simp [hn]

/-- The check does not look at the operator: a key set by hand is as good as an assigned one. -/
theorem asop_ignores_operator_broken (refs : String → String → Option String) (h h' : Heap) (c : Ctx) (op : Val)
    (hh : ∀ j, ∃ p, h' j = { h j with operator := p }) :
    (asopLeaf refs).validate h' { c with operator := op } = (asopLeaf refs).validate h c := by
  simp only [asopLeaf]
  cases c.holder with
  | none => rfl
  | some o =>
    obtain ⟨p, hp⟩ := hh o
    simp only [hp]
    rfl

/-- After a successful `validate`, a declared field of a new object, and a declared field that
was changed, has a reference id. Missing: that it is the operator's, and objects inside collections. -/
theorem asop_checked_by_validate_partial {refs : String → String → Option String} (he : SoundEnv env) (w : World) (i : Nat) (all : Option Bool) (n : Nat)
    (hv : (apiValidate env n i all w).1 = .ok ())
    {f : Field} (hf : f ∈ (w.cdef env i).fields) (hf' : refs (w.heap i).cls f.name = some f.refName) (ht : f.ftype = .inst)
    (hm : MustCheck (w.heap i) f) (hc : Checked f.chain (.leaf (asopLeaf refs)))
    (hn : (w.heap i).isNew = true ∨ f.name ∈ (w.heap i).modFields) :
    w.attr i f.refName ≠ .none := by
  obtain ⟨J, hroot, hJ⟩ := validate_sound_partial he w i all n hv
  obtain ⟨j, hj, -, hok⟩ := hJ _ hroot
  have : j = i := by simpa [rootCtx] using hj.symm
  subst this
  obtain ⟨v, -, hacc⟩ := hok f hf hm
  cases hacc _ hc with
  | leaf hl => exact (asop_iff (by simp [fieldCtx, ht, rootCtx, Ctx.nexto]) (by simp [fieldCtx, ht, rootCtx, Ctx.nexto]) hf').1 hl hn

/-- The same for each object that `save` writes. -/
theorem asop_checked_by_save_partial {refs : String → String → Option String} (se : SaveEnv) (he : SoundEnv se.env) (all : Bool) (n i : Nat) (s : SState) :
    ∃ l, (saveObj se all false n i s).2.log = s.log ++ l ∧
      ∀ pre post j w', l = pre ++ .written j w' :: post → ∃ pre' w, pre = pre' ++ [.validated j w, .serialized j w'] ∧
        ∀ f ∈ (w.cdef se.env j).fields, refs (w.heap j).cls f.name = some f.refName → f.ftype = .inst → MustCheck (w.heap j) f →
          Checked f.chain (.leaf (asopLeaf refs)) → (w.heap j).isNew = true ∨ f.name ∈ (w.heap j).modFields →
          w.attr j f.refName ≠ .none := by
  obtain ⟨l, hl, hw⟩ := save_writes_validated (se := se) all n i s
  refine ⟨l, hl, fun pre post j w' he' => ?_⟩
  obtain ⟨pre', w₁, w₂, hpre, hv, -⟩ := hw pre post j w' he'
  refine ⟨pre', w₁, hpre, fun f hf hf' ht hm hc hn => ?_⟩
  exact asop_checked_by_validate_partial he w₁ j (some all) se.depth (by rw [hv]) hf hf' ht hm hc hn

/-- An operator that has a key satisfies the check that it is assigned. -/
theorem opby_satisfies_check {refs : String → String → Option String} (hfuel : env.fuel ≠ 0) {w : World} {i u : Nat} {fs : List OpField}
    (hnew : (w.heap i).isNew = true) (hA : Assignable env w i fs) (ht : ∀ a ∈ fs, a.transformer = none)
    (hu : w.id env u ≠ .none) {a : OpField} (ha : a ∈ fs) {c : Ctx} (hh : c.holder = some i)
    (hk : c.keypathr.getLast? = some (.s a.field.name))
    (hr : refs (w.heap i).cls a.field.name = some a.field.refName) :
    (asopLeaf refs).validate (apiOpby env fs i (.obj u) w).2.heap c = .ok () := by
  obtain ⟨h1, -, h3⟩ := opby_assigns_partial hfuel hnew (by simp) hA (opby_direct_completes hfuel i u fs w hnew hA ht)
  obtain ⟨x, hx, hst⟩ := h3 a ha (fun n f h => by rw [ht a ha] at h; cases h)
  unfold OwnerFor at hx
  rw [ht a ha] at hx
  have hux : u = x := by injection hx
  subst hux
  have hf : refs ((apiOpby env fs i (.obj u) w).2.heap i).cls a.field.name = some a.field.refName := by
    obtain ⟨-, ⟨p, t, hp, -⟩, -⟩ := h1
    rw [hp]; exact hr
  refine (asop_iff hh hk hf).2 (fun _ hnone => ?_)
  have hnone' : (apiOpby env fs i (.obj u) w).2.attr i a.field.refName = .none := hnone
  rw [hnone'] at hst
  rcases hst with h | h
  · exact hu h.symm
  · exact hu (pyEq_none h)

end JC

namespace JC.OperatorDemo
open JC Demo

def refs : String → String → Option String := fun c n => if c = "Post" && n = "author" then some "author_id" else
  if c = "Post" && n = "boss" then some "boss_id" else none

def fId : Field := { name := "id", jsonName := "id" }
/-- `types.instanceof('User').asopd` -/
def fAuthor : Field :=
  { name := "author", jsonName := "author", ftype := .inst, isInst := true, store := .localKey,
    refName := "author_id", jrefName := "authorId", chain := [.instOf "User" none, .leaf (asopLeaf refs)] }
/-- `types.instanceof('User').asop(lambda o: o.boss)` -/
def fBoss : Field :=
  { name := "boss", jsonName := "boss", ftype := .inst, isInst := true, store := .localKey,
    refName := "boss_id", jrefName := "bossId", chain := [.instOf "User" none, .leaf (asopLeaf refs)] }
def fPosts : Field := { name := "posts", jsonName := "posts", ftype := .list, chain := [.listOf false .no [.instOf "Post" none]] }
def user : ClassDef := { name := "User", fields := [fId], primary := some "id" }
def post : ClassDef := { name := "Post", fields := [fId, fAuthor, fBoss], primary := some "id" }
def blog : ClassDef := { name := "Blog", fields := [fId, fPosts], primary := some "id" }
def env : Env where
  cls := fun n => if n = "User" then user else if n = "Post" then post else if n = "Blog" then blog else {}

/-- the boss of user 1 is user 2 -/
def bossOf : Heap → Val → Nat → Except Exc Val := fun _ v _ => match v with
  | .obj 1 => .ok (.obj 2)
  | _ => .error .attributeError
def fs : List OpField := [{ field := fAuthor }, { field := fBoss, transformer := some (1, bossOf) }]

/-- a post, new or not, with a given author, in a blog that is new or whose posts were changed -/
def world (new : Bool) (a : Val) (blogNew : Bool := true) : World where
  heap := fun i => match i with
    | 0 => { cls := "Post", isNew := new, attrs := attrsOf [("id", .str "p"), ("author_id", a), ("boss_id", a)] }
    | 1 => { cls := "User", isNew := false, attrs := attrsOf [("id", .str "u1")] }
    | 2 => { cls := "User", isNew := false, attrs := attrsOf [("id", .str "u2")] }
    | 3 => { cls := "Blog", isNew := blogNew, isModified := !blogNew, modFields := if blogNew then [] else ["posts"],
             attrs := attrsOf [("id", .str "b"), ("posts", .list [.obj 0])] }
    | _ => {}
  next := 4

theorem primaries (cls n : String) (h : n ≠ "id") : (env.cls cls).primary ≠ some n := by
  simp only [env]
  split
  · intro he; exact h (by injection he with he; exact he.symm)
  · split
    · intro he; exact h (by injection he with he; exact he.symm)
    · split
      · intro he; exact h (by injection he with he; exact he.symm)
      · intro he; cases he

theorem assignable (a : Val) : Assignable env (world true a) 0 fs where
  key b hb := by
    simp only [fs, List.mem_cons, List.not_mem_nil, or_false] at hb
    rcases hb with rfl | rfl <;> rfl
  field b hb := by
    simp only [fs, List.mem_cons, List.not_mem_nil, or_false] at hb
    rcases hb with rfl | rfl <;> rfl
  one b hb := by
    simp only [fs, List.mem_cons, List.not_mem_nil, or_false] at hb
    rcases hb with rfl | rfl <;> rfl
  empty b hb := by
    simp only [fs, List.mem_cons, List.not_mem_nil, or_false] at hb
    rcases hb with rfl | rfl <;> rfl
  names b hb d hd := by
    simp only [fs, List.mem_cons, List.not_mem_nil, or_false] at hb hd
    rcases hb with rfl | rfl <;> rcases hd with rfl | rfl <;> decide
  distinct := by decide
  primary b hb d := by
    simp only [fs, List.mem_cons, List.not_mem_nil, or_false] at hb
    rcases hb with rfl | rfl <;> exact primaries d _ (by decide)

/-- the hypotheses of the main theorem hold, and its conclusion is about real keys -/
example := opby_assigns_partial (env := env) (by decide) (w := world true .none) (i := 0) (op := .obj 1) (fs := fs) rfl (by simp)
  (assignable _) rfl
example : ((apiOpby env fs 0 (.obj 1) (world true .none)).2.attr 0 "author_id") = .str "u1" ∧
    ((apiOpby env fs 0 (.obj 1) (world true .none)).2.attr 0 "boss_id") = .str "u2" := ⟨rfl, rfl⟩
/-- with an operator for whom the transformer fails, the first field is assigned all the same -/
example : (apiOpby env fs 0 (.obj 2) (world true .none)).1 = .error .attributeError ∧
    ((apiOpby env fs 0 (.obj 2) (world true .none)).2.attr 0 "author_id") = .str "u2" := ⟨rfl, rfl⟩
example := opby_only_records (env := env) fs 0 (.obj 1) (world false .none) (Or.inr rfl)
example := three_parameters_broken (env := env) [{ field := fBoss, transformer := some (3, bossOf) }] 0 (.obj 1) (world true .none)
  (by simp)
example := opby_satisfies_check (env := env) (refs := refs) (by decide) (w := world true .none) (i := 0) (u := 1)
  (fs := [{ field := fAuthor }]) rfl (assignable _ |> fun h => {
    key := fun b hb => h.key b (by simp_all [fs]), field := fun b hb => h.field b (by simp_all [fs]),
    one := fun b hb => h.one b (by simp_all [fs]), empty := fun b hb => h.empty b (by simp_all [fs]),
    names := fun b hb d hd => h.names b (by simp_all [fs]) d (by simp_all [fs]), distinct := by decide,
    primary := fun b hb => h.primary b (by simp_all [fs]) })
  (by simp) (by change Val.str "u1" ≠ .none; simp) (a := { field := fAuthor }) (by simp)
  (c := fieldCtx env (world true .none) (rootCtx (world true .none) 0 {} (.obj 0)) 0 fAuthor .none) rfl rfl rfl

/-- without an operator a new post is refused -/
example : (apiValidate env 5 0 none (world true .none)).1 = .error (.validation [("author", "no operator being assigned")]) := rfl
example : (apiValidate env 5 0 none (apiOpby env fs 0 (.obj 1) (world true .none)).2).1 = .ok () := rfl

/-- A new post whose author was written by hand is valid, no operator was ever given. -/
theorem forged_author_valid : ((world true (.str "u2")).heap 0).operator = .none ∧
    (apiValidate env 5 0 none (world true (.str "u2"))).1 = .ok () := ⟨rfl, rfl⟩

/-- A new post without author in the changed list of a stored blog is not checked. -/
theorem post_in_list_unchecked : (apiValidate env 5 3 none (world true .none false)).1 = .ok () := rfl

/-- In the list of a new blog even an assigned post makes validation fail with `ValueError`. -/
theorem post_in_list_crashes : (apiValidate env 5 3 none (world true (.str "u1"))).1 = .error .valueError := rfl

theorem cls_cases (cls : String) : env.cls cls = user ∨ env.cls cls = post ∨ env.cls cls = blog ∨ env.cls cls = {} := by
  simp only [env]
  split
  · simp
  · split
    · simp
    · split <;> simp

theorem asop_errors (h : Heap) (c : Ctx) : (asopLeaf refs).validate h c ≠ .error (.validation []) := by
  simp only [asopLeaf]
  split
  · simp
  · split
    · simp
    · split <;> simp
    · split
      · split
        · simp
        · split <;> simp [Ctx.vexc]
      · simp

theorem soundEnv : SoundEnv env where
  errors := by
    constructor
    · intro cls f hf
      rcases cls_cases cls with h | h | h | h <;> rw [h] at hf
      · simp only [user, List.mem_cons, List.not_mem_nil, or_false] at hf
        subst hf; simp [fId, Mod.AllL]
      · simp only [post, List.mem_cons, List.not_mem_nil, or_false] at hf
        rcases hf with rfl | rfl | rfl
        · simp [fId, Mod.AllL]
        · simp only [fAuthor, Mod.AllL, Mod.All, and_true, true_and]; exact asop_errors
        · simp only [fBoss, Mod.AllL, Mod.All, and_true, true_and]; exact asop_errors
      · simp only [blog, List.mem_cons, List.not_mem_nil, or_false] at hf
        rcases hf with rfl | rfl
        · simp [fId, Mod.AllL]
        · simp [fPosts, Mod.AllL, Mod.All]
      · cases hf
    · intro cls f hf
      rcases cls_cases cls with h | h | h | h <;> rw [h] at hf
      · simp only [user, List.mem_cons, List.not_mem_nil, or_false] at hf
        subst hf; intro _ _ _ h; cases h
      · simp only [post, List.mem_cons, List.not_mem_nil, or_false] at hf
        rcases hf with rfl | rfl | rfl <;> intro _ _ _ h <;> cases h
      · simp only [blog, List.mem_cons, List.not_mem_nil, or_false] at hf
        rcases hf with rfl | rfl <;> intro _ _ _ h <;> cases h
      · cases hf
  unions := by
    intro cls f hf
    rcases cls_cases cls with h | h | h | h <;> rw [h] at hf
    · simp only [user, List.mem_cons, List.not_mem_nil, or_false] at hf
      subst hf; simp [fId, Mod.PlainUnionsL]
    · simp only [post, List.mem_cons, List.not_mem_nil, or_false] at hf
      rcases hf with rfl | rfl | rfl <;> simp [fId, fAuthor, fBoss, Mod.PlainUnionsL, Mod.PlainUnions]
    · simp only [blog, List.mem_cons, List.not_mem_nil, or_false] at hf
      rcases hf with rfl | rfl <;> simp [fId, fPosts, Mod.PlainUnionsL, Mod.PlainUnions]
    · cases hf

example := asop_checked_by_validate_partial (refs := refs) soundEnv (apiOpby env fs 0 (.obj 1) (world true .none)).2 0 none 5 rfl
  (f := fAuthor) (by change fAuthor ∈ post.fields; simp [post]) rfl rfl
  (by intro hn; cases hn)
  ⟨[.instOf "User" none], [], rfl, by simp [Mod.isEagerM], by simp [Mod.isPreM]⟩ (Or.inl rfl)

end JC.OperatorDemo
