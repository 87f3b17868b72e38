import Verif.Model.Include
import Verif.Props.Locality

/-
C68: loading related objects with `include`.
-/
namespace JC
variable {env : Env} {orm : Orm}

/-! ### Specification -/

/-- Only allocated objects have fields or are referred to. -/
def Allocated (env : Env) (w : World) : Prop :=
  (∀ j, w.next ≤ j → ∀ g, ¬ HasField env w j g) ∧
  ∀ a g b, HasField env w a g → g.isRef = true → w.attr a g.name = .obj b → b < w.next

/-- From `w` to `w'` objects are loaded: those there are stay as they are, and those loaded
refer to nothing yet. -/
structure Loads (env : Env) (w w' : World) : Prop where
  old : ∀ j, j < w.next → w'.heap j = w.heap j
  bare : ∀ j, w.next ≤ j → ∀ g, HasField env w' j g → g.isRef = true →
    w'.attr j g.name = .none ∨ (g.ftype = .list ∧ w'.attr j g.name = .list [])

/-- An ORM that answers truthfully: a query by id answers the object with this primary key,
a query by reference id answers different objects having this reference id. -/
structure Truthful (env : Env) (orm : Orm) : Prop where
  loads : ∀ q w, Allocated env w → Loads env w (orm.exec q w).2
  cls : ∀ f c n, f.foreign = some (c, n) → orm.instCls f = c
  id : ∀ c k w v w', orm.exec (.id c k) w = (.ok v, w') → ∃ b, v = .obj b ∧ (w'.heap b).cls = c ∧ w'.id env b = k
  ids : ∀ c ks w v w', orm.exec (.ids c ks) w = (.ok v, w') →
    ∃ bs : List Nat, v = .list (bs.map .obj) ∧ bs.Nodup ∧ ∀ b ∈ bs, (w'.heap b).cls = c
  one : ∀ c r k w v w', orm.exec (.one c r k) w = (.ok v, w') →
    v = .none ∨ ∃ b, v = .obj b ∧ (w'.heap b).cls = c ∧ w'.attr b r = k
  find : ∀ c r k w v w', orm.exec (.find c r k) w = (.ok v, w') →
    ∃ bs : List Nat, v = .list (bs.map .obj) ∧ bs.Nodup ∧ ∀ b ∈ bs, (w'.heap b).cls = c ∧ w'.attr b r = k

/-! ### The state after loading -/

theorem Loads.has {w w' : World} (L : Loads env w w') {j : Nat} (hj : j < w.next) {g : Field} :
    HasField env w' j g ↔ HasField env w j g := by
  unfold HasField World.cdef; rw [L.old j hj]

theorem Loads.attr {w w' : World} (L : Loads env w w') {j : Nat} (hj : j < w.next) (n : String) :
    w'.attr j n = w.attr j n := by
  unfold World.attr; rw [L.old j hj]

theorem Loads.id {w w' : World} (L : Loads env w w') {j : Nat} (hj : j < w.next) : w'.id env j = w.id env j := by
  unfold World.id World.cdef World.attr; rw [L.old j hj]

theorem Allocated.lt {w : World} (A : Allocated env w) {j : Nat} {g : Field} (h : HasField env w j g) : j < w.next := by
  rcases Nat.lt_or_ge j w.next with h' | h'
  · exact h'
  · exact absurd h (A.1 j h' g)

theorem refsOf_bare {w : World} {j : Nat} {g : Field} (h : w.attr j g.name = .none ∨ (g.ftype = .list ∧ w.attr j g.name = .list [])) :
    refsOf g (w.attr j g.name) = [] := by
  rcases h with h | ⟨hl, h⟩ <;> rw [h]
  · exact refsOf_none g
  · unfold refsOf; rw [hl]; rfl

theorem Loads.wellLinked {w w' : World} (L : Loads env w w') (A : Allocated env w) (hw : WellLinked env w) :
    WellLinked env w' := by
  intro a g og hg hp
  rcases Nat.lt_or_ge a w.next with ha | ha
  · have hf := hw a g og ((L.has ha).1 hg) hp
    rw [L.attr ha]
    exact ⟨hf.1, fun b hb => (L.has (A.lt (hf.2 b hb))).2 (hf.2 b hb)⟩
  · rcases L.bare a ha g hg hp.2.1 with h | ⟨hl, h⟩ <;> rw [h]
    · exact fits_none _ _ _
    · exact fits_list (bs := []) hl (by simp) (fun b hb => by cases hb)

theorem Loads.symmetric {w w' : World} (L : Loads env w w') (A : Allocated env w) (hw : WellLinked env w) (R : Relations env)
    (hs : Symmetric env w) : Symmetric env w' := by
  intro a b g og hg hb hp
  have hpo := (R.opp g og hp).1
  have hnew : ∀ {x y : Nat} {h k : Field}, w.next ≤ x → HasField env w' x h → HasField env w' y k → Paired env h k → Paired env k h →
      ¬ Refers w' x h y ∧ ¬ Refers w' y k x := by
    intro x y h k hx hh hk hph hpk
    refine ⟨fun hr => ?_, fun hr => ?_⟩
    · unfold Refers at hr
      rw [refsOf_bare (L.bare x hx h hh hph.2.1)] at hr; cases hr
    · rcases Nat.lt_or_ge y w.next with hy | hy
      · unfold Refers at hr
        rw [L.attr hy] at hr
        exact absurd (A.lt ((hw y k h ((L.has hy).1 hk) hpk).2 x hr)) (Nat.not_lt.2 hx)
      · unfold Refers at hr
        rw [refsOf_bare (L.bare y hy k hk hpk.2.1)] at hr; cases hr
  rcases Nat.lt_or_ge a w.next with ha | ha
  · rcases Nat.lt_or_ge b w.next with hb' | hb'
    · unfold Refers
      rw [L.attr ha, L.attr hb']
      exact hs a b g og ((L.has ha).1 hg) ((L.has hb').1 hb) hp
    · obtain ⟨h1, h2⟩ := hnew hb' hb hg hpo hp
      exact ⟨fun h => absurd h h2, fun h => absurd h h1⟩
  · obtain ⟨h1, h2⟩ := hnew ha hg hb hp hpo
    exact ⟨fun h => absurd h h1, fun h => absurd h h2⟩

theorem Loads.mirrors {w w' : World} (L : Loads env w w') (A : Allocated env w) (hm : Mirrors env w) : Mirrors env w' := by
  intro a g b hg hs hi hb
  rcases Nat.lt_or_ge a w.next with ha | ha
  · have hg' := (L.has ha).1 hg
    rw [L.attr ha] at hb ⊢
    rw [L.id (A.2 a g b hg' (isRef_localKey hs) hb)]
    exact hm a g b hg' hs hi hb
  · rcases L.bare a ha g hg (isRef_localKey hs) with h | ⟨hl, h⟩ <;> rw [h] at hb <;> cases hb

/-! ### Assignments that read back -/

theorem assign_same (R : Relations env) {a : Nat} {f : Field} {v : Val} {w w' : World} (hf : HasField env w a f)
    (he : pyEq v (w.attr a f.name) = true) (h : setAttr env a f.name v w = (.ok (), w')) : w' = w := by
  unfold setAttr at h
  have h := get_bind_ok h
  rw [R.noKey hf] at h
  simp only at h
  unfold setField at h
  cases hfu : env.fuel with
  | zero => rw [hfu] at h; cases h
  | succ n =>
    rw [hfu] at h
    change setBody env (runL env n) a f.name v w = (.ok (), w') at h
    unfold setBody at h
    have h := get_bind_ok h
    unfold HasField at hf
    rw [hf] at h
    simp only [he, if_true] at h
    split at h
    · cases h
    · cases h; rfl

theorem pyEqList_objs (bs cs : List Nat) (h : pyEqList (bs.map .obj) (cs.map .obj) = true) : bs = cs := by
  induction bs generalizing cs with
  | nil => cases cs with
    | nil => rfl
    | cons c cs => simp [pyEqList] at h
  | cons b bs ih => cases cs with
    | nil => simp [pyEqList] at h
    | cons c cs =>
      simp only [List.map_cons, pyEqList, Bool.and_eq_true] at h
      have := pyEq_obj_left.1 h.1
      cases this
      rw [ih cs h.2]

theorem fits_eq {w : World} {g og : Field} {u v : Val} (hu : Fits env w g og u) (hv : Fits env w g og v) (h : pyEq v u = true) :
    u = v := by
  rcases hv.1 with rfl | ⟨-, b, rfl⟩ | ⟨-, bs, rfl, -⟩
  · exact lk_pyEq_none h
  · exact pyEq_obj_left.1 h
  · rcases hu.1 with rfl | ⟨-, c, rfl⟩ | ⟨-, cs, rfl, -⟩
    · simp [pyEq] at h
    · simp [pyEq] at h
    · simp only [pyEq] at h
      rw [pyEqList_objs bs cs h]

/-- after a completed assignment the value is there and exactly its objects refer back -/
theorem assign_reads (R : Relations env) {a : Nat} {f of : Field} {v : Val} {w w' : World} (hw : WellLinked env w)
    (hs : Symmetric env w) (hf : HasField env w a f) (hp : Paired env f of) (hv : Fits env w f of v)
    (h : setAttr env a f.name v w = (.ok (), w')) :
    w'.attr a f.name = v ∧ ∀ b, HasField env w b of → (Refers w' b of a ↔ b ∈ refsOf f v) := by
  cases he : pyEq v (w.attr a f.name) with
  | false => exact assign_links_partial R hw hs hf hp hv he h
  | true =>
    have hat := fits_eq (hw a f of hf hp) hv he
    rw [assign_same R hf he h]
    refine ⟨hat, fun b hb => ?_⟩
    rw [← hs a b f of hf hb hp]
    unfold Refers; rw [hat]

/-! ### include -/

/-- the assignment is a step of a history -/
theorem set_suits (R : Relations env) {a : Nat} {f of : Field} {v : Val} {w : World} (hf : HasField env w a f)
    (hp : Paired env f of) (hv : Fits env w f of v) : FOp.Suits env w a (.set f.name v) := by
  refine ⟨fun g og hg hpg => ?_, fun g og ks hl => ?_⟩
  · cases Option.some.inj (hf.symm.trans hg)
    cases hp.opp_eq hpg
    exact hv
  · rw [R.noKey hf] at hl; cases hl

theorem set_keySuits (P : PlainPrimary env) {a : Nat} {f of : Field} {v : Val} {w : World} (hf : HasField env w a f)
    (hp : Paired env f of) (hv : Fits env w f of v) : FOp.KeySuits env w a (.set f.name v) := by
  refine ⟨fun hpr => ?_, fun g og hg hpg => ?_⟩
  · have := P _ _ _ hpr hf
    rw [hp.2.1] at this; cases this
  · cases Option.some.inj (hf.symm.trans hg)
    cases hp.opp_eq hpg
    exact hv.2

theorem foreign_of {f of : Field} (hp : Paired env f of) : ∃ c n, f.foreign = some (c, n) ∧ (env.cls c).field? n = some of := by
  have := hp.2.2
  unfold Env.foreignField at this
  cases hf : f.foreign with
  | none => rw [hf] at this; cases this
  | some cn => rw [hf] at this; exact ⟨cn.1, cn.2, rfl, this⟩

theorem has_of_cls (T : Truthful env orm) {f of : Field} (hp : Paired env f of) {w : World} {b : Nat}
    (h : (w.heap b).cls = orm.instCls f) : HasField env w b of := by
  obtain ⟨c, n, hf, ho⟩ := foreign_of hp
  rw [T.cls f c n hf] at h
  unfold HasField World.cdef
  rw [h]
  have : of.name = n := by have := List.find?_some ho; simpa using this
  rw [this]; exact ho

/-- what the answer to the query is like -/
theorem answer_fits (R : Relations env) (T : Truthful env orm) {i : Nat} {f of : Field} {w w1 : World} {q : OrmQuery} {v : Val} (hp : Paired env f of)
    (hj : f.ftype = .inst → orm.joins f = false) (hq : includeQuery env orm w i f = .ok (some q))
    (he : orm.exec q w = (.ok v, w1)) : Fits env w1 f of v := by
  have hlist : ∀ {bs : List Nat}, f.ftype = .list → bs.Nodup → (∀ b ∈ bs, (w1.heap b).cls = orm.instCls f) →
      Fits env w1 f of (.list (bs.map .obj)) := fun hl hn hb => fits_list hl hn (fun b h => has_of_cls T hp (hb b h))
  have hback : ∀ {mk : String → String → Val → OrmQuery}, backQuery env orm w i f mk = .ok (some q) →
      q = mk (orm.instCls f) of.refName (w.id env i) := by
    intro mk h
    unfold backQuery at h
    rw [hp.2.2] at h
    cases h; rfl
  unfold includeQuery at hq
  cases hs : f.store with
  | localKey =>
    rw [hs] at hq
    cases ht : f.ftype with
    | inst =>
      rw [ht] at hq; cases hq
      obtain ⟨b, rfl, hb, -⟩ := T.id _ _ _ _ _ he
      exact fits_inst ht (has_of_cls T hp hb)
    | list =>
      rw [ht] at hq; cases hq
      obtain ⟨bs, rfl, hn, hb⟩ := T.ids _ _ _ _ _ he
      exact hlist ht hn hb
    | _ => rw [ht] at hq; cases hq
  | foreignKey =>
    rw [hs] at hq
    simp only at hq
    have hfind : f.ftype = .list → backQuery env orm w i f .find = .ok (some q) → Fits env w1 f of v := by
      intro hl h
      rw [hback h] at he
      obtain ⟨bs, rfl, hn, hb⟩ := T.find _ _ _ _ _ _ he
      exact hlist hl hn (fun b h => (hb b h).1)
    split at hq
    · rename_i hjt
      rcases (R.opp f of hp).2 with hi | hl
      · rw [hj hi] at hjt; cases hjt
      · exact hfind hl hq
    · cases ht : f.ftype with
      | inst =>
        rw [ht] at hq
        simp only at hq
        rw [hback hq] at he
        rcases T.one _ _ _ _ _ _ he with rfl | ⟨b, rfl, hb, -⟩
        · exact fits_none _ _ _
        · exact fits_inst ht (has_of_cls T hp hb)
      | list => rw [ht] at hq; exact hfind ht hq
      | _ => rw [ht] at hq; cases hq
  | _ => rw [hs] at hq; cases hq

/-- the flags are put back -/
def putBack (w : World) (i : Nat) (o : Obj) : Obj :=
  { o with modFields := (w.heap i).modFields, isModified := (w.heap i).isModified }

theorem include_ok {i : Nat} {n : String} {w w' : World} (h : apiInclude env orm i n w = (.ok (), w')) :
    ∃ f q w2, (w.cdef env i).field? n = some f ∧ includeQuery env orm w i f = .ok q ∧
      includeFetch env orm i f q w = (.ok (), w2) ∧ w' = w2.upd i (putBack w i) := by
  unfold apiInclude at h
  have h := get_bind_ok h
  cases hf : (w.cdef env i).field? n with
  | none => rw [hf] at h; cases h
  | some f =>
    rw [hf] at h
    simp only at h
    obtain ⟨q, w1, h1, h2⟩ := bind_ok h
    obtain ⟨_, w2, h3, h4⟩ := bind_ok h2
    have hq : includeQuery env orm w i f = .ok q := congrArg Prod.fst h1
    have hw : w = w1 := congrArg Prod.snd h1
    subst hw
    refine ⟨f, q, w2, rfl, hq, h3, ?_⟩
    cases h4; rfl

theorem query_some (R : Relations env) {i : Nat} {f of : Field} {w : World} {q : Option OrmQuery} (hp : Paired env f of)
    (h : includeQuery env orm w i f = .ok q) : ∃ q', q = some q' := by
  have hb : ∀ {mk : String → String → Val → OrmQuery}, backQuery env orm w i f mk = .ok q → ∃ q', q = some q' := by
    intro mk h
    unfold backQuery at h
    rw [hp.2.2] at h
    cases h; exact ⟨_, rfl⟩
  have hr := hp.2.1
  unfold includeQuery at h
  rcases (R.opp f of hp).2 with ht | ht <;> rw [ht] at h <;> cases hs : f.store <;> rw [hs] at h <;>
    first
    | (simp [Field.isRef, hs] at hr; done)
    | (cases h; exact ⟨_, rfl⟩)
    | (simp only at h; split at h <;> exact hb h)

/-- a completed `include` of a two-way relation, step by step -/
theorem include_steps (R : Relations env) (T : Truthful env orm) {i : Nat} {f of : Field} {w w' : World} (A : Allocated env w)
    (hw : WellLinked env w) (hs : Symmetric env w) (hf : HasField env w i f) (hp : Paired env f of)
    (hj : f.ftype = .inst → orm.joins f = false) (h : apiInclude env orm i f.name w = (.ok (), w')) :
    ∃ q v w1 w2, includeQuery env orm w i f = .ok (some q) ∧ orm.exec q w = (.ok v, w1) ∧
      setAttr env i f.name v w1 = (.ok (), w2) ∧ w' = w2.upd i (putBack w i) ∧ Loads env w w1 ∧ WellLinked env w1 ∧
      Symmetric env w1 ∧ HasField env w1 i f ∧ Fits env w1 f of v := by
  obtain ⟨f', q, w2, hf', hq, h1, h2⟩ := include_ok h
  cases Option.some.inj (hf.symm.trans hf')
  obtain ⟨q, rfl⟩ := query_some R hp hq
  obtain ⟨v, w1, h3, h4⟩ := bind_ok (show (orm.exec q >>= fun v => setAttr env i f.name v) w = (.ok (), w2) from h1)
  have L : Loads env w w1 := by have := T.loads q w A; rw [h3] at this; exact this
  exact ⟨q, v, w1, w2, hq, h3, h4, h2, L, L.wellLinked A hw, L.symmetric A hw R hs, (L.has (A.lt hf)).2 hf,
    answer_fits R T hp hj hq h3⟩

theorem putBack_heap (w w2 : World) (i j : Nat) : ((w2.upd i (putBack w i)).heap j).cls = (w2.heap j).cls ∧
    ((w2.upd i (putBack w i)).heap j).attrs = (w2.heap j).attrs ∧ StatusKept (w2.heap j) ((w2.upd i (putBack w i)).heap j) := by
  simp only [World.upd]
  by_cases h : j = i
  · subst h; simp only [if_true]; exact ⟨rfl, rfl, .refl _⟩
  · simp only [h, if_false]; exact ⟨trivial, trivial, .refl _⟩

theorem putBack_attr (w w2 : World) (i j : Nat) (n : String) : (w2.upd i (putBack w i)).attr j n = w2.attr j n := by
  unfold World.attr; rw [(putBack_heap w w2 i j).2.1]

theorem putBack_id (w w2 : World) (i j : Nat) : (w2.upd i (putBack w i)).id env j = w2.id env j := by
  unfold World.id World.cdef; rw [(putBack_heap w w2 i j).1]; simp only [putBack_attr]

theorem putBack_qr (w w2 : World) (i : Nat) : QR env w2 (w2.upd i (putBack w i)) :=
  ⟨fun j => (putBack_heap w w2 i j).1, fun _ _ _ _ _ => putBack_attr ..⟩

theorem putBack_refers (w w2 : World) (i a b : Nat) (g : Field) : Refers (w2.upd i (putBack w i)) a g b ↔ Refers w2 a g b := by
  unfold Refers; rw [putBack_attr]

/-! ### Theorems -/

/-- **C68**. Whatever the ORM does, a completed `include` leaves the object's modified fields
and modified flag as they were. -/
theorem include_keeps_status {i : Nat} {n : String} {w w' : World} (h : apiInclude env orm i n w = (.ok (), w')) :
    (w'.heap i).modFields = (w.heap i).modFields ∧ (w'.heap i).isModified = (w.heap i).isModified := by
  obtain ⟨f, q, w2, -, -, -, rfl⟩ := include_ok h
  simp only [World.upd, if_true]
  exact ⟨rfl, rfl⟩

/-- **C68**. With a truthful ORM, a completed `include` of a relation keeps all relations of
all objects symmetric, and reference ids the primary keys of the objects linked. -/
theorem include_symmetric (R : Relations env) (P : PlainPrimary env) (T : Truthful env orm) {i : Nat} {f of : Field} {w w' : World}
    (A : Allocated env w) (hw : WellLinked env w) (hs : Symmetric env w) (hf : HasField env w i f) (hp : Paired env f of)
    (hj : f.ftype = .inst → orm.joins f = false) (h : apiInclude env orm i f.name w = (.ok (), w')) :
    WellLinked env w' ∧ Symmetric env w' ∧ (Mirrors env w → Mirrors env w') := by
  obtain ⟨q, v, w1, w2, -, -, h1, rfl, L, hw1, hs1, hf1, hv⟩ := include_steps R T A hw hs hf hp hj h
  obtain ⟨hw2, hs2⟩ := links_symmetric_partial R [(i, .set f.name v)] hw1 hs1 ⟨set_suits R hf1 hp hv, w2, h1, rfl⟩
  have hq := putBack_qr (env := env) w w2 i
  refine ⟨hq.wellLinked hw2, (symmetric_iff R (hq.wellLinked hw2)).2 (((symmetric_iff R hw2).1 hs2).qr R hw2 hq), fun hm => ?_⟩
  have hm2 := (local_key_mirrors_partial R P [(i, .set f.name v)] hw1.typed (L.mirrors A hm)
    ⟨set_keySuits P hf1 hp hv, fun _ => by change (setAttr env i f.name v w1).1 = _; rw [h1], rfl⟩).2.1
  have he : ((FOp.set f.name v).run env i w1).2 = w2 := by change (setAttr env i f.name v w1).2 = _; rw [h1]
  rw [he] at hm2
  intro a g b hg hst hi hb
  rw [putBack_attr] at hb ⊢
  rw [putBack_id]
  exact hm2 a g b ((HasField.congr hq.1).1 hg) hst hi hb

/-- every object is a group of objects -/
theorem group_all {w : World} (hw : WellTyped env w) : Group env w (fun _ => True) :=
  fun a g og _ hg hp b hb => ⟨trivial, hw a g og hg hp b hb⟩

theorem set_within {S : Nat → Prop} {i : Nat} {f of : Field} {v : Val} {w : World} (hi : S i) (hf : HasField env w i f)
    (hp : Paired env f of) (hv : Fits env w f of v) (hS : ∀ b ∈ refsOf f v, S b) : (FOp.set f.name v).Within env w S i := by
  refine ⟨hi, trivial, fun g og hg hpg b hb => ?_⟩
  cases Option.some.inj (hf.symm.trans hg)
  cases hp.opp_eq hpg
  exact ⟨hS b hb, hv.2 b hb⟩

/-- what the assignment in `include` keeps -/
theorem set_keeps (R : Relations env) {i : Nat} {f of : Field} {v : Val} {w : World} (hw : WellLinked env w)
    (hf : HasField env w i f) (hp : Paired env f of) (hv : Fits env w f of v) :
    (∀ b, StatusKept (w.heap b) ((setAttr env i f.name v w).2.heap b)) ∧
    ∀ b n, ¬ RelatesAt env w b n → (setAttr env i f.name v w).2.attr b n = w.attr b n := by
  obtain ⟨-, h2, h3, -⟩ := relation_changes_stay_local (w' := (setAttr env i f.name v w).2) R [(i, .set f.name v)]
    (group_all hw.typed) ⟨set_within trivial hf hp hv (fun _ _ => trivial), rfl⟩
  refine ⟨h2, fun b n hr => ?_⟩
  by_cases hb : b = i ∧ n = f.name
  · exact absurd ⟨f, hf.mem, .inl ⟨hb.2.symm, hp.2.1⟩⟩ (hb.1 ▸ hr)
  · refine (h3 b n hr (fun op hm => ?_)).1
    simp only [List.mem_singleton, Prod.mk.injEq] at hm
    obtain ⟨rfl, rfl⟩ := hm
    exact fun hn => hb ⟨rfl, hn.symm⟩

theorem id_not_rel (R : Relations env) (P : PlainPrimary env) {w : World} {b : Nat} {n : String}
    (h : (w.cdef env b).primary = some n) : ¬ RelatesAt env w b n := by
  rintro ⟨f, hf, ⟨hn, hr⟩ | ⟨hn, hs⟩⟩
  · have := P _ _ _ h (hn ▸ R.uniq _ f hf)
    rw [hr] at this; cases this
  · have h1 := R.prim _ _ h
    have h2 := R.keyUniq _ f hf hs
    rw [hn] at h2
    rw [show (env.cls (w.heap b).cls).localKey? n = none from h1] at h2; cases h2

theorem set_id (R : Relations env) (P : PlainPrimary env) {i : Nat} {f of : Field} {v : Val} {w : World} (hw : WellLinked env w)
    (hf : HasField env w i f) (hp : Paired env f of) (hv : Fits env w f of v) (b : Nat) :
    (setAttr env i f.name v w).2.id env b = w.id env b := by
  obtain ⟨h1, h2⟩ := set_keeps R hw hf hp hv
  unfold World.id
  have : (setAttr env i f.name v w).2.cdef env b = w.cdef env b := by unfold World.cdef; rw [(h1 b).1]
  rw [this]
  cases hpr : (w.cdef env b).primary with
  | none => rfl
  | some n => exact h2 b n (id_not_rel R P hpr)

/-- **C68**. With a truthful ORM, a completed `include` of a reference kept by local key
stores the object whose primary key is the reference id; the reference id stays; and the
object refers back. -/
theorem include_reference (R : Relations env) (P : PlainPrimary env) (T : Truthful env orm) {i : Nat} {f of : Field} {w w' : World}
    (A : Allocated env w) (hw : WellLinked env w) (hs : Symmetric env w) (hm : Mirrors env w) (hf : HasField env w i f)
    (hp : Paired env f of) (hst : f.store = .localKey) (hi : f.ftype = .inst) (hj : orm.joins f = false)
    (h : apiInclude env orm i f.name w = (.ok (), w')) :
    ∃ b, w'.attr i f.name = .obj b ∧ (w'.heap b).cls = orm.instCls f ∧ w'.id env b = w.attr i f.refName ∧
      w'.attr i f.refName = w.attr i f.refName ∧ Refers w' b of i := by
  obtain ⟨q, v, w1, w2, hq, he, h1, rfl, L, hw1, hs1, hf1, hv⟩ := include_steps R T A hw hs hf hp (fun _ => hj) h
  unfold includeQuery at hq
  rw [hst, hi] at hq
  cases hq
  obtain ⟨b, rfl, hc, hk⟩ := T.id _ _ _ _ _ he
  have hb := has_of_cls T hp hc
  obtain ⟨k1, k2⟩ := assign_sets_key R P hw1 hs1 (L.mirrors A hm) hf1 hp hst hi hb h1
  have hw2 : (setAttr env i f.name (.obj b) w1).2 = w2 := by rw [h1]
  have hid := set_id R P hw1 hf1 hp hv b
  have hcl := ((set_keeps R hw1 hf1 hp hv).1 b).1
  rw [hw2] at hid hcl
  refine ⟨b, ?_, ?_, ?_, ?_, ?_⟩
  · rw [putBack_attr]; exact k1
  · rw [(putBack_heap w w2 i b).1, hcl]; exact hc
  · rw [putBack_id, hid]; exact hk
  · rw [putBack_attr, k2]; exact hk
  · rw [putBack_refers]
    refine ((assign_reads R hw1 hs1 hf1 hp hv h1).2 b hb).2 ?_
    rw [refsOf_inst hi]; simp

/-- **C68**. With a truthful ORM, a completed `include` of a list kept by the other side
stores the objects answered for this object's id; exactly these refer to it; and their
reference ids are still its id. -/
theorem include_members (R : Relations env) (P : PlainPrimary env) (T : Truthful env orm) {i : Nat} {f of : Field} {w w' : World}
    (A : Allocated env w) (hw : WellLinked env w) (hs : Symmetric env w) (hf : HasField env w i f)
    (hp : Paired env f of) (hst : f.store = .foreignKey) (hl : f.ftype = .list)
    (h : apiInclude env orm i f.name w = (.ok (), w')) :
    ∃ w1, ∃ bs : List Nat, orm.exec (.find (orm.instCls f) of.refName (w.id env i)) w = (.ok (.list (bs.map .obj)), w1) ∧
      w'.attr i f.name = .list (bs.map .obj) ∧ (∀ b, HasField env w' b of → (Refers w' b of i ↔ b ∈ bs)) ∧
      (Mirrors env w → of.store = .localKey → of.ftype = .inst → ∀ b ∈ bs, w'.attr b of.refName = w.id env i ∧
        w1.attr b of.refName = w.id env i) := by
  have hsym := include_symmetric R P T A hw hs hf hp (fun hi => by rw [hl] at hi; cases hi) h
  obtain ⟨q, v, w1, w2, hq, he, h1, rfl, L, hw1, hs1, hf1, hv⟩ :=
    include_steps R T A hw hs hf hp (fun hi => by rw [hl] at hi; cases hi) h
  have hqe : q = .find (orm.instCls f) of.refName (w.id env i) := by
    unfold includeQuery backQuery at hq
    rw [hst, hl, hp.2.2] at hq
    simp only at hq
    split at hq <;> cases hq <;> rfl
  subst hqe
  obtain ⟨bs, rfl, hn, hb⟩ := T.find _ _ _ _ _ _ he
  obtain ⟨k1, k2⟩ := assign_reads R hw1 hs1 hf1 hp hv h1
  have hw2 : (setAttr env i f.name (.list (bs.map .obj)) w1).2 = w2 := by rw [h1]
  have hid := set_id R P hw1 hf1 hp hv i
  have hcl := fun b => ((set_keeps R hw1 hf1 hp hv).1 b).1
  rw [hw2] at hid hcl
  have hrefs : refsOf f (.list (bs.map .obj)) = bs := refsOf_list hl bs
  have hcl' : ∀ b, ((w2.upd i (putBack w i)).heap b).cls = (w1.heap b).cls := fun b =>
    (putBack_heap w w2 i b).1.trans (hcl b)
  have href : ∀ b, HasField env w1 b of → (Refers (w2.upd i (putBack w i)) b of i ↔ b ∈ bs) := by
    intro b hb
    rw [putBack_refers, k2 b hb, hrefs]
  refine ⟨w1, bs, he, ?_, fun b hb => href b ((HasField.congr hcl').1 hb), fun hm hos hoi b hbm => ⟨?_, (hb b hbm).2⟩⟩
  · rw [putBack_attr]; exact k1
  · have hbo := has_of_cls T hp (hb b hbm).1
    have hr := (href b hbo).2 hbm
    have hbo' := (HasField.congr hcl').2 hbo
    have hat : (w2.upd i (putBack w i)).attr b of.name = .obj i := by
      unfold Refers refsOf at hr
      rw [hoi] at hr
      generalize (w2.upd i (putBack w i)).attr b of.name = x at hr
      cases x <;> simp at hr
      rw [hr]
    rw [hsym.2.2 hm b of i hbo' hos hoi hat, putBack_id, hid, L.id (A.lt hf)]

/-- **C68**. With a truthful ORM, `include` of a relation leaves the values of all fields that
are no relations and no reference ids, and the status of all objects there were, as they are,
also when it raises. -/
theorem include_leaves_rest (R : Relations env) (T : Truthful env orm) {i : Nat} {f of : Field} {w : World}
    (A : Allocated env w) (hw : WellLinked env w) (hf : HasField env w i f) (hp : Paired env f of)
    (hj : f.ftype = .inst → orm.joins f = false) {b : Nat} (hb : b < w.next) :
    StatusKept (w.heap b) ((apiInclude env orm i f.name w).2.heap b) ∧
    ∀ n, ¬ RelatesAt env w b n → (apiInclude env orm i f.name w).2.attr b n = w.attr b n := by
  have hfetch : ∀ q, includeQuery env orm w i f = .ok q →
      StatusKept (w.heap b) ((includeFetch env orm i f q w).2.heap b) ∧
      ∀ n, ¬ RelatesAt env w b n → (includeFetch env orm i f q w).2.attr b n = w.attr b n := by
    intro q hq
    obtain ⟨q, rfl⟩ := query_some R hp hq
    have L := T.loads q w A
    change StatusKept _ (((orm.exec q >>= fun v => setAttr env i f.name v) w).2.heap b) ∧ ∀ n, _ →
      ((orm.exec q >>= fun v => setAttr env i f.name v) w).2.attr b n = _
    rw [Py.bind_run]
    rcases he : orm.exec q w with ⟨e | v, w1⟩
    · rw [he] at L
      exact ⟨by rw [show (w1.heap b) = _ from L.old b hb]; exact .refl _, fun n _ => L.attr hb n⟩
    · rw [he] at L
      obtain ⟨h1, h2⟩ := set_keeps R (L.wellLinked A hw) ((L.has (A.lt hf)).2 hf) hp (answer_fits R T hp hj hq he)
      refine ⟨by have := h1 b; rw [L.old b hb] at this; exact this, fun n hn => ?_⟩
      have := h2 b n (by unfold RelatesAt World.cdef at hn ⊢; rw [L.old b hb]; exact hn)
      exact this.trans (L.attr hb n)
  unfold apiInclude
  change StatusKept _ (((match (w.cdef env i).field? f.name with
    | none => Py.raise .valueError
    | some f => (readW (fun w => includeQuery env orm w i f) >>= fun q => includeFetch env orm i f q >>= fun _ =>
        updObj i (putBack w i)) : Py World Unit) w).2.heap b) ∧ ∀ n, _ → ((match (w.cdef env i).field? f.name with
    | none => Py.raise .valueError
    | some f => (readW (fun w => includeQuery env orm w i f) >>= fun q => includeFetch env orm i f q >>= fun _ =>
        updObj i (putBack w i)) : Py World Unit) w).2.attr b n = _
  rw [show (w.cdef env i).field? f.name = some f from hf]
  simp only [Py.bind_run, readW]
  cases hq : includeQuery env orm w i f with
  | error e => exact ⟨.refl _, fun _ _ => rfl⟩
  | ok q =>
    simp only []
    obtain ⟨h1, h2⟩ := hfetch q hq
    rcases hr : includeFetch env orm i f q w with ⟨e | u, w2⟩
    · rw [hr] at h1 h2; exact ⟨h1, h2⟩
    · rw [hr] at h1 h2
      exact ⟨h1.trans (putBack_heap w w2 i b).2.2, fun n hn => (putBack_attr w w2 i b n).trans (h2 n hn)⟩

/-- **C68**. `fobj` answers what the field holds and does nothing else when the relation is
loaded. -/
theorem fobj_loaded {i : Nat} {f : Field} {w : World} (hf : HasField env w i f) (hr : f.isRef = true)
    (h : w.attr i f.name ≠ .none) : fobjTransform env orm f.name (.obj i) w = (.ok (w.attr i f.name), w) := by
  have hg : w.getattr env i f.name = .ok (w.attr i f.name) := by
    unfold World.getattr
    rw [show (w.cdef env i).field? f.name = some f from hf]
    simp only []
    rw [if_neg (fun hc => by simp [Field.isRef, hc] at hr)]
  have hn : (w.attr i f.name).isNone = false := by
    cases hv : w.attr i f.name <;> first | rfl | exact absurd hv h
  simp only [fobjTransform, fobjLoad, Py.bind_run, readW, hg, hn]
  simp [hg]

/-- **C68**. `fobj` of a reference that is not loaded answers the object whose primary key is
the reference id. -/
theorem fobj_loads (R : Relations env) (P : PlainPrimary env) (T : Truthful env orm) {i : Nat} {f of : Field} {w w' : World} {v : Val}
    (A : Allocated env w) (hw : WellLinked env w) (hs : Symmetric env w) (hm : Mirrors env w) (hf : HasField env w i f)
    (hp : Paired env f of) (hst : f.store = .localKey) (hi : f.ftype = .inst) (hj : orm.joins f = false)
    (hn : w.attr i f.name = .none) (h : fobjTransform env orm f.name (.obj i) w = (.ok v, w')) :
    ∃ b, v = .obj b ∧ w'.attr i f.name = .obj b ∧ (w'.heap b).cls = orm.instCls f ∧ w'.id env b = w.attr i f.refName := by
  have hg : ∀ w', HasField env w' i f → w'.getattr env i f.name = .ok (w'.attr i f.name) := by
    intro w' hf
    unfold World.getattr
    rw [show (w'.cdef env i).field? f.name = some f from hf]
    simp only []
    rw [if_neg (fun hc => by rw [hc] at hst; cases hst)]
  unfold fobjTransform at h
  obtain ⟨_, w1, h1, h2⟩ := bind_ok h
  have h1' : apiInclude env orm i f.name w = (.ok (), w1) := by
    unfold fobjLoad at h1
    simp only [Py.bind_run, readW, hg w hf, hn] at h1
    simpa [Val.isNone] using h1
  have hst' := (include_leaves_rest R T A hw hf hp (fun _ => hj) (A.lt hf)).1.1
  rw [h1'] at hst'
  have hf1 : HasField env w1 i f := by
    unfold HasField World.cdef at hf ⊢
    rw [show (w1.heap i).cls = _ from hst']; exact hf
  obtain ⟨b, k1, k2, k3, -, -⟩ := include_reference R P T A hw hs hm hf hp hst hi hj h1'
  simp only [readW, hg w1 hf1, k1] at h2
  cases h2
  exact ⟨b, rfl, k1, k2, k3⟩

end JC

/-! ### A concrete case -/
namespace JC.SymDemo
open JC
open JC.Demo (user post fId fName fSecret fTmp fFriend fPosts fAuthor attrsOf)

/-- a new object at the end of the heap -/
def allocate (o : Obj) (w : World) : World :=
  { w with heap := fun j => if j = w.next then { o with graph := w.nextg } else w.heap j, next := w.next + 1, nextg := w.nextg + 1 }

/-- user `k` as loaded from the database -/
def dbUser (k : Val) : Obj := { cls := "User", attrs := attrsOf [("id", k), ("name", .str "ann")], isNew := false }
/-- a post by user `k` as loaded from the database -/
def dbPost (k : Val) : Obj := { cls := "Post", attrs := attrsOf [("id", .str "p9"), ("author_id", k)], isNew := false }

/-- A database with all users and one post for each. -/
def shop : Orm where
  exec := fun q w => match q with
    | .id c k => if c = "User" then (.ok (.obj w.next), allocate (dbUser k) w) else (.error .valueError, w)
    | .find c r k => if c = "Post" ∧ r = "author_id" then (.ok (.list [.obj w.next]), allocate (dbPost k) w)
        else (.error .valueError, w)
    | _ => (.error .valueError, w)
  instCls := fun f => match f.foreign with
    | some (c, _) => c
    | none => ""
  joins := fun _ => false

theorem allocate_loads {o : Obj} {w : World} (A : Allocated Demo.env w)
    (ho : ∀ g ∈ (Demo.env.cls o.cls).fields, g.isRef = true → o.attrs g.name = .none) : Loads Demo.env w (allocate o w) := by
  refine ⟨fun j hj => ?_, fun j hj g hg hr => ?_⟩
  · simp only [allocate, if_neg (Nat.ne_of_lt hj)]
  · by_cases he : j = w.next
    · refine .inl ?_
      have hh : (allocate o w).heap j = { o with graph := w.nextg } := by simp only [allocate, if_pos he]
      have hm := hg.mem
      rw [hh] at hm
      unfold World.attr
      rw [hh]
      exact ho g hm hr
    · have hh : (allocate o w).heap j = w.heap j := by simp only [allocate, if_neg he]
      refine absurd ?_ (A.1 j hj g)
      unfold HasField World.cdef at hg ⊢
      rw [hh] at hg; exact hg

theorem loads_refl {w : World} (A : Allocated Demo.env w) : Loads Demo.env w w :=
  ⟨fun _ _ => rfl, fun j hj g hg _ => absurd hg (A.1 j hj g)⟩

theorem dbUser_bare (k : Val) : ∀ g ∈ (Demo.env.cls (dbUser k).cls).fields, g.isRef = true → (dbUser k).attrs g.name = .none := by
  intro g hg hr
  have hg : g ∈ user.fields := hg
  simp only [user, List.mem_cons, List.not_mem_nil, or_false] at hg
  rcases hg with rfl | rfl | rfl | rfl | rfl | rfl <;> first | (cases hr; done) | rfl

theorem dbPost_bare (k : Val) : ∀ g ∈ (Demo.env.cls (dbPost k).cls).fields, g.isRef = true → (dbPost k).attrs g.name = .none := by
  intro g hg hr
  have hg : g ∈ post.fields := hg
  simp only [post, List.mem_cons, List.not_mem_nil, or_false] at hg
  rcases hg with rfl | rfl | rfl <;> first | (cases hr; done) | rfl

theorem shop_truthful : Truthful Demo.env shop where
  loads := by
    intro q w A
    cases q with
    | id c k =>
      simp only [shop]
      split
      · exact allocate_loads A (dbUser_bare k)
      · exact loads_refl A
    | find c r k =>
      simp only [shop]
      split
      · exact allocate_loads A (dbPost_bare k)
      · exact loads_refl A
    | _ => exact loads_refl A
  cls := by
    intro f c n h
    simp only [shop, h]
  id := by
    intro c k w v w' h
    simp only [shop] at h
    split at h
    · rename_i hc
      cases h
      refine ⟨w.next, rfl, ?_, ?_⟩
      · simp only [allocate, if_true, dbUser]; exact hc.symm
      · simp only [World.id, World.cdef, World.attr, allocate, if_true, dbUser]; rfl
    · cases h
  ids := by intro c k w v w' h; cases h
  one := by intro c r k w v w' h; cases h
  find := by
    intro c r k w v w' h
    simp only [shop] at h
    split at h
    · rename_i hc
      cases h
      refine ⟨[w.next], rfl, by simp, fun b hb => ?_⟩
      cases List.mem_singleton.1 hb
      obtain ⟨rfl, rfl⟩ := hc
      refine ⟨?_, ?_⟩
      · simp only [allocate, if_true, dbPost]
      · simp only [World.attr, allocate, if_true, dbPost]; rfl
    · cases h

/-- a post and a user from the database, nothing linked; the post is by another user -/
def lone : World where
  heap := fun i => match i with
    | 0 => { cls := "Post", graph := 0, isNew := false, attrs := attrsOf [("id", .str "p0"), ("author_id", .str "u7")] }
    | 1 => { cls := "User", graph := 1, isNew := false, attrs := attrsOf [("id", .str "u1")] }
    | _ => {}
  next := 2
  nextg := 2

theorem lone_bare {a : Nat} {g : Field} (hg : HasField Demo.env lone a g) (hr : g.isRef = true) :
    a < 2 ∧ lone.attr a g.name = .none := by
  match a with
  | 0 =>
    refine ⟨by decide, ?_⟩
    have hm : g ∈ post.fields := hg.mem
    simp only [post, List.mem_cons, List.not_mem_nil, or_false] at hm
    rcases hm with rfl | rfl | rfl <;> first | (cases hr; done) | rfl
  | 1 =>
    refine ⟨by decide, ?_⟩
    have hm : g ∈ user.fields := hg.mem
    simp only [user, List.mem_cons, List.not_mem_nil, or_false] at hm
    rcases hm with rfl | rfl | rfl | rfl | rfl | rfl <;> first | (cases hr; done) | rfl
  | n + 2 => cases hg

theorem lone_allocated : Allocated Demo.env lone := by
  refine ⟨fun j hj g hg => ?_, fun a g b hg hr hb => ?_⟩
  · match j with
    | 0 => exact absurd hj (by decide)
    | 1 => exact absurd hj (by decide)
    | n + 2 => cases hg
  · rw [(lone_bare hg hr).2] at hb; cases hb

theorem lone_linked : WellLinked Demo.env lone := by
  intro a g og hg hp
  rw [(lone_bare hg hp.2.1).2]
  exact fits_none _ _ _

theorem lone_symmetric : Symmetric Demo.env lone := by
  intro a b g og hg hb hp
  have hpo := (relations.opp g og hp).1
  unfold Refers
  rw [(lone_bare hg hp.2.1).2, (lone_bare hb hpo.2.1).2, refsOf_none, refsOf_none]
  simp

theorem lone_mirrors : Mirrors Demo.env lone := by
  intro a g b hg hs _ hb
  rw [(lone_bare hg (isRef_localKey hs)).2] at hb; cases hb

/-- loading the author of the post -/
def authored : World := (apiInclude Demo.env shop 0 "author" lone).2

theorem authored_ok : apiInclude Demo.env shop 0 "author" lone = (.ok (), authored) := by
  have : okRun (apiInclude Demo.env shop 0 "author" lone) = true := by decide +kernel
  exact okRun_eq this

example : ∃ b, authored.attr 0 "author" = .obj b ∧ (authored.heap b).cls = "User" ∧ authored.id Demo.env b = .str "u7" ∧
    authored.attr 0 "author_id" = .str "u7" ∧ Refers authored b fPosts 0 :=
  include_reference relations plainPrimary shop_truthful lone_allocated lone_linked lone_symmetric lone_mirrors
    (f := fAuthor) rfl paired_author rfl rfl rfl authored_ok

/-- `fobj` loads the author too -/
example : ∃ b, (authored.attr 0 "author") = .obj b ∧ authored.id Demo.env b = .str "u7" := by
  have h : fobjTransform Demo.env shop "author" (.obj 0) lone = (.ok (authored.attr 0 "author"), authored) := by
    change (fobjLoad Demo.env shop 0 "author" >>= fun _ => readW (fun w => w.getattr Demo.env 0 "author")) lone = _
    rw [Py.bind_run, show fobjLoad Demo.env shop 0 "author" lone = apiInclude Demo.env shop 0 "author" lone from rfl, authored_ok]
    have hc : (authored.heap 0).cls = "Post" := by decide +kernel
    simp only [readW, World.getattr, World.cdef, hc]
    rfl
  obtain ⟨b, h1, -, -, h2⟩ := fobj_loads relations plainPrimary shop_truthful lone_allocated lone_linked lone_symmetric lone_mirrors
    (i := 0) (f := fAuthor) rfl paired_author rfl rfl rfl rfl h
  exact ⟨b, h1, h2⟩

/-- loading does not touch the other fields -/
example : authored.attr 0 "id" = .str "p0" := by
  have h := (include_leaves_rest relations shop_truthful lone_allocated lone_linked (i := 0) (f := fAuthor) rfl paired_author
    (fun _ => rfl) (b := 0) (by decide)).2 "id" (by
      rintro ⟨f, hf, h⟩
      have hf : f ∈ post.fields := hf
      simp only [post, List.mem_cons, List.not_mem_nil, or_false] at hf
      rcases hf with rfl | rfl | rfl <;> revert h <;> decide)
  exact h

/-- loading the posts of the user -/
def posted : World := (apiInclude Demo.env shop 1 "posts" lone).2

theorem posted_ok : apiInclude Demo.env shop 1 "posts" lone = (.ok (), posted) := by
  have : okRun (apiInclude Demo.env shop 1 "posts" lone) = true := by decide +kernel
  exact okRun_eq this

example : ∃ bs : List Nat, posted.attr 1 "posts" = .list (bs.map .obj) ∧ ∀ b ∈ bs, posted.attr b "author_id" = .str "u1" := by
  obtain ⟨w1, bs, -, h2, -, h4⟩ := include_members relations plainPrimary shop_truthful lone_allocated lone_linked lone_symmetric
    (i := 1) (f := fPosts) rfl paired_posts rfl rfl posted_ok
  exact ⟨bs, h2, fun b hb => (h4 lone_mirrors rfl rfl b hb).1⟩

example : refs posted 1 fPosts = [2] := by decide +kernel

/-- The previous values recorded by the assignment stay: with `reset_all_fields`, a `reset`
of the object, which is not modified, takes the loaded object away and the reference id with
it. -/
def strictEnv : Env := { Demo.env with cls := fun n => { Demo.env.cls n with resetAllFields := true } }

/-- loading the author of the post -/
def taken : World := (apiInclude strictEnv shop 0 "author" lone).2

theorem include_reset_forgets : okRun (apiInclude strictEnv shop 0 "author" lone) = true ∧
    text taken 0 "author_id" = "u7" ∧ (taken.heap 0).isModified = false ∧ (taken.heap 0).modFields = [] ∧
    okRun (apiReset strictEnv 0 taken) = true ∧ ((apiReset strictEnv 0 taken).2.attr 0 "author_id").isNone = true := by
  decide +kernel

/-- The objects loaded are marked as modified, although nothing in them differs from the
database. -/
theorem include_marks_loaded : ((shop.exec (.find "Post" "author_id" (.str "u1")) lone).2.heap 2).isModified = false ∧
    (posted.heap 2).isModified = true ∧ (posted.heap 2).modFields = ["author"] ∧ text posted 2 "author_id" = "u1" := by
  decide +kernel

/-- Including the same list again raises when the ORM makes new objects, and leaves the
object marked as modified. -/
theorem include_again_raises : okRun (apiInclude Demo.env shop 1 "posts" posted) = false ∧ (posted.heap 1).isModified = false ∧
    ((apiInclude Demo.env shop 1 "posts" posted).2.heap 1).isModified = true := by
  decide +kernel

end JC.SymDemo
