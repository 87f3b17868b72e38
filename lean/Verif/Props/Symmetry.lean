import Verif.Props.Frame
import Verif.Props.OwnedList

/-
C38: linked relations stay symmetric.
-/
namespace JC

/-! ### Specification -/

/-- The objects a value refers to when stored in a field like `g`. -/
def refsOf (g : Field) (v : Val) : List Nat :=
  match g.ftype, v with
  | .inst, .obj b => [b]
  | .list, .list xs => xs.filterMap Val.idx?
  | _, _ => []

/-- Object `a` refers to object `b` through its field `g`. -/
def Refers (w : World) (a : Nat) (g : Field) (b : Nat) : Prop := b ∈ refsOf g (w.attr a g.name)

/-- Object `a` has the field `g`. -/
def HasField (env : Env) (w : World) (a : Nat) (g : Field) : Prop := (w.cdef env a).field? g.name = some g

/-- `og` is the opposite field of the relation field `g`. -/
def Paired (env : Env) (g og : Field) : Prop :=
  (∃ c, g ∈ (env.cls c).fields) ∧ g.isRef = true ∧ env.foreignField g = some og

/-- Relations are declared properly: opposite fields name each other, relation fields hold
an object or a list, a class has one field of a name and one relation for a reference key,
and reference keys are neither fields nor primary keys. -/
structure Relations (env : Env) : Prop where
  opp : ∀ g og, Paired env g og → Paired env og g ∧ (g.ftype = .inst ∨ g.ftype = .list)
  uniq : ∀ c, ∀ f ∈ (env.cls c).fields, (env.cls c).field? f.name = some f
  keys : ∀ c n f g, (env.cls c).localKey? n = some f → (env.cls c).field? n = some g → False
  keyUniq : ∀ c, ∀ f ∈ (env.cls c).fields, f.store = .localKey → (env.cls c).localKey? f.refName = some f
  prim : ∀ c n, (env.cls c).primary = some n → (env.cls c).localKey? n = none

/-- The value suits the relation field `g`: nothing, an object, or a list of distinct
objects, all of them having the opposite field. -/
def Fits (env : Env) (w : World) (g og : Field) (v : Val) : Prop :=
  (v = .none ∨ (g.ftype = .inst ∧ ∃ b, v = .obj b) ∨
    (g.ftype = .list ∧ ∃ bs : List Nat, v = .list (bs.map .obj) ∧ bs.Nodup)) ∧
  ∀ b ∈ refsOf g v, HasField env w b og

/-- All linked relation fields hold suitable values. -/
def WellLinked (env : Env) (w : World) : Prop :=
  ∀ a g og, HasField env w a g → Paired env g og → Fits env w g og (w.attr a g.name)

/-- `a` refers to `b` exactly when `b` refers to `a` through the opposite field. -/
def Symmetric (env : Env) (w : World) : Prop :=
  ∀ a b g og, HasField env w a g → HasField env w b og → Paired env g og →
    (Refers w a g b ↔ Refers w b og a)

/-! ### Preliminaries -/

variable {env : Env}

theorem bind_ok {α β : Type} {m : Py World α} {f : α → Py World β} {w w' : World} {b : β}
    (h : (m >>= f) w = (.ok b, w')) : ∃ a w1, m w = (.ok a, w1) ∧ f a w1 = (.ok b, w') := by
  rw [Py.bind_run] at h
  rcases hm : m w with ⟨e | a, w1⟩
  · rw [hm] at h; cases h
  · rw [hm] at h; exact ⟨a, w1, rfl, h⟩

theorem get_bind_ok {β : Type} {f : World → Py World β} {w w' : World} {b : β}
    (h : (Py.get >>= f) w = (.ok b, w')) : f w w = (.ok b, w') := h

theorem readW_ok {α : Type} {f : World → Except Exc α} {w w' : World} {a : α} (h : readW f w = (.ok a, w')) :
    w' = w ∧ f w = .ok a := by
  have h1 := (Prod.mk.inj h).1
  have h2 := (Prod.mk.inj h).2
  exact ⟨h2.symm, h1⟩

theorem HasField.congr {w w' : World} (h : ∀ j, (w'.heap j).cls = (w.heap j).cls) {a : Nat} {g : Field} :
    HasField env w' a g ↔ HasField env w a g := by
  simp only [HasField, World.cdef, h]

theorem HasField.mem {w : World} {a : Nat} {g : Field} (h : HasField env w a g) :
    g ∈ (env.cls (w.heap a).cls).fields := (field_mem h).1

theorem HasField.eq {w : World} {a : Nat} {g f : Field} (h : HasField env w a g) (h' : HasField env w a f)
    (hn : g.name = f.name) : g = f := by
  unfold HasField at h h'
  rw [hn, h'] at h
  exact (Option.some.inj h).symm

theorem Relations.noKey (R : Relations env) {w : World} {a : Nat} {g : Field} (h : HasField env w a g) :
    (w.cdef env a).localKey? g.name = none := by
  cases hl : (w.cdef env a).localKey? g.name with
  | none => rfl
  | some f => exact (R.keys _ _ _ _ hl h).elim

theorem refName_localKey {w : World} {a : Nat} {g : Field} (h : g ∈ (w.cdef env a).fields)
    (hs : g.store = .localKey) : ∃ f, (w.cdef env a).localKey? g.refName = some f := by
  cases hl : (w.cdef env a).localKey? g.refName with
  | some f => exact ⟨f, rfl⟩
  | none =>
    unfold ClassDef.localKey? at hl
    rw [List.find?_eq_none] at hl
    exact absurd (hl g h) (by simp [hs])

/-- classes and linked relation fields are the same -/
def QR (env : Env) (w w' : World) : Prop :=
  (∀ j, (w'.heap j).cls = (w.heap j).cls) ∧
  ∀ a g og, HasField env w a g → Paired env g og → w'.attr a g.name = w.attr a g.name

theorem QR.refl (w : World) : QR env w w := ⟨fun _ => rfl, fun _ _ _ _ _ => rfl⟩

theorem QR.trans {w w1 w2 : World} (h : QR env w w1) (h' : QR env w1 w2) : QR env w w2 :=
  ⟨fun j => (h'.1 j).trans (h.1 j), fun a g og hg hp =>
    (h'.2 a g og ((HasField.congr h.1).2 hg) hp).trans (h.2 a g og hg hp)⟩

theorem QuietStep.qr {w w' : World} (h : QuietStep env w w') : QR env w w' :=
  ⟨fun j => (h.2.2 j).1, fun a g _ _ _ => by simp only [World.attr]; rw [(h.2.2 a).2.1]⟩

/-- bookkeeping only -/
def Calm (env : Env) {α : Type} (m : Py World α) : Prop := ∀ w, QR env w (m w).2

theorem Calm.ok {α : Type} {m : Py World α} (h : Calm env m) {w w' : World} {a : α}
    (hr : m w = (.ok a, w')) : QR env w w' := by
  have := h w; rw [hr] at this; exact this

theorem calm_upd {i : Nat} {g : Obj → Obj} (h : ∀ o, (g o).cls = o.cls ∧ (g o).attrs = o.attrs) :
    Calm env (updObj i g) := by
  intro w
  refine ⟨fun j => ?_, fun a gf og _ _ => ?_⟩
  · simp only [updObj, Py.modify, World.upd]
    by_cases hj : j = i
    · subst hj; simp only [if_true]; exact (h _).1
    · simp only [hj, if_false]
  · simp only [updObj, Py.modify, World.upd, World.attr]
    by_cases hj : a = i
    · subst hj; simp only [if_true]; rw [(h _).2]
    · simp only [hj, if_false]

theorem calm_markModified (i : Nat) (n : String) : Calm env (markModified i n) :=
  calm_upd (fun o => by split <;> exact ⟨rfl, rfl⟩)
theorem calm_markLocalKey (i : Nat) (f : Field) : Calm env (markLocalKey i f) :=
  calm_upd (fun o => by split <;> exact ⟨rfl, rfl⟩)
theorem calm_addUnlinked (i : Nat) (n : String) (v : Val) : Calm env (addUnlinked i n v) :=
  calm_upd (fun _ => ⟨rfl, rfl⟩)
theorem calm_delUnlinked (i : Nat) (n : String) (v : Val) : Calm env (delUnlinked i n v) :=
  calm_upd (fun _ => ⟨rfl, rfl⟩)
theorem calm_track (i : Nat) (f : Field) : Calm env (track env i f) := by
  intro w
  exact calm_upd (env := env) (i := i) (g := fun o => if o.isNew then o else
    { o with
      isModified := true
      modFields := setAdd f.name o.modFields
      prev := if recordsPrev (w.cdef env i) f && (dictGet o.prev f.name).isNone
        then o.prev ++ [(f.name, o.attrs f.name)] else o.prev }) (fun o => by split <;> exact ⟨rfl, rfl⟩) w
theorem calm_willChange (b : Bool) (i : Nat) (n : String) : Calm env (willChange env b i n) := by
  intro w
  simp only [willChange]
  cases (w.cdef env i).field? n with
  | none => cases b <;> exact QR.refl w
  | some f =>
    simp only []
    split
    · exact calm_upd (env := env) (i := i) (g := fun o => { o with prev := o.prev ++ [(n, o.attrs n)] })
        (fun o => ⟨rfl, rfl⟩) w
    · exact QR.refl w
theorem calm_linkGraph (i j : Nat) : Calm env (linkGraph env i j) := by
  intro w
  obtain ⟨h1, -, -⟩ := putSelf_heap (env := env) i w
  have hp : QR env w (putSelf env i w) :=
    ⟨fun j => by rw [h1], fun a g _ _ _ => by simp only [World.attr]; rw [h1]⟩
  unfold linkGraph mergeGraphs
  generalize putSelf env i w = w₁ at hp
  split
  · exact hp
  · cases mergeLoop env w₁ ((w₁.graphs (w₁.heap j).graph).map Prod.snd) (w₁.graphs (w₁.heap i).graph) with
    | error e => exact hp
    | ok g =>
      refine hp.trans ⟨fun o => ?_, fun a _ _ _ _ => ?_⟩
      · simp only []
        split <;> rfl
      · simp only [World.attr]
        split <;> rfl

theorem attr_rawSet (i : Nat) (n : String) (v : Val) (w : World) (a : Nat) (m : String) :
    (rawSet i n v w).2.attr a m = if a = i ∧ m = n then v else w.attr a m := by
  simp only [rawSet, updObj, Py.modify, World.upd, World.attr]
  by_cases ha : a = i
  · subst ha; simp only [if_true, true_and]
  · simp only [ha, if_false, false_and]

theorem cls_rawSet (i : Nat) (n : String) (v : Val) (w : World) (j : Nat) :
    ((rawSet i n v w).2.heap j).cls = (w.heap j).cls := by
  simp only [rawSet, updObj, Py.modify, World.upd]
  split
  · rename_i h; subst h; rfl
  · rfl

/-- writing something that is not a linked relation field -/
theorem qr_rawSet {i : Nat} {n : String} {v : Val} {w : World}
    (h : ∀ g og, (w.cdef env i).field? n = some g → ¬ Paired env g og) : QR env w (rawSet i n v w).2 := by
  refine ⟨cls_rawSet i n v w, fun a g og hg hp => ?_⟩
  rw [attr_rawSet]
  split
  · rename_i hc
    obtain ⟨rfl, hn⟩ := hc
    exact absurd hp (h g og (by rw [← hn]; exact hg))
  · rfl

theorem qr_rawKey (R : Relations env) {i : Nat} {n : String} {v : Val} {w : World} {f : Field}
    (h : (w.cdef env i).localKey? n = some f) : QR env w (rawSet i n v w).2 :=
  qr_rawSet (fun g _ hg _ => R.keys _ _ _ _ h hg)

/-- writing a linked relation field -/
theorem attr_rawRel {i : Nat} {f : Field} {v : Val} {w : World} (hf : HasField env w i f) {a : Nat} {g : Field}
    (hg : HasField env w a g) : (a = i ∧ g = f ∧ (rawSet i f.name v w).2.attr a g.name = v) ∨
    (¬(a = i ∧ g = f) ∧ (rawSet i f.name v w).2.attr a g.name = w.attr a g.name) := by
  rw [attr_rawSet]
  by_cases h : a = i ∧ g.name = f.name
  · obtain ⟨rfl, hn⟩ := h
    exact .inl ⟨rfl, hg.eq hf hn, by simp [hn]⟩
  · refine .inr ⟨fun hc => h ⟨hc.1, by rw [hc.2]⟩, by rw [if_neg h]⟩

/-! ### Removing references -/

/-- a set of references -/
abbrev Tri := Nat → Field → Nat → Prop

theorem QR.refers {w w' : World} (h : QR env w w') {a : Nat} {g og : Field} (hg : HasField env w a g)
    (hp : Paired env g og) {b : Nat} : Refers w' a g b ↔ Refers w a g b := by
  unfold Refers; rw [h.2 a g og hg hp]

theorem Fits.congr {w w' : World} (h : ∀ j, (w'.heap j).cls = (w.heap j).cls) {g og : Field} {v : Val}
    (hf : Fits env w g og v) : Fits env w' g og v :=
  ⟨hf.1, fun b hb => (HasField.congr h).2 (hf.2 b hb)⟩

theorem QR.wellLinked {w w' : World} (h : QR env w w') (hw : WellLinked env w) : WellLinked env w' := by
  intro a g og hg hp
  have hg' := (HasField.congr h.1).1 hg
  rw [h.2 a g og hg' hp]
  exact (hw a g og hg' hp).congr h.1

/-- From `w` to `w'` references are only removed, and the opposite of a removed one is not
there, except for those in `E`. -/
structure Rem (env : Env) (E : Tri) (w w' : World) : Prop where
  cls : ∀ j, (w'.heap j).cls = (w.heap j).cls
  fits : WellLinked env w'
  sub : ∀ a g og b, HasField env w a g → Paired env g og → Refers w' a g b → Refers w a g b
  clean : ∀ a g og b, HasField env w a g → Paired env g og → Refers w a g b → ¬ Refers w' a g b →
    Refers w' b og a → E b og a

theorem Rem.ofQR {E : Tri} {w w' : World} (h : QR env w w') (hw : WellLinked env w) : Rem env E w w' :=
  ⟨h.1, h.wellLinked hw, fun _ _ _ _ hg hp hr => (h.refers hg hp).1 hr,
    fun _ _ _ _ hg hp hr hn _ => absurd ((h.refers hg hp).2 hr) hn⟩

theorem Rem.mono {E E' : Tri} {w w' : World} (h : Rem env E w w') (he : ∀ a g b, E a g b → E' a g b) :
    Rem env E' w w' :=
  ⟨h.cls, h.fits, h.sub, fun a g og b h1 h2 h3 h4 h5 => he _ _ _ (h.clean a g og b h1 h2 h3 h4 h5)⟩

/-- exceptions that are not references can be dropped -/
theorem Rem.drop {E E' : Tri} {w w' : World} (h : Rem env E w w')
    (he : ∀ a g b, E a g b → Refers w' a g b → E' a g b) : Rem env E' w w' :=
  ⟨h.cls, h.fits, h.sub, fun a g og b h1 h2 h3 h4 h5 => he _ _ _ (h.clean a g og b h1 h2 h3 h4 h5) h5⟩

theorem Rem.trans (R : Relations env) {E : Tri} {w w1 w2 : World} (hw : WellLinked env w) (h : Rem env E w w1)
    (h' : Rem env E w1 w2) : Rem env E w w2 := by
  refine ⟨fun j => (h'.cls j).trans (h.cls j), h'.fits, fun a g og b hg hp hr =>
    h.sub a g og b hg hp (h'.sub a g og b ((HasField.congr h.cls).2 hg) hp hr), ?_⟩
  intro a g og b hg hp hr hn ho
  have hg1 : HasField env w1 a g := (HasField.congr h.cls).2 hg
  by_cases h1 : Refers w1 a g b
  · exact h'.clean a g og b hg1 hp h1 hn ho
  · have hb : HasField env w b og := (hw a g og hg hp).2 b hr
    exact h.clean a g og b hg hp hr h1
      (h'.sub b og g a ((HasField.congr h.cls).2 hb) (R.opp g og hp).1 ho)

/-! ### Lists of objects -/

theorem filterMap_obj (bs : List Nat) : (bs.map Val.obj).filterMap Val.idx? = bs := by
  induction bs with
  | nil => rfl
  | cons b bs ih => simp only [List.map_cons, List.filterMap_cons, Val.idx?, ih]

theorem refsOf_list {g : Field} (hg : g.ftype = .list) (bs : List Nat) : refsOf g (.list (bs.map .obj)) = bs := by
  simp only [refsOf, hg, filterMap_obj]

theorem refsOf_inst {g : Field} (hg : g.ftype = .inst) (b : Nat) : refsOf g (.obj b) = [b] := by
  simp only [refsOf, hg]

theorem refsOf_none (g : Field) : refsOf g .none = [] := by
  unfold refsOf; split <;> simp_all

theorem pyEq_obj_iff {x : Val} {i : Nat} : pyEq x (.obj i) = true ↔ x = .obj i := by
  cases x with
  | flt q => cases q <;> simp [pyEq]
  | _ => simp [pyEq]

theorem pyIn_obj {bs : List Nat} {i : Nat} : pyIn (.obj i) (bs.map .obj) = true ↔ i ∈ bs := by
  simp [pyIn, pyEq]

theorem listRemove_objs {bs : List Nat} {i : Nat} {ys : List Val}
    (h : listRemove (.obj i) (bs.map .obj) = some ys) : i ∈ bs ∧ ys = (bs.erase i).map .obj := by
  induction bs generalizing ys with
  | nil => cases h
  | cons b bs ih =>
    simp only [List.map_cons, listRemove] at h
    by_cases hb : b = i
    · subst hb
      rw [if_pos (by simp [pyEq])] at h
      cases h
      simp
    · rw [if_neg (by simp [pyEq, hb])] at h
      cases hr : listRemove (.obj i) (bs.map .obj) with
      | none => rw [hr] at h; cases h
      | some zs =>
        rw [hr] at h
        obtain ⟨h1, rfl⟩ := ih hr
        cases h
        refine ⟨by simp [h1], ?_⟩
        rw [List.erase_cons_tail (by simpa using hb)]
        rfl

/-- a relation field that holds a list -/
theorem Fits.list {w : World} {g og : Field} {xs : List Val} (h : Fits env w g og (.list xs)) :
    g.ftype = .list ∧ ∃ bs : List Nat, xs = bs.map .obj ∧ bs.Nodup ∧ ∀ b ∈ bs, HasField env w b og := by
  obtain ⟨h1, h2⟩ := h
  rcases h1 with h1 | ⟨-, b, h1⟩ | ⟨hl, bs, h1, hn⟩
  · cases h1
  · cases h1
  · cases h1
    refine ⟨hl, bs, rfl, hn, fun b hb => h2 b ?_⟩
    rw [refsOf_list hl]; exact hb

theorem fits_none (w : World) (g og : Field) : Fits env w g og .none :=
  ⟨.inl rfl, fun b hb => by rw [refsOf_none] at hb; cases hb⟩

theorem fits_list {w : World} {g og : Field} (hg : g.ftype = .list) {bs : List Nat} (hn : bs.Nodup)
    (hb : ∀ b ∈ bs, HasField env w b og) : Fits env w g og (.list (bs.map .obj)) :=
  ⟨.inr (.inr ⟨hg, bs, rfl, hn⟩), fun b h => hb b (by rwa [refsOf_list hg] at h)⟩

theorem fits_inst {w : World} {g og : Field} (hg : g.ftype = .inst) {b : Nat} (hb : HasField env w b og) :
    Fits env w g og (.obj b) :=
  ⟨.inr (.inl ⟨hg, b, rfl⟩), fun c h => by
    rw [refsOf_inst hg] at h; cases List.mem_singleton.1 h; exact hb⟩

/-- writing a suitable value keeps relations well linked -/
theorem wellLinked_rawRel {i : Nat} {f of : Field} {v : Val} {w : World} (hw : WellLinked env w)
    (hf : HasField env w i f) (hp : Paired env f of) (hv : Fits env w f of v) :
    WellLinked env (rawSet i f.name v w).2 := by
  intro a g og hg hpg
  have hg' := (HasField.congr (cls_rawSet i f.name v w)).1 hg
  rcases attr_rawRel (v := v) hf hg' with ⟨rfl, rfl, h⟩ | ⟨-, h⟩
  · rw [h]
    have : og = of := Option.some.inj (hpg.2.2.symm.trans hp.2.2)
    subst this
    exact hv.congr (cls_rawSet _ _ _ w)
  · rw [h]; exact (hw a g og hg' hpg).congr (cls_rawSet _ _ _ w)

/-- writing fewer references -/
theorem rem_rawRel (R : Relations env) {i : Nat} {f of : Field} {v : Val} {w : World} (hw : WellLinked env w) (hf : HasField env w i f)
    (hp : Paired env f of) (hv : Fits env w f of v) (hs : ∀ b ∈ refsOf f v, Refers w i f b) :
    Rem env (fun a g b => g = of ∧ b = i ∧ Refers w i f a ∧ a ∉ refsOf f v) w (rawSet i f.name v w).2 := by
  refine ⟨cls_rawSet _ _ _ w, wellLinked_rawRel hw hf hp hv, ?_, ?_⟩
  · intro a g og b hg hpg hr
    unfold Refers at hr
    rcases attr_rawRel (v := v) hf hg with ⟨rfl, rfl, h⟩ | ⟨-, h⟩
    · rw [h] at hr; exact hs b hr
    · rw [h] at hr; exact hr
  · intro a g og b hg hpg hr hn ho
    unfold Refers at hn
    rcases attr_rawRel (v := v) hf hg with ⟨rfl, rfl, h⟩ | ⟨-, h⟩
    · rw [h] at hn
      have : og = of := Option.some.inj (hpg.2.2.symm.trans hp.2.2)
      exact ⟨this, rfl, hr, hn⟩
    · rw [h] at hn; exact absurd hr hn

/-! ### Unlinking -/

/-- nothing -/
def noTri : Tri := fun _ _ _ => False

/-- What unlinking commands do when they succeed. -/
structure USpec (env : Env) (run : UCmd → Py World Unit) : Prop where
  unlink : ∀ i f of v w w', WellLinked env w → HasField env w i f → Paired env f of →
    (∀ x ∈ linkItems f v, ∃ j, x = .obj j ∧ HasField env w j of) → run (.unlink i f v) w = (.ok (), w') →
    Rem env (fun a g b => a = i ∧ g = f ∧ .obj b ∈ linkItems f v) w w' ∧
      ∀ j, .obj j ∈ linkItems f v → ¬ Refers w' j of i
  del : ∀ i path v w w', WellLinked env w →
    (∀ f of, (w.cdef env i).field? path = some f → Paired env f of →
      f.ftype = .list ∧ ∃ j, v = .obj j ∧ HasField env w j of ∧ ¬ Refers w i f j) →
    run (.del i path v) w = (.ok (), w') →
    Rem env noTri w w' ∧
      ∀ f of j, (w.cdef env i).field? path = some f → Paired env f of → v = .obj j → ¬ Refers w' j of i
  other : ∀ i f v w w', env.foreignField f = none → run (.unlink i f v) w = (.ok (), w') → QR env w w'

theorem field?_self {w : World} {i : Nat} {n : String} {f : Field} (h : (w.cdef env i).field? n = some f) :
    HasField env w i f := by
  have := (field_mem h).2
  unfold HasField; rw [this]; exact h

theorem cdef_congr {w w' : World} (h : ∀ j, (w'.heap j).cls = (w.heap j).cls) (i : Nat) :
    w'.cdef env i = w.cdef env i := by simp only [World.cdef, h]

/-- removing an item from a linked relation field -/
theorem rem_listRemoveAttr (R : Relations env) {run : UCmd → Py World Unit} (hs : USpec env run) {i j : Nat}
    {f of : Field} {w w' : World} (hw : WellLinked env w) (hf : HasField env w i f) (hp : Paired env f of)
    (h : listRemoveAttr env run i f.name (.obj j) w = (.ok (), w')) :
    Rem env noTri w w' ∧ ¬ Refers w' i f j ∧ ¬ Refers w' j of i := by
  unfold listRemoveAttr at h
  have h := get_bind_ok h
  cases ha : w.attr i f.name with
  | list xs =>
    rw [ha] at h
    simp only at h
    obtain ⟨hl, bs, rfl, hnd, hb⟩ := (ha ▸ hw i f of hf hp).list
    obtain ⟨u, w1, h1, h⟩ := bind_ok h
    have q1 := (calm_willChange (env := env) false i f.name).ok h1
    cases hr : listRemove (.obj j) (bs.map .obj) with
    | none => rw [hr] at h; cases h
    | some ys =>
      rw [hr] at h
      simp only at h
      obtain ⟨hj, rfl⟩ := listRemove_objs hr
      obtain ⟨u2, w2, h2, h⟩ := bind_ok h
      have hw1 := q1.wellLinked hw
      have hf1 : HasField env w1 i f := (HasField.congr q1.1).2 hf
      have ha1 : w1.attr i f.name = .list (bs.map .obj) := (q1.2 i f of hf hp).trans ha
      have hfit : Fits env w1 f of (.list ((bs.erase j).map .obj)) := by
        refine fits_list hl (hnd.erase j) (fun b hb' => (HasField.congr q1.1).2 (hb b (List.mem_of_mem_erase hb')))
      have hrem := rem_rawRel R (v := .list ((bs.erase j).map .obj)) hw1 hf1 hp hfit (by
        intro b hb'
        rw [refsOf_list hl] at hb'
        unfold Refers
        rw [ha1, refsOf_list hl]
        exact List.mem_of_mem_erase hb')
      have h2' : w2 = (rawSet i f.name (.list ((bs.erase j).map .obj)) w1).2 := by rw [h2]
      rw [← h2'] at hrem
      have hf2 : HasField env w2 i f := (HasField.congr hrem.cls).2 hf1
      have hnot : ¬ Refers w2 i f j := by
        unfold Refers
        rw [h2', attr_rawSet, if_pos ⟨rfl, rfl⟩, refsOf_list hl]
        intro hm
        exact ((List.Nodup.mem_erase_iff hnd).1 hm).1 rfl
      have hj2 : HasField env w2 j of := (HasField.congr hrem.cls).2 ((HasField.congr q1.1).2 (hb j hj))
      obtain ⟨hd, hd'⟩ := hs.del i f.name (.obj j) w2 w' hrem.fits (by
        intro g og hg hpg
        have hgf : f = g := Option.some.inj (hf2.symm.trans hg)
        subst hgf
        have : og = of := Option.some.inj (hpg.2.2.symm.trans hp.2.2)
        subst this
        exact ⟨hl, j, rfl, hj2, hnot⟩) h
      have hno := hd' f of j hf2 hp rfl
      refine ⟨?_, fun hc => hnot (hd.sub i f of j hf2 hp hc), hno⟩
      have ht := (Rem.ofQR q1 hw).trans R hw (hrem.trans R hw1 (hd.mono (fun _ _ _ h => h.elim)))
      refine ht.drop ?_
      rintro a g b ⟨rfl, rfl, ha', hna⟩ hre
      have : a = j := by
        by_cases haj : a = j
        · exact haj
        · exfalso
          unfold Refers at ha'
          rw [ha1, refsOf_list hl] at ha'
          rw [refsOf_list hl] at hna
          exact hna ((List.mem_erase_of_ne haj).2 ha')
      subst this
      exact hno hre
  | _ => rw [ha] at h; cases h

/-- removing an item from any other list -/
theorem rem_listRemoveAttr' (R : Relations env) {run : UCmd → Py World Unit} (hs : USpec env run) {i : Nat} {n : String}
    {v : Val} {w w' : World} (hw : WellLinked env w)
    (hn : ∀ g og, (w.cdef env i).field? n = some g → ¬ Paired env g og)
    (h : listRemoveAttr env run i n v w = (.ok (), w')) : Rem env noTri w w' := by
  unfold listRemoveAttr at h
  have h := get_bind_ok h
  cases ha : w.attr i n with
  | list xs =>
    rw [ha] at h
    simp only at h
    obtain ⟨u, w1, h1, h⟩ := bind_ok h
    have q1 := (calm_willChange (env := env) false i n).ok h1
    cases hr : listRemove v xs with
    | none => rw [hr] at h; cases h
    | some ys =>
      rw [hr] at h
      simp only at h
      obtain ⟨u2, w2, h2, h⟩ := bind_ok h
      have q2 : QR env w1 w2 := by
        have : w2 = (rawSet i n (.list ys) w1).2 := by rw [h2]
        rw [this]
        exact qr_rawSet (fun g og hg => hn g og (by rw [← cdef_congr q1.1]; exact hg))
      have q := q1.trans q2
      have hd := (hs.del i n v w2 w' (q.wellLinked hw) (fun f of hf hp =>
        absurd hp (hn f of (by rw [← cdef_congr q.1]; exact hf))) h).1
      exact (Rem.ofQR q hw).trans R hw hd
  | _ => rw [ha] at h; cases h

theorem qr_unlinkKey (R : Relations env) {j : Nat} {of : Field} {w w' : World} (hj : HasField env w j of)
    (h : unlinkKey j of w = (.ok (), w')) : QR env w w' := by
  unfold unlinkKey at h
  split at h
  · rename_i hst
    obtain ⟨u, w1, h1, h⟩ := bind_ok h
    obtain ⟨f, hf⟩ := refName_localKey (w := w) (a := j) hj.mem hst
    have q1 : QR env w w1 := by
      have : w1 = (rawSet j of.refName .none w).2 := by rw [h1]
      rw [this]; exact qr_rawKey R hf
    exact q1.trans ((calm_upd (env := env) (i := j)
      (g := fun o => { o with modFields := setAdd of.name o.modFields }) (fun _ => ⟨rfl, rfl⟩)).ok h)
  · cases h; exact QR.refl _

/-- the other side of unlinking -/
theorem rem_unlinkOther (R : Relations env) {run : UCmd → Py World Unit} (hs : USpec env run) {i j : Nat}
    {f of : Field} {w w' : World} (hw : WellLinked env w) (hp : Paired env f of) (hj : HasField env w j of)
    (h : unlinkOther env run i of (.obj j) w = (.ok (), w')) :
    Rem env (fun a g b => a = i ∧ g = f ∧ b = j) w w' ∧ ¬ Refers w' j of i := by
  have hpo := (R.opp f of hp).1
  unfold unlinkOther at h
  have h := get_bind_ok h
  have hfit := hw j of f hj hpo
  rcases (R.opp of f hpo).2 with ht | ht
  · simp only [ht] at h
    by_cases he : pyEq (w.attr j of.name) (.obj i) = true
    · rw [if_pos he] at h
      have ha := pyEq_obj_iff.1 he
      obtain ⟨u, w1, h1, h⟩ := bind_ok h
      obtain ⟨u2, w2, h2, h3⟩ := bind_ok h
      have hw1 : w1 = (rawSet j of.name .none w).2 := by rw [h1]
      have hr := rem_rawRel R (v := .none) hw hj hpo (fits_none w of f) (by
        intro b hb; rw [refsOf_none] at hb; cases hb)
      rw [← hw1] at hr
      have hj1 : HasField env w1 j of := (HasField.congr hr.cls).2 hj
      have q := (qr_unlinkKey R hj1 h2).trans ((calm_addUnlinked (env := env) j of.name (.obj i)).ok h3)
      have hn1 : ¬ Refers w1 j of i := by
        unfold Refers; rw [hw1, attr_rawSet, if_pos ⟨rfl, rfl⟩, refsOf_none]; simp
      refine ⟨?_, fun hc => hn1 ((q.refers hj1 hpo).1 hc)⟩
      refine (hr.trans R hw (Rem.ofQR q hr.fits)).mono ?_
      rintro a g b ⟨rfl, rfl, ha', -⟩
      unfold Refers at ha'
      rw [ha, refsOf_inst ht] at ha'
      exact ⟨List.mem_singleton.1 ha', rfl, rfl⟩
    · rw [if_neg he] at h
      cases h
      refine ⟨Rem.ofQR (QR.refl w) hw, fun hc => ?_⟩
      unfold Refers at hc
      rcases hfit.1 with h0 | ⟨-, b, h0⟩ | ⟨h0, -⟩
      · rw [h0, refsOf_none] at hc; cases hc
      · rw [h0, refsOf_inst ht] at hc
        cases List.mem_singleton.1 hc
        exact he (pyEq_obj_iff.2 h0)
      · rw [ht] at h0; cases h0
  · simp only [ht] at h
    rcases hfit.1 with h0 | ⟨h0, -⟩ | ⟨-, bs, h0, hnd⟩
    · rw [h0] at h
      cases h
      refine ⟨Rem.ofQR (QR.refl w) hw, fun hc => ?_⟩
      unfold Refers at hc
      rw [h0, refsOf_none] at hc; cases hc
    · rw [ht] at h0; cases h0
    · rw [h0] at h
      simp only at h
      by_cases he : pyIn (.obj i) (bs.map .obj) = true
      · rw [if_pos he] at h
        obtain ⟨u, w1, h1, h2⟩ := bind_ok h
        obtain ⟨hr, hn, -⟩ := rem_listRemoveAttr R hs hw hj hpo h1
        have q := (calm_addUnlinked (env := env) j of.name (.obj i)).ok h2
        have hj1 : HasField env w1 j of := (HasField.congr hr.cls).2 hj
        exact ⟨(hr.trans R hw (Rem.ofQR q hr.fits)).mono (fun _ _ _ h => h.elim),
          fun hc => hn ((q.refers hj1 hpo).1 hc)⟩
      · rw [if_neg he] at h
        cases h
        refine ⟨Rem.ofQR (QR.refl w) hw, fun hc => ?_⟩
        unfold Refers at hc
        rw [h0, refsOf_list ht] at hc
        exact he (pyIn_obj.2 hc)

theorem rem_unlinkItems (R : Relations env) {run : UCmd → Py World Unit} (hs : USpec env run) {i : Nat} {f of : Field}
    (hp : Paired env f of) (items : List Val) {w w' : World} (hw : WellLinked env w)
    (hi : ∀ x ∈ items, ∃ j, x = .obj j ∧ HasField env w j of)
    (h : forItems items (fun item => do
      addUnlinked i f.name item
      unlinkOther env run i of item) w = (.ok (), w')) :
    Rem env (fun a g b => a = i ∧ g = f ∧ .obj b ∈ items) w w' ∧ ∀ j, .obj j ∈ items → ¬ Refers w' j of i := by
  induction items generalizing w with
  | nil =>
    cases h
    exact ⟨Rem.ofQR (QR.refl _) hw, fun j hj => by cases hj⟩
  | cons x xs ih =>
    unfold forItems at h
    obtain ⟨u, w2, h12, h3⟩ := bind_ok h
    obtain ⟨u1, w1, h1, h2⟩ := bind_ok h12
    obtain ⟨j, rfl, hj⟩ := hi x (by simp)
    have q := (calm_addUnlinked (env := env) i f.name (.obj j)).ok h1
    obtain ⟨r, hn⟩ := rem_unlinkOther R hs (q.wellLinked hw) hp ((HasField.congr q.1).2 hj) h2
    have r' := (Rem.ofQR q hw).trans R hw r
    obtain ⟨r2, hn2⟩ := ih r.fits (fun x hx => by
      obtain ⟨k, hk, hk'⟩ := hi x (by simp [hx])
      exact ⟨k, hk, (HasField.congr r'.cls).2 hk'⟩) h3
    refine ⟨(r'.mono ?_).trans R hw (r2.mono ?_), fun k hk => ?_⟩
    · rintro a g b ⟨rfl, rfl, rfl⟩; exact ⟨rfl, rfl, by simp⟩
    · rintro a g b ⟨rfl, rfl, hb⟩; exact ⟨rfl, rfl, List.mem_cons_of_mem _ hb⟩
    · rcases List.mem_cons.1 hk with hk | hk
      · have hkj : k = j := by cases hk; rfl
        subst hkj
        exact fun hc => hn (r2.sub k of f i ((HasField.congr r'.cls).2 hj) (R.opp f of hp).1 hc)
      · exact hn2 k hk

theorem findById_mem {w : World} {key x : Val} {xs : List Val} (h : findById env w key xs = .ok (some x)) : x ∈ xs := by
  induction xs with
  | nil => cases h
  | cons y ys ih =>
    unfold findById at h
    cases hk : itemId env w y with
    | error e => rw [hk] at h; cases h
    | ok k =>
      rw [hk] at h
      simp only at h
      split at h
      · cases h; simp
      · exact List.mem_cons_of_mem _ (ih h)

/-- `__olist_del__` of a list of keys -/
theorem rem_delLocal (R : Relations env) {run : UCmd → Py World Unit} (hs : USpec env run) {i : Nat} {f : Field}
    {path : String} {v : Val} {w w' : World} (hw : WellLinked env w) (hm : f ∈ (w.cdef env i).fields)
    (h : delLocal env run i f path v w = (.ok (), w')) : Rem env noTri w w' := by
  unfold delLocal at h
  obtain ⟨u, w1, h1, h⟩ := bind_ok h
  have q := (calm_markLocalKey (env := env) i f).ok h1
  have hw1 := q.wellLinked hw
  have hf1 : HasField env w1 i f := by
    unfold HasField; rw [cdef_congr q.1]; exact R.uniq _ f hm
  have h := get_bind_ok h
  refine (Rem.ofQR q hw).trans R hw ?_
  cases ha : w1.attr i f.name with
  | list xs =>
    rw [ha] at h
    simp only at h
    obtain ⟨n, w2, h2, h⟩ := bind_ok h
    have : w2 = w1 := (readW_ok h2).1
    subst this
    split at h
    · obtain ⟨m, w3, h3, h⟩ := bind_ok h
      have hm' := (readW_ok h3).2
      have hw3 : w3 = w2 := (readW_ok h3).1
      subst hw3
      cases m with
      | none => cases h; exact Rem.ofQR (QR.refl _) hw1
      | some x =>
        simp only at h
        by_cases hp : ∃ of, Paired env f of
        · obtain ⟨of, hp⟩ := hp
          obtain ⟨-, bs, rfl, -, -⟩ := (ha ▸ hw1 i f of hf1 hp).list
          obtain ⟨j, -, rfl⟩ := List.mem_map.1 (findById_mem hm')
          exact (rem_listRemoveAttr R hs hw1 hf1 hp h).1
        · refine rem_listRemoveAttr' R hs hw1 (fun g og hg hpg => hp ⟨og, ?_⟩) h
          rw [show f = g from Option.some.inj (hf1.symm.trans hg)]; exact hpg
    · cases h; exact Rem.ofQR (QR.refl _) hw1
  | _ => rw [ha] at h; cases h; exact Rem.ofQR (QR.refl _) hw1

/-- the key part of `__olist_del__` -/
theorem rem_delKey (R : Relations env) {run : UCmd → Py World Unit} (hs : USpec env run) {i : Nat} {f : Field}
    {path : String} {v : Val} {w w' : World} (hw : WellLinked env w) (hf : HasField env w i f)
    (h : delKey env run i f path v w = (.ok (), w')) : Rem env noTri w w' := by
  unfold delKey at h
  split at h
  · rename_i hst
    have h := get_bind_ok h
    cases ha : w.attr i f.refName with
    | list ks =>
      rw [ha] at h
      simp only at h
      obtain ⟨n, w2, h2, h⟩ := bind_ok h
      have : w2 = w := (readW_ok h2).1
      subst this
      split at h
      · obtain ⟨k, w3, h3, h5⟩ := bind_ok h
        have hw3 : w3 = w2 := (readW_ok h3).1
        subst hw3
        split at h5
        · obtain ⟨g, hg⟩ := refName_localKey (w := w3) (a := i) hf.mem hst
          exact rem_listRemoveAttr' R hs hw (fun g' og hg' _ => R.keys _ _ _ _ hg hg') h5
        · cases h5; exact Rem.ofQR (QR.refl _) hw
      · cases h; exact Rem.ofQR (QR.refl _) hw
    | _ => rw [ha] at h; cases h
  · cases h; exact Rem.ofQR (QR.refl _) hw

theorem uspec (R : Relations env) (n : Nat) : USpec env (runU env n) := by
  induction n with
  | zero => exact ⟨fun _ _ _ _ _ _ _ _ _ _ h => (by cases h), fun _ _ _ _ _ _ _ h => (by cases h),
      fun _ _ _ _ _ _ h => (by cases h)⟩
  | succ n ih =>
    refine ⟨?_, ?_, ?_⟩
    · intro i f of v w w' hw hf hp hi h
      simp only [runU, unlinkBody, hp.2.2] at h
      exact rem_unlinkItems R ih hp _ hw hi h
    · intro i path v w w' hw hpre h
      simp only [runU] at h
      unfold delBody at h
      have h := get_bind_ok h
      cases hl : (w.cdef env i).localKey? path with
      | some f =>
        rw [hl] at h
        simp only at h
        refine ⟨rem_delLocal R ih hw (localKey_mem hl).1 h, fun g og j hg => ?_⟩
        exact (R.keys _ _ _ _ hl hg).elim
      | none =>
        rw [hl] at h
        simp only at h
        obtain ⟨u, w1, h1, h2⟩ := bind_ok h
        have q2 := (calm_markModified (env := env) i path).ok h2
        suffices hx : Rem env noTri w w1 ∧ ∀ f of j, (w.cdef env i).field? path = some f → Paired env f of →
            v = .obj j → ¬ Refers w1 j of i by
          refine ⟨hx.1.trans R hw (Rem.ofQR q2 hx.1.fits), fun f of j hf hp hv hc => hx.2 f of j hf hp hv ?_⟩
          obtain ⟨-, k, hk, hk', -⟩ := hpre f of hf hp
          cases hv; cases hk
          exact (q2.refers ((HasField.congr hx.1.cls).2 hk') (R.opp f of hp).1).1 hc
        unfold delRef at h1
        cases hf : (w.cdef env i).field? path with
        | none =>
          rw [hf] at h1
          cases h1
          exact ⟨Rem.ofQR (QR.refl _) hw, fun f of j hf' => by cases hf'⟩
        | some f =>
          rw [hf] at h1
          simp only at h1
          have hfi := field?_self hf
          split at h1
          · rename_i href
            obtain ⟨u1, w2, h3, h4⟩ := bind_ok h1
            cases hof : env.foreignField f with
            | none =>
              have q := ih.other _ _ _ _ _ hof h3
              refine ⟨(Rem.ofQR q hw).trans R hw
                (rem_delKey R ih (q.wellLinked hw) ((HasField.congr q.1).2 hfi) h4), ?_⟩
              intro g og j hg hp
              cases hg
              rw [hp.2.2] at hof; cases hof
            | some of =>
              have hp : Paired env f of := ⟨⟨_, hfi.mem⟩, href, hof⟩
              obtain ⟨hl', j, rfl, hj, hnr⟩ := hpre f of hf hp
              have hli : linkItems f (.list [.obj j]) = [.obj j] := by simp only [linkItems, hl']
              obtain ⟨r, hn⟩ := ih.unlink i f of _ w w2 hw hfi hp (by
                rw [hli]; intro x hx; exact ⟨j, List.mem_singleton.1 hx, hj⟩) h3
              rw [hli] at r hn
              have r2 := rem_delKey R ih r.fits ((HasField.congr r.cls).2 hfi) h4
              have hnj := hn j (by simp)
              refine ⟨?_, ?_⟩
              · refine (r.drop (E' := noTri) ?_).trans R hw r2
                rintro a g b ⟨rfl, rfl, hb⟩ hre
                have : b = j := by simpa using hb
                subst this
                exact hnr (r.sub a g of b hfi hp hre)
              · intro g og k hg hpg hk hc
                cases hg; cases hk
                have : og = of := Option.some.inj (hpg.2.2.symm.trans hof)
                subst this
                exact hnj (r2.sub _ _ f _ ((HasField.congr r.cls).2 hj) (R.opp f og hp).1 hc)
          · rename_i href
            cases h1
            refine ⟨Rem.ofQR (QR.refl _) hw, fun g og j hg hpg => ?_⟩
            cases hg
            exact absurd hpg.2.1 href
    · intro i f v w w' hof h
      simp only [runU, unlinkBody, hof] at h
      cases hl : linkItems f v with
      | nil => rw [hl] at h; cases h; exact QR.refl _
      | cons x xs =>
        rw [hl] at h
        exact (calm_addUnlinked (env := env) i f.name x).ok h

/-! ### What unlinking one object leaves alone -/

/-- The same values in field `f` of all objects but `k`. -/
def SameBut (env : Env) (k : Nat) (f : Field) (w w' : World) : Prop :=
  (∀ j, (w'.heap j).cls = (w.heap j).cls) ∧
  ∀ a, a ≠ k → HasField env w a f → w'.attr a f.name = w.attr a f.name

theorem QR.sameBut {w w' : World} (h : QR env w w') {f of : Field} (hp : Paired env f of) (k : Nat) :
    SameBut env k f w w' := ⟨h.1, fun a _ ha => h.2 a f of ha hp⟩

theorem SameBut.trans {k : Nat} {f : Field} {w w1 w2 : World} (h : SameBut env k f w w1) (h' : SameBut env k f w1 w2) :
    SameBut env k f w w2 :=
  ⟨fun j => (h'.1 j).trans (h.1 j), fun a ha hf => (h'.2 a ha ((HasField.congr h.1).2 hf)).trans (h.2 a ha hf)⟩

theorem sameBut_rawSet (k : Nat) (f : Field) (n : String) (v : Val) (w : World) :
    SameBut env k f w (rawSet k n v w).2 :=
  ⟨cls_rawSet _ _ _ w, fun a ha _ => by rw [attr_rawSet, if_neg (fun h => ha h.1)]⟩

/-- Unlinking commands about field `f` of object `k`, the opposite field holding one object,
leave `f` of all other objects alone. -/
structure FSpec (env : Env) (f of : Field) (run : UCmd → Py World Unit) : Prop where
  unlink : ∀ k v w w', WellLinked env w → HasField env w k f →
    (∀ x ∈ linkItems f v, ∃ j, x = .obj j ∧ HasField env w j of) → run (.unlink k f v) w = (.ok (), w') →
    SameBut env k f w w'
  del : ∀ k j w w', WellLinked env w → HasField env w k f → HasField env w j of → ¬ Refers w k f j →
    run (.del k f.name (.obj j)) w = (.ok (), w') → SameBut env k f w w'
  key : ∀ k v w w', WellLinked env w → (w.cdef env k).localKey? f.refName = some f →
    run (.del k f.refName v) w = (.ok (), w') → SameBut env k f w w'

theorem listRemoveAttr_split {run : UCmd → Py World Unit} {i j : Nat} {f of : Field} {w w' : World}
    (hw : WellLinked env w) (hf : HasField env w i f) (hp : Paired env f of)
    (h : listRemoveAttr env run i f.name (.obj j) w = (.ok (), w')) :
    ∃ w2, SameBut env i f w w2 ∧ WellLinked env w2 ∧ HasField env w2 j of ∧ ¬ Refers w2 i f j ∧
      run (.del i f.name (.obj j)) w2 = (.ok (), w') := by
  unfold listRemoveAttr at h
  have h := get_bind_ok h
  cases ha : w.attr i f.name with
  | list xs =>
    rw [ha] at h
    simp only at h
    obtain ⟨hl, bs, rfl, hnd, hb⟩ := (ha ▸ hw i f of hf hp).list
    obtain ⟨u, w1, h1, h⟩ := bind_ok h
    have q1 := (calm_willChange (env := env) false i f.name).ok h1
    cases hr : listRemove (.obj j) (bs.map .obj) with
    | none => rw [hr] at h; cases h
    | some ys =>
      rw [hr] at h
      simp only at h
      obtain ⟨hj, rfl⟩ := listRemove_objs hr
      obtain ⟨u2, w2, h2, h⟩ := bind_ok h
      have h2' : w2 = (rawSet i f.name (.list ((bs.erase j).map .obj)) w1).2 := by rw [h2]
      have hfit : Fits env w1 f of (.list ((bs.erase j).map .obj)) :=
        fits_list hl (hnd.erase j) (fun b hb' => (HasField.congr q1.1).2 (hb b (List.mem_of_mem_erase hb')))
      have hs := (q1.sameBut hp i).trans (sameBut_rawSet (env := env) i f f.name (.list ((bs.erase j).map .obj)) w1)
      rw [← h2'] at hs
      refine ⟨w2, hs, ?_, (HasField.congr hs.1).2 (hb j hj), ?_, h⟩
      · rw [h2']
        exact wellLinked_rawRel (q1.wellLinked hw) ((HasField.congr q1.1).2 hf) hp hfit
      · unfold Refers
        rw [h2', attr_rawSet, if_pos ⟨rfl, rfl⟩, refsOf_list hl]
        intro hm
        exact ((List.Nodup.mem_erase_iff hnd).1 hm).1 rfl
  | _ => rw [ha] at h; cases h

theorem fspec (R : Relations env) {f of : Field} (hp : Paired env f of) (hfl : f.ftype = .list)
    (hoi : of.ftype = .inst) (n : Nat) : FSpec env f of (runU env n) := by
  have hne : f ≠ of := fun h => by rw [h, hoi] at hfl; cases hfl
  induction n with
  | zero => exact ⟨fun _ _ _ _ _ _ _ h => (by cases h), fun _ _ _ _ _ _ _ _ h => (by cases h),
      fun _ _ _ _ _ _ h => (by cases h)⟩
  | succ n ih =>
    refine ⟨?_, ?_, ?_⟩
    · intro k v w w' hw hk hi h
      simp only [runU, unlinkBody, hp.2.2] at h
      generalize linkItems f v = items at hi h
      induction items generalizing w with
      | nil => cases h; exact (QR.refl _).sameBut hp k
      | cons x xs ihx =>
        unfold forItems at h
        obtain ⟨u, w2, h12, h3⟩ := bind_ok h
        obtain ⟨u1, w1, h1, h2⟩ := bind_ok h12
        obtain ⟨j, rfl, hj⟩ := hi x (by simp)
        have q := (calm_addUnlinked (env := env) k f.name (.obj j)).ok h1
        have hj1 : HasField env w1 j of := (HasField.congr q.1).2 hj
        obtain ⟨r, -⟩ := rem_unlinkOther R (uspec R n) (q.wellLinked hw) hp hj1 h2
        have hs : SameBut env k f w1 w2 := by
          unfold unlinkOther at h2
          have h2 := get_bind_ok h2
          simp only [hoi] at h2
          split at h2
          · obtain ⟨u4, w4, h4, h5⟩ := bind_ok h2
            obtain ⟨u6, w6, h6, h7⟩ := bind_ok h5
            have hw4 : w4 = (rawSet j of.name .none w1).2 := by rw [h4]
            have s4 : SameBut env k f w1 w4 := by
              refine ⟨fun x => by rw [hw4]; exact cls_rawSet _ _ _ w1 x, fun a _ ha => ?_⟩
              rw [hw4, attr_rawSet, if_neg]
              rintro ⟨rfl, hnm⟩
              exact hne (ha.eq hj1 hnm)
            have q6 := qr_unlinkKey R ((HasField.congr s4.1).2 hj1) h6
            have q7 := (calm_addUnlinked (env := env) j of.name (.obj k)).ok h7
            exact s4.trans ((q6.trans q7).sameBut hp k)
          · cases h2; exact (QR.refl _).sameBut hp k
        have s1 := (q.sameBut hp k).trans hs
        exact s1.trans (ihx w2 r.fits ((HasField.congr s1.1).2 hk) (fun x hx => by
          obtain ⟨l, hl, hl'⟩ := hi x (by simp [hx])
          exact ⟨l, hl, (HasField.congr s1.1).2 hl'⟩) h3)
    · intro k j w w' hw hk hj hnr h
      simp only [runU] at h
      unfold delBody at h
      have h := get_bind_ok h
      rw [R.noKey hk] at h
      simp only at h
      obtain ⟨u, w1, h1, h2⟩ := bind_ok h
      have q2 := (calm_markModified (env := env) k f.name).ok h2
      refine SameBut.trans ?_ (q2.sameBut hp k)
      unfold delRef at h1
      have hkf : (w.cdef env k).field? f.name = some f := hk
      rw [hkf] at h1
      simp only [hp.2.1, if_true] at h1
      obtain ⟨u1, w2, h3, h4⟩ := bind_ok h1
      have hli : linkItems f (.list [.obj j]) = [.obj j] := by simp only [linkItems, hfl]
      have hit : ∀ x ∈ linkItems f (.list [.obj j]), ∃ j', x = .obj j' ∧ HasField env w j' of := by
        rw [hli]; intro x hx; exact ⟨j, List.mem_singleton.1 hx, hj⟩
      have s1 := ih.unlink k _ w w2 hw hk hit h3
      have hw2 := ((uspec R n).unlink k f of _ w w2 hw hk hp hit h3).1.fits
      have hk2 : HasField env w2 k f := (HasField.congr s1.1).2 hk
      refine s1.trans ?_
      unfold delKey at h4
      split at h4
      · rename_i hst
        have h4 := get_bind_ok h4
        cases ha : w2.attr k f.refName with
        | list ks =>
          rw [ha] at h4
          simp only at h4
          obtain ⟨n', w5, h5, h6⟩ := bind_ok h4
          have hw5 : w5 = w2 := (readW_ok h5).1
          subst hw5
          split at h6
          · obtain ⟨key, w7, h7, h8⟩ := bind_ok h6
            have hw7 : w7 = w5 := (readW_ok h7).1
            subst hw7
            split at h8
            · unfold listRemoveAttr at h8
              have h8 := get_bind_ok h8
              rw [ha] at h8
              simp only at h8
              obtain ⟨u9, w9, h9, h10⟩ := bind_ok h8
              have q9 := (calm_willChange (env := env) false k f.refName).ok h9
              cases hr : listRemove key ks with
              | none => rw [hr] at h10; cases h10
              | some ys =>
                rw [hr] at h10
                simp only at h10
                obtain ⟨u11, w11, h11, h12⟩ := bind_ok h10
                have hw11 : w11 = (rawSet k f.refName (.list ys) w9).2 := by rw [h11]
                have hlk : (w9.cdef env k).localKey? f.refName = some f := by
                  rw [cdef_congr q9.1]; exact R.keyUniq _ f hk2.mem hst
                have q11 : QR env w9 w11 := by rw [hw11]; exact qr_rawKey R hlk
                have q := q9.trans q11
                exact (q.sameBut hp k).trans (ih.key k key w11 w1 (q.wellLinked hw2)
                  (by rw [cdef_congr q11.1]; exact hlk) h12)
            · cases h8; exact (QR.refl _).sameBut hp k
          · cases h6; exact (QR.refl _).sameBut hp k
        | _ => rw [ha] at h4; cases h4
      · cases h4; exact (QR.refl _).sameBut hp k
    · intro k v w w' hw hlk h
      simp only [runU] at h
      unfold delBody at h
      have h := get_bind_ok h
      rw [hlk] at h
      simp only at h
      unfold delLocal at h
      obtain ⟨u, w1, h1, h⟩ := bind_ok h
      have q := (calm_markLocalKey (env := env) k f).ok h1
      have hw1 := q.wellLinked hw
      have hf1 : HasField env w1 k f := by
        unfold HasField; rw [cdef_congr q.1]; exact R.uniq _ f (localKey_mem hlk).1
      refine (q.sameBut hp k).trans ?_
      have h := get_bind_ok h
      cases ha : w1.attr k f.name with
      | list xs =>
        rw [ha] at h
        simp only at h
        obtain ⟨m, w2, h2, h3⟩ := bind_ok h
        have : w2 = w1 := (readW_ok h2).1
        subst this
        split at h3
        · obtain ⟨m', w3, h4, h5⟩ := bind_ok h3
          have hm' := (readW_ok h4).2
          have hw3 : w3 = w2 := (readW_ok h4).1
          subst hw3
          cases m' with
          | none => cases h5; exact (QR.refl _).sameBut hp k
          | some x =>
            simp only at h5
            obtain ⟨-, bs, rfl, -, -⟩ := (ha ▸ hw1 k f of hf1 hp).list
            obtain ⟨j, -, rfl⟩ := List.mem_map.1 (findById_mem hm')
            obtain ⟨w6, s6, hw6, hj6, hn6, h6⟩ := listRemoveAttr_split hw1 hf1 hp h5
            exact s6.trans (ih.del k j w6 w' hw6 ((HasField.congr s6.1).2 hf1) hj6 hn6 h6)
        · cases h3; exact (QR.refl _).sameBut hp k
      | _ => rw [ha] at h; cases h; exact (QR.refl _).sameBut hp k

end JC
