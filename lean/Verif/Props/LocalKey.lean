import Verif.Props.SymLink

/-
C39: the stored reference id of a relation kept by local key is the primary key of the
linked object.
-/
namespace JC
variable {env : Env}

/-! ### Specification -/

/-- Wherever an object is linked through a relation kept by local key, the stored reference
id is that object's primary key. -/
def Mirrors (env : Env) (w : World) : Prop :=
  ∀ a g b, HasField env w a g → g.store = .localKey → g.ftype = .inst → w.attr a g.name = .obj b →
    w.attr a g.refName = w.id env b

/-- Linked objects have the opposite field. -/
def WellTyped (env : Env) (w : World) : Prop :=
  ∀ a g og, HasField env w a g → Paired env g og → ∀ b ∈ refsOf g (w.attr a g.name), HasField env w b og

/-- Primary keys are not relations. -/
def PlainPrimary (env : Env) : Prop :=
  ∀ c n f, (env.cls c).primary = some n → (env.cls c).field? n = some f → f.isRef = false

/-- The operation does not write a primary key, does not change a stored reference id (or
anything but an object stored in its place) in place, and the objects in its argument suit the relation it is about, if any. -/
def FOp.KeySuits (env : Env) (w : World) (i : Nat) : FOp → Prop
  | .set n v => (w.cdef env i).primary ≠ some n ∧
      ∀ g og, (w.cdef env i).field? n = some g → Paired env g og → ∀ b ∈ refsOf g v, HasField env w b og
  | .lst n op => (w.cdef env i).primary ≠ some n ∧ op.Plain ∧
      (∀ g, ((w.cdef env i).localKey? n = some g ∨ (w.cdef env i).field? n = some g ∧ g.store = .localKey) → g.ftype ≠ .inst) ∧
      ∀ g og, (w.cdef env i).field? n = some g → Paired env g og → ∀ b, .obj b ∈ op.newItems → HasField env w b og
  | .dct n _ => (w.cdef env i).primary ≠ some n ∧
      ∀ g, (w.cdef env i).localKey? n = some g → g.ftype ≠ .inst

/-- `obj.x_id = v` -/
def FOp.AssignsId (env : Env) (w : World) (i : Nat) : FOp → Prop
  | .set n _ => ∃ f, (w.cdef env i).localKey? n = some f
  | _ => False

/-- A history of operations on any objects. Operations may raise; those assigning a
reference id complete. -/
def KeyHistory (env : Env) : List (Nat × FOp) → World → World → Prop
  | [], w, w' => w' = w
  | (i, op) :: ops, w, w' => op.KeySuits env w i ∧ (op.AssignsId env w i → (op.run env i w).1 = .ok ()) ∧
      KeyHistory env ops (op.run env i w).2 w'

/-! ### The invariant -/

/-- an object of class `κ a` has the field -/
def HasK (env : Env) (κ : Nat → String) (a : Nat) (g : Field) : Prop := (env.cls (κ a)).field? g.name = some g

/-- the objects in `v` suit the relation field `g` -/
def TyK (env : Env) (κ : Nat → String) (g : Field) (v : Val) : Prop :=
  ∀ og, Paired env g og → ∀ b ∈ refsOf g v, HasK env κ b og

/-- classes, primary keys, typing, and the mirror except at `ex`; without an object there is
no reference id, except at `lo` and `ex` -/
structure KInv (env : Env) (κ : Nat → String) (ids : Nat → Val) (lo ex : Nat → Field → Prop) (w : World) : Prop where
  cls : ∀ j, (w.heap j).cls = κ j
  id : ∀ j, w.id env j = ids j
  typ : ∀ a g, HasK env κ a g → TyK env κ g (w.attr a g.name)
  mir : ∀ a g b, HasK env κ a g → g.store = .localKey → g.ftype = .inst → ¬ ex a g → w.attr a g.name = .obj b →
    w.attr a g.refName = ids b
  non : ∀ a g, HasK env κ a g → g.store = .localKey → g.ftype = .inst → ¬ ex a g → ¬ lo a g → w.attr a g.name = .none →
    w.attr a g.refName = .none

variable {κ : Nat → String} {ids : Nat → Val} {lo ex : Nat → Field → Prop}

/-- classes and stored values are the same -/
def Still {α : Type} (m : Py World α) : Prop :=
  ∀ w j, ((m w).2.heap j).cls = (w.heap j).cls ∧ ((m w).2.heap j).attrs = (w.heap j).attrs

theorem still_upd {i : Nat} {g : Obj → Obj} (h : ∀ o, (g o).cls = o.cls ∧ (g o).attrs = o.attrs) : Still (updObj i g) := by
  intro w j
  simp only [updObj, Py.modify, World.upd]
  by_cases hj : j = i
  · subst hj; simp only [if_true]; exact h _
  · simp [hj]

theorem still_markModified (i : Nat) (n : String) : Still (markModified i n) :=
  still_upd (fun o => by split <;> exact ⟨rfl, rfl⟩)
theorem still_markLocalKey (i : Nat) (f : Field) : Still (markLocalKey i f) :=
  still_upd (fun o => by split <;> exact ⟨rfl, rfl⟩)
theorem still_addUnlinked (i : Nat) (n : String) (v : Val) : Still (addUnlinked i n v) :=
  still_upd (fun _ => ⟨rfl, rfl⟩)
theorem still_delUnlinked (i : Nat) (n : String) (v : Val) : Still (delUnlinked i n v) :=
  still_upd (fun _ => ⟨rfl, rfl⟩)
theorem still_track (i : Nat) (f : Field) : Still (track env i f) := by
  intro w
  exact still_upd (i := i) (g := fun o => if o.isNew then o else
    { o with
      isModified := true
      modFields := setAdd f.name o.modFields
      prev := if recordsPrev (w.cdef env i) f && (dictGet o.prev f.name).isNone
        then o.prev ++ [(f.name, o.attrs f.name)] else o.prev }) (fun o => by split <;> exact ⟨rfl, rfl⟩) w
theorem still_willChange (b : Bool) (i : Nat) (n : String) : Still (willChange env b i n) := by
  intro w j
  simp only [willChange]
  cases (w.cdef env i).field? n with
  | none => cases b <;> exact ⟨rfl, rfl⟩
  | some f =>
    simp only []
    split
    · exact still_upd (i := i) (g := fun o => { o with prev := o.prev ++ [(n, o.attrs n)] })
        (fun o => ⟨rfl, rfl⟩) w j
    · exact ⟨rfl, rfl⟩
theorem still_linkGraph (i j : Nat) : Still (linkGraph env i j) := by
  intro w k
  obtain ⟨h1, -, -⟩ := putSelf_heap (env := env) i w
  unfold linkGraph mergeGraphs
  rw [← h1]
  generalize putSelf env i w = w₁
  split
  · exact ⟨rfl, rfl⟩
  · cases mergeLoop env w₁ ((w₁.graphs (w₁.heap j).graph).map Prod.snd) (w₁.graphs (w₁.heap i).graph) with
    | error e => exact ⟨rfl, rfl⟩
    | ok g =>
      simp only []
      split <;> exact ⟨rfl, rfl⟩

theorem KInv.still {w w' : World} (h : KInv env κ ids lo ex w)
    (hs : ∀ j, (w'.heap j).cls = (w.heap j).cls ∧ (w'.heap j).attrs = (w.heap j).attrs) : KInv env κ ids lo ex w' := by
  have ha : ∀ j n, w'.attr j n = w.attr j n := fun j n => by unfold World.attr; rw [(hs j).2]
  refine ⟨fun j => (hs j).1.trans (h.cls j), fun j => ?_, fun a g hg => ?_, fun a g b hg h1 h2 h3 h4 => ?_,
    fun a g hg h1 h2 h3 h4 h5 => ?_⟩
  · rw [← h.id j]; simp only [World.id, World.cdef, (hs j).1, ha]
  · rw [ha]; exact h.typ a g hg
  · rw [ha] at h4 ⊢; exact h.mir a g b hg h1 h2 h3 h4
  · rw [ha] at h5 ⊢; exact h.non a g hg h1 h2 h3 h4 h5

theorem Still.kp {m : Py World Unit} (h : Still m) : Kp' (KInv env κ ids lo ex) m :=
  fun w hw => ⟨hw.still (h w), fun _ _ => trivial⟩

/-- the name can be written: no primary key, no reference id of a single object -/
structure Writable (env : Env) (κ : Nat → String) (ex : Nat → Field → Prop) (i : Nat) (n : String) : Prop where
  prim : (env.cls (κ i)).primary ≠ some n
  key : ∀ g, HasK env κ i g → g.store = .localKey → g.ftype = .inst → g.refName = n → ex i g

theorem attr_raw (i : Nat) (n : String) (v : Val) (w : World) (a : Nat) (m : String) :
    (rawSet i n v w).2.attr a m = if a = i ∧ m = n then v else w.attr a m := by
  simp only [rawSet, updObj, Py.modify, World.upd, World.attr]
  by_cases ha : a = i
  · subst ha
    by_cases hm : m = n
    · simp [hm]
    · simp [hm]
  · simp [ha]

theorem KInv.raw (R : Relations env) {w : World} (h : KInv env κ ids lo ex w) {i : Nat} {n : String} {v : Val}
    (hw : Writable env κ ex i n) (ht : ∀ g, HasK env κ i g → g.name = n → TyK env κ g v)
    (ho : ∀ g b, HasK env κ i g → g.name = n → g.store = .localKey → g.ftype = .inst → v = .obj b ∨ v = .none → ex i g) :
    KInv env κ ids lo ex (rawSet i n v w).2 := by
  refine ⟨fun j => (cls_rawSet ..).trans (h.cls j), fun j => ?_, fun a g hg => ?_, fun a g b hg h1 h2 h3 h4 => ?_,
    fun a g hg h1 h2 h3 h4 h5 => ?_⟩
  · rw [← h.id j]
    simp only [World.id, World.cdef, cls_rawSet]
    cases hm : (env.cls (w.heap j).cls).primary with
    | none => rfl
    | some m =>
      simp only []
      rw [attr_raw, if_neg]
      rintro ⟨rfl, rfl⟩
      rw [h.cls] at hm
      exact hw.prim hm
  · rw [attr_raw]
    split
    · rename_i hc; obtain ⟨rfl, hc⟩ := hc; exact ht g hg hc
    · exact h.typ a g hg
  · rw [attr_raw] at h4 ⊢
    have hn2 : ¬ (a = i ∧ g.refName = n) := by
      rintro ⟨rfl, hc⟩; exact h3 (hw.key g hg h1 h2 hc)
    rw [if_neg hn2]
    split at h4
    · rename_i hc; obtain ⟨rfl, hc⟩ := hc
      exact absurd (ho g b hg hc h1 h2 (.inl h4)) h3
    · exact h.mir a g b hg h1 h2 h3 h4
  · rw [attr_raw] at h5 ⊢
    have hn2 : ¬ (a = i ∧ g.refName = n) := by
      rintro ⟨rfl, hc⟩; exact h3 (hw.key g hg h1 h2 hc)
    rw [if_neg hn2]
    split at h5
    · rename_i hc; obtain ⟨rfl, hc⟩ := hc
      exact absurd (ho g 0 hg hc h1 h2 (.inr h5)) h3
    · exact h.non a g hg h1 h2 h3 h4 h5

theorem KInv.more {w : World} {ex' : Nat → Field → Prop} (h : KInv env κ ids lo ex w) (hx : ∀ a g, ex a g → ex' a g) :
    KInv env κ ids lo ex' w :=
  ⟨h.cls, h.id, h.typ, fun a g b hg a1 a2 a3 => h.mir a g b hg a1 a2 (fun hc => a3 (hx a g hc)),
    fun a g hg a1 a2 a3 => h.non a g hg a1 a2 (fun hc => a3 (hx a g hc))⟩

/-- one exemption is over -/
theorem KInv.less {w : World} {i : Nat} {f : Field} (h : KInv env κ ids lo (fun a g => ex a g ∨ (a = i ∧ g = f)) w)
    (hm : f.store = .localKey → f.ftype = .inst → ∀ b, w.attr i f.name = .obj b → w.attr i f.refName = ids b)
    (hn : f.store = .localKey → f.ftype = .inst → ¬ lo i f → w.attr i f.name = .none → w.attr i f.refName = .none) :
    KInv env κ ids lo ex w := by
  refine ⟨h.cls, h.id, h.typ, fun a g b hg a1 a2 a3 a4 => ?_, fun a g hg a1 a2 a3 a4 a5 => ?_⟩
  · by_cases hc : a = i ∧ g = f
    · obtain ⟨rfl, rfl⟩ := hc; exact hm a1 a2 b a4
    · exact h.mir a g b hg a1 a2 (fun hx => hx.elim a3 hc) a4
  · by_cases hc : a = i ∧ g = f
    · obtain ⟨rfl, rfl⟩ := hc; exact hn a1 a2 a4 a5
    · exact h.non a g hg a1 a2 (fun hx => hx.elim a3 hc) a4 a5

theorem kp_raw (R : Relations env) {i : Nat} {n : String} {v : Val}
    (hw : Writable env κ ex i n) (ht : ∀ g, HasK env κ i g → g.name = n → TyK env κ g v)
    (ho : ∀ g b, HasK env κ i g → g.name = n → g.store = .localKey → g.ftype = .inst → v = .obj b ∨ v = .none → ex i g) :
    Kp' (KInv env κ ids lo ex) (rawSet i n v) :=
  fun _ h => ⟨h.raw R hw ht ho, fun _ _ => trivial⟩

/-! ### Names -/

theorem KInv.cdef {w : World} (h : KInv env κ ids lo ex w) (i : Nat) : w.cdef env i = env.cls (κ i) := by
  unfold World.cdef; rw [h.cls]

theorem hasK_of_field {c : Nat} {n : String} {g : Field} (h : (env.cls (κ c)).field? n = some g) :
    HasK env κ c g ∧ g.name = n := by
  have hn : g.name = n := by have := List.find?_some h; simpa using this
  exact ⟨by unfold HasK; rw [hn]; exact h, hn⟩

theorem HasK.mem {a : Nat} {g : Field} (h : HasK env κ a g) : g ∈ (env.cls (κ a)).fields := List.mem_of_find?_eq_some h

theorem HasK.eq {a : Nat} {g g' : Field} (h : HasK env κ a g) (h' : HasK env κ a g') (hn : g.name = g'.name) : g = g' := by
  unfold HasK at h h'
  rw [hn, h'] at h
  exact (Option.some.inj h).symm

theorem HasK.paired {a : Nat} {f of : Field} (h : HasK env κ a f) (hr : f.isRef = true)
    (ho : env.foreignField f = some of) : Paired env f of := ⟨⟨_, h.mem⟩, hr, ho⟩

/-- a relation field can be written -/
theorem writable_rel (R : Relations env) (P : PlainPrimary env) {i : Nat} {f : Field} (h : HasK env κ i f)
    (hr : f.isRef = true) : Writable env κ ex i f.name := by
  refine ⟨fun hp => ?_, fun g hg hs _ hn => ?_⟩
  · have := P _ _ _ hp h; rw [hr] at this; cases this
  · have hl := R.keyUniq _ g hg.mem hs
    rw [hn] at hl
    exact (R.keys _ _ _ _ hl h).elim

/-- a reference key that is not one of a single object can be written -/
theorem writable_key (R : Relations env) {i : Nat} {f : Field} (hm : f ∈ (env.cls (κ i)).fields)
    (hs : f.store = .localKey) (hx : f.ftype = .inst → ex i f) : Writable env κ ex i f.refName := by
  have hl := R.keyUniq _ f hm hs
  refine ⟨fun hp => ?_, fun g hg hgs hgi hn => ?_⟩
  · rw [R.prim _ _ hp] at hl; cases hl
  · have hl' := R.keyUniq _ g hg.mem hgs
    rw [hn] at hl'
    cases Option.some.inj (hl.symm.trans hl')
    exact hx hgi

/-- a reference key is no field -/
theorem key_no_field (R : Relations env) {i : Nat} {f : Field} (hm : f ∈ (env.cls (κ i)).fields)
    (hs : f.store = .localKey) {g : Field} (hg : HasK env κ i g) (hn : g.name = f.refName) : False := by
  have hl := R.keyUniq _ f hm hs
  rw [← hn] at hl
  exact R.keys _ _ _ _ hl hg

theorem refsOf_linkItems {f : Field} {v : Val} {j : Nat} (h : .obj j ∈ linkItems f v) : j ∈ refsOf f v := by
  unfold linkItems at h
  unfold refsOf
  cases hf : f.ftype <;> cases v <;> simp only [hf] at h ⊢ <;> first | (cases h; done) | skip
  · cases List.mem_singleton.1 h; simp
  · exact List.mem_filterMap.2 ⟨.obj j, h, rfl⟩

theorem tyK_none (g : Field) : TyK env κ g .none := fun _ _ b hb => by rw [refsOf_none] at hb; cases hb

theorem tyK_nil (g : Field) : TyK env κ g (.list []) := fun _ _ b hb => by
  unfold refsOf at hb; cases hg : g.ftype <;> rw [hg] at hb <;> cases hb

theorem mem_refsOf_list {g : Field} {xs : List Val} {b : Nat} (h : b ∈ refsOf g (.list xs)) :
    g.ftype = .list ∧ .obj b ∈ xs := by
  unfold refsOf at h
  cases hg : g.ftype <;> rw [hg] at h
  · cases h
  · refine ⟨rfl, ?_⟩
    obtain ⟨x, hx, hxb⟩ := List.mem_filterMap.1 h
    cases x <;> simp [Val.idx?] at hxb
    subst hxb; exact hx
  · cases h
  · cases h

theorem refsOf_list_mem {g : Field} (hg : g.ftype = .list) {xs : List Val} {b : Nat} (h : .obj b ∈ xs) :
    b ∈ refsOf g (.list xs) := by
  unfold refsOf
  rw [hg]
  exact List.mem_filterMap.2 ⟨.obj b, h, rfl⟩

theorem TyK.sub {g : Field} {xs ys : List Val} (h : TyK env κ g (.list xs)) (hs : ∀ b, .obj b ∈ ys → .obj b ∈ xs) :
    TyK env κ g (.list ys) := fun og hp b hb => by
  obtain ⟨hl, hb⟩ := mem_refsOf_list hb
  exact h og hp b (refsOf_list_mem hl (hs b hb))

/-! ### Unlinking -/

/-- no field of a single object kept by local key has this name or this reference key -/
def NotSingle (env : Env) (κ : Nat → String) (i : Nat) (n : String) : Prop :=
  ∀ g, HasK env κ i g → g.store = .localKey → g.ftype = .inst → g.name ≠ n ∧ g.refName ≠ n

theorem notSingle_rel (R : Relations env) {i : Nat} {f : Field} (hf : HasK env κ i f) (hi : f.ftype ≠ .inst) :
    NotSingle env κ i f.name := by
  intro g hg hs hgi
  refine ⟨fun hn => ?_, fun hn => key_no_field R hg.mem hs hf hn.symm⟩
  cases hg.eq hf hn
  exact hi hgi

theorem notSingle_key (R : Relations env) {i : Nat} {f : Field} (hm : f ∈ (env.cls (κ i)).fields)
    (hs : f.store = .localKey) (hi : f.ftype ≠ .inst) : NotSingle env κ i f.refName := by
  intro g hg hgs hgi
  refine ⟨fun hn => key_no_field R hm hs hg hn, fun hn => ?_⟩
  have hl := R.keyUniq _ f hm hs
  have hl' := R.keyUniq _ g hg.mem hgs
  rw [hn] at hl'
  cases Option.some.inj (hl.symm.trans hl')
  exact hi hgi

/-- what a command may be about -/
def UCmd.OkK (env : Env) (κ : Nat → String) : UCmd → Prop
  | .unlink i f v => HasK env κ i f ∧ f.isRef = true ∧ TyK env κ f v
  | .del i path v => NotSingle env κ i path ∧ ∀ g, HasK env κ i g → g.name = path → TyK env κ g (.list [v])

theorem kp_forItems_mem {I : World → Prop} {body : Val → Py World Unit} (xs : List Val) (h : ∀ x ∈ xs, Kp' I (body x)) :
    Kp' I (forItems xs body) := by
  induction xs with
  | nil => exact Kp.pure' ()
  | cons x xs ih => exact (h x (by simp)).bind' (fun _ => ih (fun y hy => h y (by simp [hy])))

theorem listRemove_sub {v : Val} {xs ys : List Val} (h : listRemove v xs = some ys) : ∀ x ∈ ys, x ∈ xs := by
  induction xs generalizing ys with
  | nil => cases h
  | cons y xs ih =>
    unfold listRemove at h
    split at h
    · cases h; intro x hx; exact List.mem_cons_of_mem _ hx
    · cases hr : listRemove v xs with
      | none => rw [hr] at h; cases h
      | some zs =>
        rw [hr] at h; cases h
        intro x hx
        rcases List.mem_cons.1 hx with rfl | hx
        · exact List.mem_cons_self ..
        · exact List.mem_cons_of_mem _ (ih hr x hx)

theorem lk_listRemoveAttr (R : Relations env) {run : UCmd → Py World Unit}
    (hrun : ∀ c, c.OkK env κ → Kp' (KInv env κ ids lo ex) (run c)) {i : Nat} {n : String} {v : Val}
    (hw : Writable env κ ex i n) (hns : NotSingle env κ i n)
    (ht : ∀ g, HasK env κ i g → g.name = n → TyK env κ g (.list [v])) :
    Kp' (KInv env κ ids lo ex) (listRemoveAttr env run i n v) := by
  unfold listRemoveAttr
  refine Kp.get.bind (fun w hI => ?_)
  cases ha : w.attr i n with
  | list xs =>
    simp only []
    refine (still_willChange _ _ _).kp.bind' (fun _ => ?_)
    cases hr : listRemove v xs with
    | none => exact Kp.raise _
    | some ys =>
      refine (kp_raw R hw (fun g hg hn => ?_) (fun g b _ _ _ _ h => by rcases h with h | h <;> cases h)).bind' (fun _ => hrun (.del _ _ _) ⟨hns, ht⟩)
      have := hI.typ i g hg
      rw [hn, ha] at this
      exact this.sub (fun b hb => listRemove_sub hr _ hb)
  | _ => exact Kp.raise _

theorem lk_unlinkOther (R : Relations env) (P : PlainPrimary env) {run : UCmd → Py World Unit}
    (hrun : ∀ c, c.OkK env κ → Kp' (KInv env κ ids lo ex) (run c)) {i : Nat} {f of : Field} (hf : HasK env κ i f)
    (hp : Paired env f of) {item : Val} (hi : ∀ j, item = .obj j → HasK env κ j of) :
    Kp' (KInv env κ ids lo ex) (unlinkOther env run i of item) := by
  have hpo := (R.opp f of hp).1
  unfold unlinkOther
  cases item with
  | obj j =>
    have hj := hi j rfl
    have hwr : Writable env κ ex j of.name := writable_rel R P hj hpo.2.1
    refine Kp.get.bind (fun w hI => ?_)
    cases hof : of.ftype with
    | inst =>
      simp only []
      split
      · intro w1 h1
        -- the reference and the key are cleared together
        have h2 := (h1.more (ex' := fun a g => ex a g ∨ (a = j ∧ g = of)) (fun _ _ h => .inl h)).raw R (v := .none)
          (writable_rel R P hj hpo.2.1) (fun g _ _ => tyK_none g) (fun g b hg hn _ _ _ => by cases hg.eq hj hn; exact .inr ⟨rfl, rfl⟩)
        have hat : (rawSet j of.name .none w1).2.attr j of.name = .none := by rw [attr_raw]; simp
        refine ⟨?_, fun _ _ => trivial⟩
        change KInv env κ ids lo ex ((unlinkKey j of >>= fun _ => addUnlinked j of.name (.obj i)) (rawSet j of.name .none w1).2).2
        generalize (rawSet j of.name .none w1).2 = w2 at h2 hat
        have h3 : KInv env κ ids lo ex (unlinkKey j of w2).2 := by
          unfold unlinkKey
          split
          · rename_i hs
            refine KInv.still (w := (rawSet j of.refName .none w2).2) ?_ (fun k => still_upd (i := j)
              (g := fun o => { o with modFields := setAdd of.name o.modFields }) (fun o => ⟨rfl, rfl⟩) (rawSet j of.refName .none w2).2 k)
            have h4 := h2.raw R (v := .none) (writable_key R hj.mem hs (fun _ => .inr ⟨rfl, rfl⟩)) (fun g _ _ => tyK_none g)
              (fun g b hg hn _ _ _ => (key_no_field R hj.mem hs hg hn).elim)
            refine h4.less (fun _ _ b hb => ?_) (fun _ _ _ _ => by rw [attr_raw, if_pos ⟨rfl, rfl⟩])
            rw [attr_raw, if_neg, hat] at hb
            · cases hb
            · rintro ⟨-, hc⟩; exact key_no_field R hj.mem hs hj hc
          · rename_i hs
            exact h2.less (fun h => absurd h hs) (fun h => absurd h hs)
        rw [Py.bind_run]
        rcases hk : unlinkKey j of w2 with ⟨e | u, w3⟩
        · rw [hk] at h3; exact h3
        · rw [hk] at h3
          exact h3.still (still_addUnlinked j of.name (.obj i) w3)
      · exact Kp.pure' ()
    | list =>
      simp only []
      cases w.attr j of.name with
      | list xs =>
        simp only []
        split
        · refine (lk_listRemoveAttr R hrun hwr (notSingle_rel R hj (by rw [hof]; simp)) (fun g hg hn => ?_)).bind' (fun _ => (still_addUnlinked _ _ _).kp)
          cases hg.eq hj hn
          intro og hpg b hb
          cases hpo.opp_eq hpg
          obtain ⟨-, hb⟩ := mem_refsOf_list hb
          cases List.mem_singleton.1 hb
          exact hf
        · exact Kp.pure' ()
      | _ => exact Kp.pure' ()
    | _ => exact Kp.pure' ()
  | _ => exact Kp.raise _

theorem lk_unlinkBody (R : Relations env) (P : PlainPrimary env) {run : UCmd → Py World Unit}
    (hrun : ∀ c, c.OkK env κ → Kp' (KInv env κ ids lo ex) (run c)) {i : Nat} {f : Field} {v : Val}
    (hc : (UCmd.unlink i f v).OkK env κ) : Kp' (KInv env κ ids lo ex) (unlinkBody env run i f v) := by
  obtain ⟨hf, hr, ht⟩ := hc
  unfold unlinkBody
  cases ho : env.foreignField f with
  | none =>
    simp only []
    cases linkItems f v with
    | nil => exact Kp.pure' ()
    | cons x xs => exact (still_addUnlinked _ _ _).kp
  | some of =>
    have hp := hf.paired hr ho
    refine kp_forItems_mem _ (fun x hx => (still_addUnlinked _ _ _).kp.bind' (fun _ => ?_))
    refine lk_unlinkOther R P hrun hf hp (fun j hj => ?_)
    subst hj
    exact ht of hp j (refsOf_linkItems hx)

theorem lk_delBody (R : Relations env) (P : PlainPrimary env) {run : UCmd → Py World Unit}
    (hrun : ∀ c, c.OkK env κ → Kp' (KInv env κ ids lo ex) (run c)) {i : Nat} {path : String} {v : Val}
    (hc : (UCmd.del i path v).OkK env κ) : Kp' (KInv env κ ids lo ex) (delBody env run i path v) := by
  unfold delBody
  refine Kp.get.bind (fun w hI => ?_)
  rw [hI.cdef i]
  cases hl : (env.cls (κ i)).localKey? path with
  | some f =>
    have hm : f ∈ (env.cls (κ i)).fields := List.mem_of_find?_eq_some hl
    have hs : f.store = .localKey := by have := List.find?_some hl; simp at this; exact this.1
    have hf : HasK env κ i f := R.uniq _ f hm
    have hn : f.refName = path := by have := List.find?_some hl; simp at this; exact this.2
    have hi : f.ftype ≠ .inst := fun h => (hc.1 f hf hs h).2 hn
    simp only []
    unfold delLocal
    refine (still_markLocalKey _ _).kp.bind' (fun _ => Kp.get.bind (fun w' hI' => ?_))
    cases ha : w'.attr i f.name with
    | list xs =>
      simp only []
      refine Kp.read'.bind' (fun n => ?_)
      split
      · refine Kp.read.bind (fun m hm' => ?_)
        obtain ⟨w'', -, hm'⟩ := hm'
        cases m with
        | some x =>
          refine lk_listRemoveAttr R hrun (writable_rel R P hf (isRef_localKey hs)) (notSingle_rel R hf hi) (fun g hg hn => ?_)
          cases hg.eq hf hn
          have := hI'.typ i f hf
          rw [ha] at this
          refine this.sub (fun b hb => ?_)
          rw [List.mem_singleton.1 hb]
          exact findById_mem hm'
        | none => exact Kp.pure' ()
      · exact Kp.pure' ()
    | _ => exact Kp.pure' ()
  | none =>
    simp only []
    refine Kp.bind' ?_ (fun _ => (still_markModified _ _).kp)
    unfold delRef
    cases hf : (env.cls (κ i)).field? path with
    | none => exact Kp.pure' ()
    | some f =>
      obtain ⟨hfk, hn⟩ := hasK_of_field hf
      simp only []
      split
      · rename_i hr
        refine (hrun (.unlink _ _ _) ⟨hfk, hr, hc.2 f hfk hn⟩).bind' (fun _ => ?_)
        unfold delKey
        split
        · rename_i hs
          refine Kp.get.bind (fun w' _ => ?_)
          cases w'.attr i f.refName with
          | list ks =>
            refine Kp.read'.bind' (fun n => ?_)
            split
            · refine Kp.read'.bind' (fun k => ?_)
              split
              · have hi : f.ftype ≠ .inst := fun h => (hc.1 f hfk hs h).1 hn
                exact lk_listRemoveAttr R hrun (writable_key R hfk.mem hs (fun h => absurd h hi))
                  (notSingle_key R hfk.mem hs hi) (fun g hg hn => (key_no_field R hfk.mem hs hg hn).elim)
              · exact Kp.pure' ()
            · exact Kp.pure' ()
          | _ => exact Kp.raise _
        · exact Kp.pure' ()
      · exact Kp.pure' ()

theorem lk_runU (R : Relations env) (P : PlainPrimary env) : ∀ (n : Nat) (c : UCmd), c.OkK env κ →
    Kp' (KInv env κ ids lo ex) (runU env n c) := by
  intro n
  induction n with
  | zero => intro c _; cases c <;> exact Kp.raise _
  | succ n ih =>
    intro c hc
    cases c with
    | unlink i f v => exact lk_unlinkBody R P ih hc
    | del i p v => exact lk_delBody R P ih hc

/-! ### Linking -/

/-- what a command may be about -/
def LCmd.OkK (env : Env) (κ : Nat → String) : LCmd → Prop
  | .link i f v => HasK env κ i f ∧ f.isRef = true ∧ TyK env κ f v
  | .add i path _ v => NotSingle env κ i path ∧ ∀ g, HasK env κ i g → g.name = path → TyK env κ g (.list [v])
  | .set i n v => (env.cls (κ i)).primary ≠ some n ∧ (env.cls (κ i)).localKey? n = none ∧
      ∀ g, HasK env κ i g → g.name = n → TyK env κ g v

theorem noKey_rel (R : Relations env) {i : Nat} {f : Field} (hf : HasK env κ i f) :
    (env.cls (κ i)).localKey? f.name = none := by
  cases hl : (env.cls (κ i)).localKey? f.name with
  | none => rfl
  | some g => exact (R.keys _ _ _ _ hl hf).elim

theorem lk_listAppendAttr (R : Relations env) {run : LCmd → Py World Unit}
    (hrun : ∀ c, c.OkK env κ → Kp' (KInv env κ ids lo ex) (run c)) {i : Nat} {n : String} {v : Val}
    (hw : Writable env κ ex i n) (hns : NotSingle env κ i n)
    (ht : ∀ g, HasK env κ i g → g.name = n → TyK env κ g (.list [v])) :
    Kp' (KInv env κ ids lo ex) (listAppendAttr env run i n v) := by
  unfold listAppendAttr
  refine Kp.get.bind (fun w hI => ?_)
  cases ha : w.attr i n with
  | list xs =>
    simp only []
    refine (still_willChange _ _ _).kp.bind' (fun _ => ?_)
    refine (kp_raw R hw (fun g hg hn => ?_) (fun g b _ _ _ _ h => by rcases h with h | h <;> cases h)).bind' (fun _ => hrun (.add _ _ _ _) ⟨hns, ht⟩)
    have h1 := hI.typ i g hg
    rw [hn, ha] at h1
    intro og hp b hb
    obtain ⟨hl, hb⟩ := mem_refsOf_list hb
    rcases List.mem_append.1 hb with hb | hb
    · exact h1 og hp b (refsOf_list_mem hl hb)
    · exact ht g hg hn og hp b (refsOf_list_mem hl hb)
  | _ => exact Kp.raise _

theorem lk_linkSide (R : Relations env) (P : PlainPrimary env) {run : LCmd → Py World Unit}
    (hrun : ∀ c, c.OkK env κ → Kp' (KInv env κ ids lo ex) (run c)) {i j : Nat} {f of : Field} (hf : HasK env κ i f)
    (hp : Paired env f of) (hj : HasK env κ j of) : Kp' (KInv env κ ids lo ex) (linkSide env run i of j) := by
  have hpo := (R.opp f of hp).1
  have hwr : Writable env κ ex j of.name := writable_rel R P hj hpo.2.1
  have hty : ∀ v, (∀ b ∈ refsOf of v, b = i) → ∀ g, HasK env κ j g → g.name = of.name → TyK env κ g v := by
    intro v hv g hg hn og hpg b hb
    cases hg.eq hj hn
    cases hpo.opp_eq hpg
    rw [hv b hb]; exact hf
  unfold linkSide
  refine Kp.get.bind (fun w _ => ?_)
  cases hof : of.ftype with
  | inst =>
    simp only []
    split
    · exact Kp.pure' ()
    · refine (hrun (.set _ _ _) ⟨hwr.prim, noKey_rel R hj, hty _ (fun b hb => ?_)⟩).bind' (fun _ => (still_delUnlinked _ _ _).kp)
      rw [refsOf_inst hof] at hb
      exact List.mem_singleton.1 hb
  | list =>
    have hl : ∀ b ∈ refsOf of (.list [.obj i]), b = i := fun b hb => by
      have := (mem_refsOf_list hb).2
      cases List.mem_singleton.1 this; rfl
    simp only []
    cases w.attr j of.name with
    | list xs =>
      simp only []
      split
      · exact Kp.pure' ()
      · exact (lk_listAppendAttr R hrun hwr (notSingle_rel R hj (by rw [hof]; simp)) (hty _ hl)).bind'
          (fun _ => (still_delUnlinked _ _ _).kp)
    | _ =>
      exact (hrun (.set _ _ _) ⟨hwr.prim, noKey_rel R hj, hty _ hl⟩).bind' (fun _ => (still_delUnlinked _ _ _).kp)
  | _ => exact Kp.pure' ()

theorem lk_linkBody (R : Relations env) (P : PlainPrimary env) {run : LCmd → Py World Unit}
    (hrun : ∀ c, c.OkK env κ → Kp' (KInv env κ ids lo ex) (run c)) {i : Nat} {f : Field} {v : Val}
    (hc : (LCmd.link i f v).OkK env κ) : Kp' (KInv env κ ids lo ex) (linkBody env run i f v) := by
  obtain ⟨hf, hr, ht⟩ := hc
  unfold linkBody
  cases ho : env.foreignField f with
  | none =>
    simp only []
    cases linkItems f v with
    | nil => exact Kp.pure' ()
    | cons x xs => exact (still_delUnlinked _ _ _).kp
  | some of =>
    have hp := hf.paired hr ho
    refine kp_forItems_mem _ (fun x hx => (still_delUnlinked _ _ _).kp.bind' (fun _ => ?_))
    unfold linkOther
    cases x with
    | obj j =>
      exact (lk_linkSide R P hrun hf hp (ht of hp j (refsOf_linkItems hx))).bind' (fun _ => (still_linkGraph i j).kp)
    | _ => exact Kp.raise _

theorem lk_addBody (R : Relations env) (P : PlainPrimary env) {run : LCmd → Py World Unit}
    (hrun : ∀ c, c.OkK env κ → Kp' (KInv env κ ids lo ex) (run c)) {i : Nat} {path : String} {idx : Int} {v : Val}
    (hc : (LCmd.add i path idx v).OkK env κ) : Kp' (KInv env κ ids lo ex) (addBody env run i path idx v) := by
  unfold addBody
  refine Kp.get.bind (fun w hI => ?_)
  rw [hI.cdef i]
  cases hl : (env.cls (κ i)).localKey? path with
  | some f => exact (still_markLocalKey _ _).kp
  | none =>
    simp only []
    refine Kp.bind' ?_ (fun _ => ?_)
    · unfold addRef
      cases hf : (env.cls (κ i)).field? path with
      | none => exact Kp.pure' ()
      | some f =>
        obtain ⟨hfk, hn⟩ := hasK_of_field hf
        simp only []
        split
        · rename_i hr
          refine (hrun (.link _ _ _) ⟨hfk, hr, hc.2 f hfk hn⟩).bind' (fun _ => ?_)
          unfold addKey
          split
          · rename_i hs
            have hi : f.ftype ≠ .inst := fun h => (hc.1 f hfk hs h).1 hn
            refine Kp.get.bind (fun w' _ => ?_)
            cases w'.attr i f.refName with
            | list ks =>
              refine Kp.read'.bind' (fun n => ?_)
              split
              · refine Kp.read'.bind' (fun k => ?_)
                split
                · exact Kp.raise _
                · exact (kp_raw R (writable_key R hfk.mem hs (fun h => absurd h hi))
                    (fun g hg hn => (key_no_field R hfk.mem hs hg hn).elim) (fun g b _ _ _ _ h => by rcases h with h | h <;> cases h)).bind'
                    (fun _ => hrun (.add _ _ _ _) ⟨notSingle_key R hfk.mem hs hi,
                      fun g hg hn => (key_no_field R hfk.mem hs hg hn).elim⟩)
              · exact Kp.pure' ()
            | _ => exact Kp.raise _
          · exact Kp.pure' ()
        · exact Kp.pure' ()
    · unfold addTail
      cases v with
      | list xs => exact (lk_runU R P _ (.del ..) hc).bind' (fun _ => hrun (.add _ _ _ _) hc)
      | dict xs => exact (lk_runU R P _ (.del ..) hc).bind' (fun _ => hrun (.add _ _ _ _) hc)
      | _ => exact (still_markModified _ _).kp

/-- Storing a reference and then its key: exempt in between. -/
theorem lk_sync (R : Relations env) (P : PlainPrimary env) {i : Nat} {f : Field} {v : Val} (hf : HasK env κ i f)
    (hr : f.isRef = true) (ht : TyK env κ f v) {k : Py World Unit} (hk : Kp' (KInv env κ ids lo ex) k) :
    Kp' (KInv env κ ids lo ex) (rawSet i f.name v >>= fun _ => syncKey env i f v >>= fun _ => k) := by
  intro w h
  let ex' : Nat → Field → Prop := fun a g => ex a g ∨ (a = i ∧ g = f)
  have h' : KInv env κ ids lo ex' w := h.more (fun _ _ h => .inl h)
  have h1 : KInv env κ ids lo ex' (rawSet i f.name v w).2 := by
    refine h'.raw R (writable_rel R P hf hr) (fun g hg hn => ?_) (fun g b hg hn _ _ _ => ?_)
    · cases hg.eq hf hn; exact ht
    · cases hg.eq hf hn; exact .inr ⟨rfl, rfl⟩
  have hat : (rawSet i f.name v w).2.attr i f.name = v := by rw [attr_raw]; simp
  refine ⟨?_, fun _ _ => trivial⟩
  change KInv env κ ids lo ex ((syncKey env i f v >>= fun _ => k) (rawSet i f.name v w).2).2
  generalize (rawSet i f.name v w).2 = w1 at h1 hat
  have hdrop : ∀ w2, KInv env κ ids lo ex' w2 → w2.attr i f.name = v →
      (f.store = .localKey → f.ftype = .inst → (∀ b, v = .obj b → w2.attr i f.refName = ids b) ∧
        (v = .none → w2.attr i f.refName = .none)) → KInv env κ ids lo ex w2 := by
    intro w2 h2 hv hm
    exact h2.less (fun a1 a2 b a4 => (hm a1 a2).1 b (hv.symm.trans a4)) (fun a1 a2 _ a4 => (hm a1 a2).2 (hv.symm.trans a4))
  have h2 : KInv env κ ids lo ex (syncKey env i f v w1).2 := by
    by_cases hs : f.store = .localKey
    · have hkey : ∀ x, KInv env κ ids lo ex' (rawSet i f.refName x w1).2 := fun x =>
        h1.raw R (writable_key R hf.mem hs (fun _ => .inr ⟨rfl, rfl⟩))
          (fun g hg hn => (key_no_field R hf.mem hs hg hn).elim) (fun g b hg hn => (key_no_field R hf.mem hs hg hn).elim)
      have hnn : f.name ≠ f.refName := fun hc => key_no_field R hf.mem hs hf hc
      have hat' : ∀ x, (rawSet i f.refName x w1).2.attr i f.name = v := fun x => by
        rw [attr_raw, if_neg (fun hc => hnn hc.2)]; exact hat
      unfold syncKey
      rw [if_neg (by simp [hs])]
      cases hty : f.ftype with
      | inst =>
        cases v with
        | none =>
          refine hdrop _ (hkey _) (hat' _) (fun _ _ => ⟨fun b hb => (by cases hb), fun _ => ?_⟩)
          rw [attr_raw, if_pos ⟨rfl, rfl⟩]
        | obj j =>
          refine hdrop _ (hkey _) (hat' _) (fun _ _ => ⟨fun b hb => ?_, fun h => (by cases h)⟩)
          cases hb
          change (rawSet i f.refName (w1.id env j) w1).2.attr i f.refName = ids j
          rw [attr_raw, if_pos ⟨rfl, rfl⟩]
          exact h1.id j
        | _ => exact hdrop _ h1 hat (fun _ _ => ⟨fun b hb => (by cases hb), fun h => (by cases h)⟩)
      | list =>
        have hno : ∀ w2 : World, f.store = .localKey → f.ftype = .inst → (∀ b, v = .obj b → w2.attr i f.refName = ids b) ∧
            (v = .none → w2.attr i f.refName = .none) :=
          fun _ _ hi => by rw [hty] at hi; cases hi
        cases v with
        | none => exact hdrop _ (hkey _) (hat' _) (hno _)
        | list xs =>
          simp only []
          rw [Py.bind_run]
          simp only [readW]
          cases itemIds env w1 xs with
          | error e => exact hdrop _ h1 hat (hno _)
          | ok ks => exact hdrop _ (hkey _) (hat' _) (hno _)
        | _ => exact hdrop _ h1 hat (hno _)
      | dict => exact hdrop _ h1 hat (fun _ hi => by rw [hty] at hi; cases hi)
      | other => exact hdrop _ h1 hat (fun _ hi => by rw [hty] at hi; cases hi)
    · unfold syncKey
      rw [if_pos hs]
      exact hdrop _ h1 hat (fun hc => absurd hc hs)
  rw [Py.bind_run]
  rcases hsk : syncKey env i f v w1 with ⟨e | u, w2⟩
  · rw [hsk] at h2; exact h2
  · rw [hsk] at h2; exact (hk w2 h2).1

theorem lk_setBody (R : Relations env) (P : PlainPrimary env) {run : LCmd → Py World Unit}
    (hrun : ∀ c, c.OkK env κ → Kp' (KInv env κ ids lo ex) (run c)) {i : Nat} {n : String} {v : Val}
    (hc : (LCmd.set i n v).OkK env κ) : Kp' (KInv env κ ids lo ex) (setBody env run i n v) := by
  obtain ⟨hpr, hlk, ht⟩ := hc
  have hkey : ∀ g, HasK env κ i g → g.store = .localKey → g.ftype = .inst → g.refName = n → ex i g := by
    intro g hg hs _ hn
    have := R.keyUniq _ g hg.mem hs
    rw [hn, hlk] at this
    cases this
  unfold setBody
  refine Kp.get.bind (fun w hI => ?_)
  rw [hI.cdef i]
  cases hf : (env.cls (κ i)).field? n with
  | none =>
    refine kp_raw R ⟨hpr, hkey⟩ ht (fun g b hg hn => ?_)
    unfold HasK at hg
    rw [hn, hf] at hg; cases hg
  | some f =>
    obtain ⟨hfk, hn⟩ := hasK_of_field hf
    subst hn
    simp only []
    split
    · exact Kp.raise _
    · split
      · exact Kp.pure' ()
      · refine (still_track _ _).kp.bind' (fun _ => ?_)
        split
        · rename_i hr
          refine (lk_runU R P _ (.unlink _ _ _) ⟨hfk, hr, hI.typ i f hfk⟩).bind' (fun _ => ?_)
          exact lk_sync R P hfk hr (ht f hfk rfl) (hrun (.link _ _ _) ⟨hfk, hr, ht f hfk rfl⟩)
        · rename_i hr
          refine kp_raw R ⟨hpr, hkey⟩ ht (fun g b hg hn hs => ?_)
          cases hg.eq hfk hn
          exact absurd (isRef_localKey hs) hr

theorem lk_runL (R : Relations env) (P : PlainPrimary env) : ∀ (n : Nat) (c : LCmd), c.OkK env κ →
    Kp' (KInv env κ ids lo ex) (runL env n c) := by
  intro n
  induction n with
  | zero => intro c _; cases c <;> exact Kp.raise _
  | succ n ih =>
    intro c hc
    cases c with
    | link i f v => exact lk_linkBody R P ih hc
    | add i p k v => exact lk_addBody R P ih hc
    | set i m v => exact lk_setBody R P ih hc

/-! ### Assignments -/

theorem lk_pyEq_none {x : Val} (h : pyEq .none x = true) : x = .none := by
  cases x <;> simp [pyEq] at h ⊢

theorem syncKey_none_attr {i : Nat} {f : Field} {w w' : World} (h : syncKey env i f .none w = (.ok (), w'))
    {a : Nat} {m : String} (hm : f.store = .localKey → m ≠ f.refName) : w'.attr a m = w.attr a m := by
  unfold syncKey at h
  by_cases hs : f.store = .localKey
  · rw [if_neg (by simp [hs])] at h
    have hraw : ∀ x, (rawSet i f.refName x w).2.attr a m = w.attr a m := fun x => by
      rw [attr_raw, if_neg (fun hc => hm hs hc.2)]
    cases hty : f.ftype <;> rw [hty] at h <;> simp only at h
    · have : w' = (rawSet i f.refName .none w).2 := by rw [h]
      rw [this]; exact hraw _
    · have : w' = (rawSet i f.refName (.list []) w).2 := by rw [h]
      rw [this]; exact hraw _
    · cases h; rfl
    · cases h; rfl
  · rw [if_pos hs] at h
    cases h; rfl

theorem link_none_same {n i : Nat} {f : Field} {w w' : World} (h : runL env n (.link i f .none) w = (.ok (), w')) : w' = w := by
  cases n with
  | zero => cases h
  | succ n =>
    change linkBody env (runL env n) i f .none w = (.ok (), w') at h
    unfold linkBody at h
    rw [linkItems_none] at h
    cases ho : env.foreignField f <;> rw [ho] at h <;> cases h <;> rfl

/-- after a completed `x.f = None`, the value is `None` -/
theorem setField_none {i : Nat} {f : Field} {w w' : World} (hf : (w.cdef env i).field? f.name = some f)
    (hr : f.isRef = true) (hn : f.store = .localKey → f.name ≠ f.refName)
    (h : setField env i f.name .none w = (.ok (), w')) : w'.attr i f.name = .none := by
  unfold setField at h
  cases hfu : env.fuel with
  | zero => rw [hfu] at h; cases h
  | succ n =>
    rw [hfu] at h
    change setBody env (runL env n) i f.name .none w = (.ok (), w') at h
    unfold setBody at h
    have h := get_bind_ok h
    rw [hf] at h
    simp only [hr, if_true] at h
    split at h
    · cases h
    · split at h
      · rename_i he
        cases h
        exact lk_pyEq_none he
      · obtain ⟨_, w1, _, h2⟩ := bind_ok h
        obtain ⟨_, w3, _, h4⟩ := bind_ok h2
        obtain ⟨_, w5, h5, h6⟩ := bind_ok h4
        obtain ⟨_, w7, h7, h8⟩ := bind_ok h6
        have e5 : w5 = (rawSet i f.name .none w3).2 := by rw [h5]
        rw [link_none_same h8, syncKey_none_attr h7 hn, e5, attr_raw, if_pos ⟨rfl, rfl⟩]

theorem itemsForKeys_mem {w : World} {cur : List Val} {ks xs : List Val} (h : itemsForKeys env w cur ks = .ok xs) :
    ∀ x ∈ xs, x ∈ cur := by
  induction ks generalizing xs with
  | nil => cases h; intro x hx; cases hx
  | cons k ks ih =>
    unfold itemsForKeys at h
    cases hf : findById env w k cur with
    | error e => rw [hf] at h; cases h
    | ok r =>
      rw [hf] at h
      simp only at h
      cases hi : itemsForKeys env w cur ks with
      | error e => rw [hi] at h; cases h
      | ok ys =>
        rw [hi] at h
        simp only at h
        cases r with
        | none => cases h; exact ih hi
        | some x =>
          cases h
          intro y hy
          rcases List.mem_cons.1 hy with rfl | hy
          · exact findById_mem hf
          · exact ih hi y hy

/-- assignments that are not to a reference id -/
theorem lk_setAttr (R : Relations env) (P : PlainPrimary env) {i : Nat} {n : String} {v : Val}
    (hc : (LCmd.set i n v).OkK env κ) : Kp' (KInv env κ ids lo ex) (setAttr env i n v) := by
  unfold setAttr
  refine Kp.get.bind (fun w hI => ?_)
  rw [hI.cdef i, hc.2.1]
  exact lk_runL R P _ (.set i n v) hc

/-- assignments to a reference id -/
theorem lk_setKey (R : Relations env) (P : PlainPrimary env) {i : Nat} {f : Field} {v : Val} {w w' : World}
    (hI : KInv env κ ids lo ex w) (hl : (env.cls (κ i)).localKey? f.refName = some f) (hlo : lo i f)
    (h : setAttr env i f.refName v w = (.ok (), w')) : KInv env κ ids lo ex w' := by
  have hm : f ∈ (env.cls (κ i)).fields := List.mem_of_find?_eq_some hl
  have hs : f.store = .localKey := by have := List.find?_some hl; simp at this; exact this
  have hf : HasK env κ i f := R.uniq _ f hm
  have hr := isRef_localKey hs
  have hwr : Writable env κ ex i f.name := writable_rel R P hf hr
  unfold setAttr at h
  have h := get_bind_ok h
  rw [hI.cdef i, hl] at h
  simp only at h
  unfold setLocalKey at h
  have h := get_bind_ok h
  split at h
  · cases h; exact hI
  · by_cases hi : f.ftype = .inst
    · obtain ⟨_, w1, h1, h2⟩ := bind_ok h
      obtain ⟨_, w3, h3, h4⟩ := bind_ok h2
      let ex' : Nat → Field → Prop := fun a g => ex a g ∨ (a = i ∧ g = f)
      have hI' : KInv env κ ids lo ex' w := hI.more (fun _ _ h => .inl h)
      have hkey : ∀ w x, KInv env κ ids lo ex' w → KInv env κ ids lo ex' (rawSet i f.refName x w).2 := fun w x hw =>
        hw.raw R (writable_key R hm hs (fun _ => .inr ⟨rfl, rfl⟩))
          (fun g hg hn => (key_no_field R hm hs hg hn).elim) (fun g b hg hn => (key_no_field R hm hs hg hn).elim)
      unfold setLocalKeyField at h1
      rw [hi] at h1
      obtain ⟨_, w5, h5, h6⟩ := bind_ok h1
      have e5 : w5 = (rawSet i f.refName v w).2 := by rw [h5]
      have k5 : KInv env κ ids lo ex' w5 := by rw [e5]; exact hkey _ _ hI'
      have k1 : KInv env κ ids lo ex' w1 := by
        have := (lk_runL R P env.fuel (.set i f.name .none) ⟨hwr.prim, noKey_rel R hf, fun g _ _ => tyK_none g⟩ w5 k5).1
        change runL env env.fuel (.set i f.name .none) w5 = _ at h6
        rw [h6] at this; exact this
      have hnn : f.name ≠ f.refName := fun hc => key_no_field R hm hs hf hc
      have a1 : w1.attr i f.name = .none := setField_none (by rw [k5.cdef i]; exact hf) hr (fun _ => hnn) h6
      have hst := still_markModified i f.name w1
      have k3 : KInv env κ ids lo ex' w3 := by
        have := k1.still hst; rw [h3] at this; exact this
      have a3 : w3.attr i f.name = .none := by
        have := (hst i).2; rw [h3] at this
        unfold World.attr; rw [this]; exact a1
      have e4 : w' = (rawSet i f.refName v w3).2 := by rw [h4]
      have k4 := hkey w3 v k3
      rw [← e4] at k4
      refine k4.less (fun _ _ b b4 => ?_) (fun _ _ hc => absurd hlo hc)
      rw [e4, attr_raw, if_neg (fun hc => hnn hc.2), a3] at b4
      cases b4
    · have hkey : ∀ x, Kp' (KInv env κ ids lo ex) (rawSet i f.refName x) := fun x =>
        kp_raw R (writable_key R hm hs (fun hc => absurd hc hi))
          (fun g hg hn => (key_no_field R hm hs hg hn).elim) (fun g b hg hn => (key_no_field R hm hs hg hn).elim)
      have hset : ∀ x, TyK env κ f x → Kp' (KInv env κ ids lo ex) (setField env i f.name x) := fun x hx =>
        lk_runL R P env.fuel (.set i f.name x) ⟨hwr.prim, noKey_rel R hf, fun g hg hn => by cases hg.eq hf hn; exact hx⟩
      have hfield : Kp' (KInv env κ ids lo ex) (setLocalKeyField env i f v) := by
        unfold setLocalKeyField
        cases hty : f.ftype with
        | inst => exact absurd hty hi
        | list =>
          cases v with
          | none => exact (hkey _).bind' (fun _ => hset _ (tyK_nil f))
          | list ks =>
            refine (hkey _).bind' (fun _ => Kp.read.bind (fun xs hx => hset _ ?_))
            obtain ⟨w1, k1, hx⟩ := hx
            have ht := k1.typ i f hf
            intro og hp b hb
            obtain ⟨hl', hb⟩ := mem_refsOf_list hb
            have hb := itemsForKeys_mem hx _ hb
            cases ha : w1.attr i f.name with
            | list ys =>
              rw [ha] at hb ht
              exact ht og hp b (refsOf_list_mem hl' hb)
            | _ => rw [ha] at hb; cases hb
          | _ => exact Kp.raise _
        | _ => exact Kp.pure' ()
      have := (hfield.bind' (fun _ => (still_markModified i f.name).kp.bind' (fun _ => hkey v)) w hI).1
      rw [h] at this; exact this

/-! ### Containers -/

/-- the value an event is about -/
def LEv.val? : LEv Val → Option Val
  | .add _ v => some v
  | .del v => some v
  | _ => none

theorem addsFrom_mem {s k : Int} {vs : List Val} {e : LEv Val} (h : e ∈ addsFrom s k vs) : ∃ j v, e = .add j v ∧ v ∈ vs := by
  induction vs generalizing k with
  | nil => cases h
  | cons v vs ih =>
    simp only [addsFrom, List.mem_cons] at h
    rcases h with rfl | h
    · exact ⟨_, _, rfl, by simp⟩
    · obtain ⟨j, x, he, hx⟩ := ih h
      exact ⟨j, x, he, by simp [hx]⟩

theorem pyTimes_mem {xs : List Val} {n : Int} {x : Val} (h : x ∈ pyTimes xs n) : x ∈ xs := by
  unfold pyTimes at h
  obtain ⟨l, hl, hx⟩ := List.mem_flatten.1 h
  rw [(List.mem_replicate.1 hl).2] at hx
  exact hx

theorem pyInsert_mem {xs : List Val} {k : Int} {v x : Val} (h : x ∈ pyInsert xs k v) : x = v ∨ x ∈ xs := by
  unfold pyInsert at h
  simp only [List.mem_append, List.mem_cons] at h
  rcases h with h | h | h
  · exact .inr (List.mem_of_mem_take h)
  · exact .inl h
  · exact .inr (List.mem_of_mem_drop h)

theorem setAt_mem {is : List Nat} {vs xs : List Val} {x : Val} (h : x ∈ setAt xs is vs) : x ∈ xs ∨ x ∈ vs := by
  induction is generalizing xs vs with
  | nil => cases vs <;> exact .inl h
  | cons i is ih =>
    cases vs with
    | nil => exact .inl h
    | cons v vs =>
      rcases ih h with h | h
      · rcases List.mem_or_eq_of_mem_set h with h | h
        · exact .inl h
        · exact .inr (by simp [h])
      · exact .inr (by simp [h])

theorem pyRemove_sub {eqv : Val → Val → Bool} {v : Val} {xs ys : List Val} (h : pyRemove eqv v xs = some ys) : ∀ x ∈ ys, x ∈ xs := by
  induction xs generalizing ys with
  | nil => cases h
  | cons y xs ih =>
    unfold pyRemove at h
    split at h
    · cases h; intro x hx; exact List.mem_cons_of_mem _ hx
    · cases hr : pyRemove eqv v xs with
      | none => rw [hr] at h; cases h
      | some zs =>
        rw [hr] at h; cases h
        intro x hx
        rcases List.mem_cons.1 hx with rfl | hx
        · exact List.mem_cons_self ..
        · exact List.mem_cons_of_mem _ (ih hr x hx)

theorem pyRemove_obj {b : Nat} {xs ys : List Val} (h : pyRemove pyEq (.obj b) xs = some ys) : .obj b ∈ xs := by
  induction xs generalizing ys with
  | nil => cases h
  | cons y xs ih =>
    unfold pyRemove at h
    split at h
    · rename_i he
      have : y = .obj b := by
        cases y with
        | obj j => simp only [pyEq, beq_iff_eq] at he; rw [he]
        | flt q => cases q <;> simp [pyEq] at he
        | _ => simp [pyEq] at he
      rw [this]; simp
    · cases hr : pyRemove pyEq (.obj b) xs with
      | none => rw [hr] at h; cases h
      | some zs => exact List.mem_cons_of_mem _ (ih hr)

/-- what an operation leaves in a list or reports comes from the list or its argument -/
theorem op_values {op : LOp Val} (hp : op.Plain) (xs : List Val) (b : Nat) :
    (.obj b ∈ (ownedOp pyEq op xs).items → .obj b ∈ xs ∨ .obj b ∈ op.newItems) ∧
    (∀ e ∈ (ownedOp pyEq op xs).log, e.val? = some (.obj b) → .obj b ∈ xs ∨ .obj b ∈ op.newItems) := by
  have hev : ∀ {ds as : List Val} {s k : Int} {e : LEv Val}, e ∈ dels ds ++ addsFrom s k as → e.val? = some (.obj b) →
      .obj b ∈ ds ∨ .obj b ∈ as := by
    intro ds as s k e he hv
    rcases List.mem_append.1 he with he | he
    · obtain ⟨d, hd, rfl⟩ := List.mem_map.1 he
      cases hv; exact .inl hd
    · obtain ⟨j, v, rfl, hm⟩ := addsFrom_mem he
      cases hv; exact .inr hm
  have hnot : ∀ {r : Except Exc (List Val)} {evs : List Val → List (LEv Val)},
      (∀ ys, r = .ok ys → (.obj b ∈ ys → .obj b ∈ xs ∨ .obj b ∈ op.newItems) ∧
        ∀ e ∈ evs ys, e.val? = some (.obj b) → .obj b ∈ xs ∨ .obj b ∈ op.newItems) →
      (.obj b ∈ (notified xs r evs).items → .obj b ∈ xs ∨ .obj b ∈ op.newItems) ∧
      (∀ e ∈ (notified xs r evs).log, e.val? = some (.obj b) → .obj b ∈ xs ∨ .obj b ∈ op.newItems) := by
    intro r evs h
    cases r with
    | error e =>
      refine ⟨fun hb => .inl hb, fun e he hv => ?_⟩
      cases List.mem_singleton.1 he; cases hv
    | ok ys =>
      refine ⟨(h ys rfl).1, fun e he hv => ?_⟩
      rcases List.mem_cons.1 he with rfl | he
      · cases hv
      · exact (h ys rfl).2 e he hv
  have hidx : ∀ {k : Int} {g : Nat → List Val} {ys : List Val}, withIdx xs k g = .ok ys → ∃ j, ys = g j := by
    intro k g ys h
    unfold withIdx at h
    cases hn : normIdx xs.length k with
    | none => rw [hn] at h; cases h
    | some j => rw [hn] at h; cases h; exact ⟨j, rfl⟩
  cases op with
  | append v =>
    refine ⟨fun h => ?_, fun e he hv => ?_⟩
    · simpa [ownedOp, LOp.newItems] using h
    · simp only [ownedOp, List.mem_cons, List.not_mem_nil, or_false] at he
      rcases he with rfl | rfl
      · cases hv
      · cases hv; exact .inr (by simp [LOp.newItems])
  | extend a =>
    cases a with
    | seq vs =>
      refine ⟨fun h => by simpa [ownedOp, ownedExtend, LOp.newItems, ItArg.items] using h, fun e he hv => ?_⟩
      simp only [ownedOp, ownedExtend] at he
      rcases List.mem_append.1 he with he | he
      · split at he
        · cases List.mem_singleton.1 he; cases hv
        · cases he
      · exact .inr ((hev (ds := []) he hv).resolve_left (by simp))
    | _ => exact hp.elim
  | insert k v =>
    refine ⟨fun h => ?_, fun e he hv => ?_⟩
    · rcases pyInsert_mem h with h | h
      · exact .inr (by simp [LOp.newItems, h])
      · exact .inl h
    · simp only [ownedOp, List.mem_cons, List.not_mem_nil, or_false] at he
      rcases he with rfl | rfl
      · cases hv
      · cases hv; exact .inr (by simp [LOp.newItems])
  | remove v =>
    refine hnot (fun ys hy => ?_)
    cases hr : pyRemove pyEq v xs with
    | none => rw [hr] at hy; cases hy
    | some zs =>
      rw [hr] at hy; cases hy
      refine ⟨fun h => .inl (pyRemove_sub hr _ h), fun e he hv => ?_⟩
      cases List.mem_singleton.1 he
      cases hv
      exact .inl (pyRemove_obj hr)
  | sort f e =>
    refine ⟨fun h => .inl ((hp xs).subset h), fun e' he hv => ?_⟩
    simp only [ownedOp, List.mem_cons] at he
    rcases he with rfl | he
    · cases hv
    · split at he
      · cases List.mem_singleton.1 he; cases hv
      · cases he
  | clear =>
    refine ⟨fun h => absurd (show Val.obj b ∈ [] from h) List.not_mem_nil, fun e he hv => ?_⟩
    simp only [ownedOp, List.mem_cons] at he
    rcases he with rfl | he
    · cases hv
    · exact .inl ((hev (as := []) (s := 0) (k := 0) (by simpa [addsFrom] using he) hv).resolve_right (by simp))
  | pop k =>
    refine hnot (fun ys hy => ?_)
    obtain ⟨j, rfl⟩ := hidx hy
    refine ⟨fun h => .inl (List.mem_of_mem_eraseIdx h), fun e he hv => ?_⟩
    exact .inl (getIdxs_mem ((hev (as := []) (s := 0) (k := 0) (by simpa [addsFrom] using he) hv).resolve_right (by simp)))
  | reverse =>
    refine ⟨fun h => .inl (by simpa [ownedOp] using h), fun e he hv => ?_⟩
    simp only [ownedOp, List.mem_cons, List.not_mem_nil, or_false] at he
    rcases he with rfl | rfl <;> cases hv
  | iadd a =>
    cases a with
    | seq vs =>
      refine ⟨fun h => by simpa [ownedOp, ownedExtend, LOp.newItems, ItArg.items] using h, fun e he hv => ?_⟩
      simp only [ownedOp, ownedExtend] at he
      rcases List.mem_append.1 he with he | he
      · split at he
        · cases List.mem_singleton.1 he; cases hv
        · cases he
      · exact .inr ((hev (ds := []) he hv).resolve_left (by simp))
    | _ => exact hp.elim
  | imul n =>
    refine ⟨fun h => .inl (pyTimes_mem h), fun e he hv => ?_⟩
    simp only [ownedOp, List.append_assoc] at he
    rcases List.mem_append.1 he with he | he
    · generalize (if n ≤ 0 then xs else []).length = l1, (if n ≤ 1 then [] else pyTimes xs (n - 1)).length = l2 at he
      by_cases hc : l1 > 0 ∨ l2 > 0
      · rw [if_pos hc] at he; cases List.mem_singleton.1 he; cases hv
      · rw [if_neg hc] at he; cases he
    · rcases hev he hv with h | h
      · split at h
        · exact .inl h
        · cases h
      · split at h
        · cases h
        · exact .inl (pyTimes_mem h)
  | setIdx k v =>
    refine hnot (fun ys hy => ?_)
    obtain ⟨j, rfl⟩ := hidx hy
    refine ⟨fun h => ?_, fun e he hv => ?_⟩
    · rcases List.mem_or_eq_of_mem_set h with h | h
      · exact .inl h
      · exact .inr (by simp [LOp.newItems, h])
    · rcases hev (as := [v]) (s := 0) he hv with h | h
      · exact .inl (getIdxs_mem h)
      · exact .inr h
  | setSlice sl a =>
    cases a with
    | seq vs =>
      simp only [ownedOp]
      split
      · exact ⟨fun h => .inl h, fun e he => by cases he⟩
      · refine hnot (fun ys hy => ⟨fun h => ?_, fun e he hv => ?_⟩)
        · unfold pySetSlice at hy
          change (if (sl.bounds xs.length).2.2 = 0 then Except.error Exc.valueError
            else if (sl.bounds xs.length).2.2 = 1 then
              .ok (xs.take (sl.bounds xs.length).1.toNat ++ vs ++
                xs.drop (max (sl.bounds xs.length).1 (sl.bounds xs.length).2.1).toNat)
            else if (sl.idxs xs.length).length = vs.length then .ok (setAt xs (sl.idxs xs.length) vs)
            else .error .valueError) = .ok ys at hy
          split at hy
          · cases hy
          · split at hy
            · cases hy
              rcases List.mem_append.1 h with h | h
              · rcases List.mem_append.1 h with h | h
                · exact .inl (List.mem_of_mem_take h)
                · exact .inr h
              · exact .inl (List.mem_of_mem_drop h)
            · by_cases hc : (sl.idxs xs.length).length = vs.length
              · rw [if_pos hc] at hy; cases hy
                exact setAt_mem h
              · rw [if_neg hc] at hy; cases hy
        · rcases hev he hv with h | h
          · exact .inl (getIdxs_mem h)
          · exact .inr h
    | _ => exact hp.elim
  | delIdx k =>
    refine hnot (fun ys hy => ?_)
    obtain ⟨j, rfl⟩ := hidx hy
    refine ⟨fun h => .inl (List.mem_of_mem_eraseIdx h), fun e he hv => ?_⟩
    exact .inl (getIdxs_mem ((hev (as := []) (s := 0) (k := 0) (by simpa [addsFrom] using he) hv).resolve_right (by simp)))
  | delSlice sl =>
    simp only [ownedOp]
    split
    · exact ⟨fun h => .inl h, fun e he => by cases he⟩
    · refine hnot (fun ys hy => ⟨fun h => ?_, fun e he hv => ?_⟩)
      · unfold pyDelSlice at hy
        split at hy
        · cases hy
        · cases hy; exact .inl (getIdxs_mem h)
      · exact .inl (getIdxs_mem ((hev (as := []) (s := 0) (k := 0) (by simpa [addsFrom] using he) hv).resolve_right (by simp)))

theorem lk_forEvs {I : World → Prop} {ε : Type} {f : ε → Py World Unit} (es : List ε) (h : ∀ e ∈ es, Kp' I (f e)) :
    Kp' I (forEvs f es) := by
  induction es with
  | nil => exact Kp.pure' ()
  | cons e es ih => exact (h e (by simp)).bind' (fun _ => ih (fun e he => h e (by simp [he])))

theorem lk_raiseOpt {I : World → Prop} (e : Option Exc) : Kp' I (raiseOpt e) := by
  cases e with
  | none => exact Kp.pure' ()
  | some e => exact Kp.raise e

/-- in-place changes of lists -/
theorem lk_listOp (R : Relations env) (P : PlainPrimary env) {i : Nat} {n : String} {op : LOp Val}
    (hpr : (env.cls (κ i)).primary ≠ some n) (hp : op.Plain) (hns : NotSingle env κ i n)
    (ht : ∀ g, HasK env κ i g → g.name = n → ∀ og, Paired env g og → ∀ b, .obj b ∈ op.newItems → HasK env κ b og) :
    Kp' (KInv env κ ids lo ex) (listOp env i n op) := by
  unfold listOp
  refine Kp.get.bind (fun w hI => ?_)
  cases ha : w.attr i n with
  | list xs =>
    simp only []
    have hty : ∀ ys : List Val, (∀ b, .obj b ∈ ys → .obj b ∈ xs ∨ .obj b ∈ op.newItems) →
        ∀ g, HasK env κ i g → g.name = n → TyK env κ g (.list ys) := by
      intro ys hys g hg hn og hpg b hb
      obtain ⟨hl, hb⟩ := mem_refsOf_list hb
      rcases hys b hb with h | h
      · have := hI.typ i g hg og hpg b
        rw [hn, ha] at this
        exact this (refsOf_list_mem hl h)
      · exact ht g hg hn og hpg b h
    have hevs : ∀ e ∈ (ownedOp pyEq op xs).log, Kp' (KInv env κ ids lo ex) (ownerLEv env i n e) := by
      intro e he
      have hv : ∀ v, e.val? = some v → ∀ g, HasK env κ i g → g.name = n → TyK env κ g (.list [v]) := by
        intro v hv
        refine hty _ (fun b hb => ?_)
        have hb := List.mem_singleton.1 hb
        subst hb
        exact (op_values hp xs b).2 e he hv
      cases e with
      | will => exact (still_willChange _ _ _).kp
      | add k v => exact lk_runL R P _ (.add i n k v) ⟨hns, hv v rfl⟩
      | del v => exact lk_runU R P _ (.del i n v) ⟨hns, hv v rfl⟩
      | sor => exact (still_markModified _ _).kp
    refine (lk_forEvs _ (fun e he => hevs e ((List.mem_filter.1 he).1))).bind' (fun _ => ?_)
    refine Kp.bind' ?_ (fun _ => (lk_forEvs _ (fun e he => hevs e ((List.mem_filter.1 he).1))).bind' (fun _ => lk_raiseOpt _))
    exact kp_raw R ⟨hpr, fun g hg hs hi hn => absurd hn (hns g hg hs hi).2⟩
      (hty _ (fun b hb => (op_values hp xs b).1 hb)) (fun g b _ _ _ _ h => by rcases h with h | h <;> cases h)
  | _ => exact Kp.raise _

theorem still_odictAdd (i : Nat) (n : String) (m : Nat) (v : Val) : Kp' (KInv env κ ids lo ex) (odictAdd i n m v) := by
  induction m with
  | zero => exact Kp.raise _
  | succ m ih =>
    unfold odictAdd
    cases v with
    | list xs => exact (still_markModified _ _).kp.bind' (fun _ => ih)
    | dict xs => exact (still_markModified _ _).kp.bind' (fun _ => ih)
    | _ => exact (still_markModified _ _).kp

/-- in-place changes of dicts -/
theorem lk_dictOp (R : Relations env) {i : Nat} {n : String} {op : DOp Val}
    (hpr : (env.cls (κ i)).primary ≠ some n)
    (hns : ∀ g, HasK env κ i g → g.store = .localKey → g.ftype = .inst → g.refName ≠ n) :
    Kp' (KInv env κ ids lo ex) (dictOp env i n op) := by
  unfold dictOp
  refine Kp.get.bind (fun w hI => ?_)
  cases ha : w.attr i n with
  | dict kvs =>
    simp only []
    have hevs : ∀ e : DEv Val, Kp' (KInv env κ ids lo ex) (ownerDEv env i n e) := by
      intro e
      cases e with
      | will => exact (still_willChange _ _ _).kp
      | add k v => exact still_odictAdd i n _ v
      | del v => exact (still_markModified _ _).kp
    refine (lk_forEvs _ (fun e _ => hevs e)).bind' (fun _ => ?_)
    refine Kp.bind' ?_ (fun _ => (lk_forEvs _ (fun e _ => hevs e)).bind' (fun _ => lk_raiseOpt _))
    refine kp_raw R ⟨hpr, fun g hg hs hi hn => absurd hn (hns g hg hs hi)⟩ (fun g _ _ og _ b hb => ?_)
      (fun g b _ _ _ _ h => by rcases h with h | h <;> cases h)
    unfold refsOf at hb
    cases hg : g.ftype <;> rw [hg] at hb <;> cases hb
  | _ => exact Kp.raise _

/-! ### Histories -/

/-- no object, no reference id -/
def ClearedAt (w : World) (a : Nat) (g : Field) : Prop := w.attr a g.name = .none → w.attr a g.refName = .none

theorem kinv_of (hw : WellTyped env w) (hm : Mirrors env w) (hn : ∀ a g, ¬ lo a g → ClearedAt w a g) :
    KInv env (fun j => (w.heap j).cls) (fun j => w.id env j) lo (fun _ _ => False) w :=
  ⟨fun _ => rfl, fun _ => rfl, fun a g hg og hp b hb => hw a g og hg hp b hb, fun a g b hg h1 h2 _ h3 => hm a g b hg h1 h2 h3,
    fun a g _ _ _ _ hl => hn a g hl⟩

theorem KInv.out {w w' : World} (h : KInv env (fun j => (w.heap j).cls) (fun j => w.id env j) lo (fun _ _ => False) w') :
    WellTyped env w' ∧ Mirrors env w' ∧ ∀ j, w'.id env j = w.id env j := by
  have hh : ∀ a g, HasField env w' a g ↔ HasK env (fun j => (w.heap j).cls) a g := fun a g => by
    unfold HasField HasK World.cdef; rw [h.cls]
  refine ⟨fun a g og hg hp b hb => (hh b og).2 (h.typ a g ((hh a g).1 hg) og hp b hb), fun a g b hg h1 h2 h3 => ?_, h.id⟩
  rw [h.id]
  exact h.mir a g b ((hh a g).1 hg) h1 h2 (fun hf => hf) h3

theorem lk_op (R : Relations env) (P : PlainPrimary env) {i : Nat} {op : FOp} {w : World} (hw : WellTyped env w)
    (hm : Mirrors env w) (hsu : op.KeySuits env w i) (hid : op.AssignsId env w i → (op.run env i w).1 = .ok ())
    (hn : ∀ a g, ¬ lo a g → ClearedAt w a g) (hlo : ∀ f v, op = .set f.refName v → lo i f) :
    KInv env (fun j => (w.heap j).cls) (fun j => w.id env j) lo (fun _ _ => False) (op.run env i w).2 := by
  have hI := kinv_of hw hm hn
  cases op with
  | set n v =>
    cases hl : (w.cdef env i).localKey? n with
    | none =>
      refine (lk_setAttr R P (κ := fun j => (w.heap j).cls) (i := i) (n := n) (v := v) ⟨hsu.1, hl, fun g hg hn og hp b hb => ?_⟩ w hI).1
      subst hn
      exact hsu.2 g og hg hp b hb
    | some f =>
      obtain ⟨-, -, rfl⟩ := localKey_mem hl
      have hok := hid ⟨f, hl⟩
      refine lk_setKey R P hI (i := i) (f := f) (v := v) hl (hlo f v rfl) (w' := ((FOp.set f.refName v).run env i w).2) ?_
      change (FOp.set f.refName v).run env i w = _
      rw [← hok]
  | lst n op =>
    obtain ⟨h1, h2, h3, h4⟩ := hsu
    refine (lk_listOp R P (κ := fun j => (w.heap j).cls) h1 h2 (fun g hg hs hi => ⟨fun hn => ?_, fun hn => ?_⟩) (fun g hg hn og hp b hb => ?_) w hI).1
    · subst hn; exact h3 g (.inr ⟨hg, hs⟩) hi
    · subst hn; exact h3 g (.inl <| R.keyUniq _ g hg.mem hs) hi
    · subst hn; exact h4 g og hg hp b hb
  | dct n op =>
    exact (lk_dictOp R (κ := fun j => (w.heap j).cls) hsu.1 (fun g hg hs hi hn => by subst hn; exact hsu.2 g (R.keyUniq _ g hg.mem hs) hi) w hI).1

/-- **C39**. Over any history of assignments, list and dict operations on any objects,
including operations that raise midway, the stored reference id of a relation kept by local
key is the primary key of the linked object whenever there is one. Partial: primary keys are
not written (`local_key_id_change_stale`), assignments to a reference id complete, and this
is about relations to a single object; for lists of reference ids it is false
(`local_key_list_replace_stale`). -/
theorem local_key_mirrors_partial (R : Relations env) (P : PlainPrimary env) (ops : List (Nat × FOp)) {w w' : World}
    (hw : WellTyped env w) (hm : Mirrors env w) (h : KeyHistory env ops w w') :
    WellTyped env w' ∧ Mirrors env w' ∧ ∀ j, w'.id env j = w.id env j := by
  induction ops generalizing w with
  | nil => cases h; exact ⟨hw, hm, fun _ => rfl⟩
  | cons o ops ih =>
    obtain ⟨i, op⟩ := o
    obtain ⟨hsu, hid, h2⟩ := h
    obtain ⟨k1, k2, k3⟩ := (lk_op (lo := fun _ _ => True) R P hw hm hsu hid (fun _ _ h => absurd trivial h) (fun _ _ _ => trivial)).out
    obtain ⟨j1, j2, j3⟩ := ih k1 k2 h2
    exact ⟨j1, j2, fun j => (j3 j).trans (k3 j)⟩

/-- **C39**. Over any such history, a relation without a linked object has no reference id,
unless the reference id itself was assigned: unlinking an object, from either side, clears
the reference id. -/
theorem local_key_cleared_partial (R : Relations env) (P : PlainPrimary env) (ops : List (Nat × FOp)) {w w' : World}
    (hw : WellTyped env w) (hm : Mirrors env w) (h : KeyHistory env ops w w') {a : Nat} {g : Field} (hg : HasField env w a g)
    (hs : g.store = .localKey) (hi : g.ftype = .inst) (hno : ∀ v, (a, FOp.set g.refName v) ∉ ops)
    (h0 : w.attr a g.name = .none → w.attr a g.refName = .none) (h1 : w'.attr a g.name = .none) :
    w'.attr a g.refName = .none := by
  induction ops generalizing w with
  | nil => cases h; exact h0 h1
  | cons o ops ih =>
    obtain ⟨i, op⟩ := o
    obtain ⟨hsu, hid, h2⟩ := h
    have hI := lk_op (lo := fun a' g' => ¬ (a' = a ∧ g' = g)) R P hw hm hsu hid
      (fun a' g' hl => by
        obtain ⟨rfl, rfl⟩ := Classical.not_not.1 hl
        exact h0)
      (fun f v hop => by
        rintro ⟨rfl, rfl⟩
        exact hno v (by rw [hop]; simp))
    obtain ⟨k1, k2, k3⟩ := hI.out
    refine ih k1 k2 h2 ?_ (fun v hc => hno v (by simp [hc])) (fun hn => ?_)
    · unfold HasField World.cdef; rw [hI.cls]; exact hg
    · exact hI.non a g hg hs hi (fun h => h) (fun h => h ⟨rfl, rfl⟩) hn

theorem WellLinked.typed {w : World} (h : WellLinked env w) : WellTyped env w :=
  fun a g og hg hp => (h a g og hg hp).2

/-- **C39**, effect of linking: after a completed assignment of an object to a relation kept
by local key, the reference id is the object's primary key. -/
theorem assign_sets_key (R : Relations env) (P : PlainPrimary env) {a b : Nat} {f of : Field} {w w' : World}
    (hw : WellLinked env w) (hs : Symmetric env w) (hm : Mirrors env w) (hf : HasField env w a f) (hp : Paired env f of)
    (hst : f.store = .localKey) (hi : f.ftype = .inst) (hb : HasField env w b of)
    (h : setAttr env a f.name (.obj b) w = (.ok (), w')) :
    w'.attr a f.name = .obj b ∧ w'.attr a f.refName = w.id env b := by
  have hsu : FOp.KeySuits env w a (.set f.name (.obj b)) := by
    refine ⟨fun hpr => ?_, fun g og hg hpg c hc => ?_⟩
    · have := P _ _ _ hpr hf
      rw [isRef_localKey hst] at this; cases this
    · cases Option.some.inj (hf.symm.trans hg)
      cases hp.opp_eq hpg
      rw [refsOf_inst hi] at hc
      cases List.mem_singleton.1 hc
      exact hb
  obtain ⟨-, hm', hid⟩ := (lk_op (op := .set f.name (.obj b)) R P hw.typed hm hsu (fun _ => by
    change (setAttr env a f.name (.obj b) w).1 = _; rw [h]) (lo := fun _ _ => True) (fun _ _ h => absurd trivial h) (fun _ _ _ => trivial)).out
  have hrun : ((FOp.set f.name (.obj b)).run env a w).2 = w' := by
    change (setAttr env a f.name (.obj b) w).2 = _; rw [h]
  rw [hrun] at hm' hid
  have hcls : ∀ j, (w'.heap j).cls = (w.heap j).cls := fun j => by
    have hI := lk_op (op := .set f.name (.obj b)) R P hw.typed hm hsu (fun _ => by
      change (setAttr env a f.name (.obj b) w).1 = _; rw [h]) (lo := fun _ _ => True) (fun _ _ h => absurd trivial h) (fun _ _ _ => trivial)
    rw [hrun] at hI; exact hI.cls j
  have hv : w'.attr a f.name = .obj b := by
    by_cases he : pyEq (.obj b) (w.attr a f.name) = true
    · have he' := pyEq_obj_left.1 he
      have : w' = w := by
        unfold setAttr at h
        have h := get_bind_ok h
        rw [R.noKey hf] at h
        simp only at h
        unfold setField at h
        cases hfu : env.fuel with
        | zero => rw [hfu] at h; cases h
        | succ n =>
          rw [hfu] at h
          change setBody env (runL env n) a f.name (.obj b) w = (.ok (), w') at h
          unfold setBody at h
          have h := get_bind_ok h
          unfold HasField at hf
          rw [hf] at h
          simp only [he, if_true] at h
          split at h
          · cases h
          · cases h; rfl
      rw [this]; exact he'
    · exact (assign_links_partial R hw hs hf hp (fits_inst hi hb) (by simpa using he) h).1
  refine ⟨hv, ?_⟩
  rw [hm' a f b ((HasField.congr hcls).2 hf) hst hi hv, hid]

/-- **C39**, effect of assigning the reference id: after a completed `a.x_id = v` with another
value than before, `a.x_id` is `v`, `a.x` is `None`, and no object refers back to `a`. -/
theorem assign_id_unlinks (R : Relations env) {a : Nat} {f of : Field} {v : Val} {w w' : World} (hw : WellLinked env w)
    (hs : Symmetric env w) (hl : (w.cdef env a).localKey? f.refName = some f) (hi : f.ftype = .inst)
    (hp : Paired env f of) (hv : ∀ ks, v ≠ .list ks) (hne : pyEq v (w.attr a f.refName) = false)
    (h : setAttr env a f.refName v w = (.ok (), w')) :
    w'.attr a f.refName = v ∧ w'.attr a f.name = .none ∧ ∀ b, HasField env w b of → ¬ Refers w' b of a := by
  obtain ⟨hm, hst, -⟩ := localKey_mem hl
  have hf : HasField env w a f := R.uniq _ f hm
  have hnn : f.name ≠ f.refName := fun hc => R.keys _ _ _ _ (hc ▸ hl) hf
  have hsu : FOp.Suits env w a (.set f.refName v) :=
    ⟨fun g og hg => (R.keys _ _ _ _ hl hg).elim, fun g og ks _ _ hk => absurd hk (hv ks)⟩
  have g := good_op (op := .set f.refName v) R hw ((symmetric_iff R hw).1 hs) hsu h
  have hs' := (symmetric_iff R g.fits).2 g.sym
  have hval : w'.attr a f.refName = v ∧ w'.attr a f.name = .none := by
    unfold setAttr at h
    have h := get_bind_ok h
    rw [hl] at h
    simp only at h
    unfold setLocalKey at h
    have h := get_bind_ok h
    rw [hne] at h
    simp only [Bool.false_eq_true, if_false] at h
    obtain ⟨_, w1, h1, h2⟩ := bind_ok h
    obtain ⟨_, w3, h3, h4⟩ := bind_ok h2
    unfold setLocalKeyField at h1
    rw [hi] at h1
    obtain ⟨_, w5, h5, h6⟩ := bind_ok h1
    have e5 : w5 = (rawSet a f.refName v w).2 := by rw [h5]
    have hf5 : (w5.cdef env a).field? f.name = some f := by
      unfold World.cdef; rw [e5, cls_rawSet]; exact hf
    have a1 := setField_none hf5 (isRef_localKey hst) (fun _ => hnn) h6
    have e4 : w' = (rawSet a f.refName v w3).2 := by rw [h4]
    have e3 : w3 = (markModified a f.name w1).2 := by rw [h3]
    constructor
    · rw [e4, attr_raw, if_pos ⟨rfl, rfl⟩]
    · rw [e4, attr_raw, if_neg (fun hc => hnn hc.2), e3]
      unfold World.attr
      rw [(still_markModified a f.name w1 a).2]
      exact a1
  refine ⟨hval.1, hval.2, fun b hb hr => ?_⟩
  have := (hs' a b f of ((HasField.congr g.cls).2 hf) ((HasField.congr g.cls).2 hb) hp).2 hr
  unfold Refers at this
  rw [hval.2, refsOf_none] at this
  cases this

end JC

/-! ### The demo program -/
namespace JC.SymDemo
open JC
open JC.Demo (user post fId fName fSecret fTmp fFriend fPosts fAuthor attrsOf)

theorem plainPrimary : PlainPrimary Demo.env := by
  intro c n f hp hf
  rcases Demo.env_cases c with hc | hc | hc <;> rw [hc] at hp hf
  · cases hp; cases hf; rfl
  · cases hp; cases hf; rfl
  · cases hp

/-- `start` with the reference ids -/
def keyed : World := { start with heap := fun i => if i = 2 then
  { start.heap 2 with attrs := attrsOf [("id", .str "p"), ("author", .obj 0), ("author_id", .str "u0")] } else start.heap i }

theorem keyed_cls (j : Nat) : (keyed.heap j).cls = (start.heap j).cls := by
  simp only [keyed]; split
  · rename_i h; rw [h]
  · rfl

theorem keyed_attr {j : Nat} {n : String} (h : n ≠ "author_id") : keyed.attr j n = start.attr j n := by
  simp only [keyed, World.attr]; split
  · rename_i hj; subst hj
    simp [start, mk, attrsOf, dictGet, List.find?_cons, Ne.symm h]
  · rfl

theorem keyed_qr : QR Demo.env start keyed :=
  ⟨keyed_cls, fun a g og _ hp => keyed_attr (by
    rcases paired_cases hp with ⟨rfl, rfl⟩ | ⟨rfl, rfl⟩ | ⟨rfl, rfl⟩ <;> decide)⟩

theorem keyed_linked : WellLinked Demo.env keyed := keyed_qr.wellLinked start_linked

theorem keyed_symmetric : Symmetric Demo.env keyed :=
  (symmetric_iff relations keyed_linked).2
    (((symmetric_iff relations start_linked).1 start_symmetric).qr relations start_linked keyed_qr)

theorem keyed_mirrors : Mirrors Demo.env keyed := by
  intro a g b hg hs hi hb
  have hmem := hg.mem
  have : g = fAuthor := by
    rcases fields_cases hmem with ⟨-, hm⟩ | ⟨-, hm⟩ <;>
      simp only [user, post, List.mem_cons, List.not_mem_nil, or_false] at hm
    · rcases hm with rfl | rfl | rfl | rfl | rfl | rfl <;> cases hs
    · rcases hm with rfl | rfl | rfl
      · cases hs
      · cases hs
      · rfl
  subst this
  rcases has_post rfl ((HasField.congr keyed_cls).1 hg) with rfl | rfl | rfl
  · rw [keyed_attr (by decide)] at hb
    have : b = 0 := by
      have hb : Val.obj 0 = .obj b := hb
      cases hb; rfl
    subst this; rfl
  · rw [keyed_attr (by decide)] at hb
    have hb : Val.none = .obj b := hb
    cases hb
  · rw [keyed_attr (by decide)] at hb
    have hb : Val.none = .obj b := hb
    cases hb

theorem ksuits_set {w : World} {i : Nat} {n c : String} {v : Val} (hc : (w.heap i).cls = c)
    (hp : (Demo.env.cls c).primary ≠ some n)
    (h : ∀ g og, (Demo.env.cls c).field? n = some g → Paired Demo.env g og → ∀ b ∈ refsOf g v, HasField Demo.env w b og) :
    FOp.KeySuits Demo.env w i (.set n v) := by
  subst hc; exact ⟨hp, h⟩

theorem kh_cons {i : Nat} {op : FOp} {ops : List (Nat × FOp)} {w w' : World} (hs : op.KeySuits Demo.env w i)
    (hok : op.AssignsId Demo.env w i → okRun (op.run Demo.env i w) = true) (h : KeyHistory Demo.env ops (step i op w) w') :
    KeyHistory Demo.env ((i, op) :: ops) w w' :=
  ⟨hs, fun ha => by rw [okRun_eq (hok ha)], h⟩

/-- distinct posts of which two have the same primary key: raises midway -/
def kop3 : FOp := .set "posts" (.list [.obj 2, .obj 3, .obj 4])
/-- the reference id itself -/
def kop4 : FOp := .set "author_id" (.str "u9")

def kw4 : World := step 4 kop4 (step 0 kop3 (step 4 op3 (step 1 op1 keyed)))

theorem khist : KeyHistory Demo.env [(1, op1), (4, op3), (0, kop3), (4, kop4)] keyed kw4 := by
  refine kh_cons ⟨by decide +kernel, trivial, fun g hg => ?_, fun g og hg hp b hb => ?_⟩ (fun h => h.elim) ?_
  · rcases hg with hg | ⟨hg, hs⟩
    · cases hg
    · have hg : some fPosts = some g := hg
      cases hg; cases hs
  · have hg : some fPosts = some g := hg
    cases hg
    cases hp.opp_eq paired_posts
    simp only [LOp.newItems, List.mem_singleton] at hb
    cases hb
    exact has_of (c := "Post") rfl rfl
  refine kh_cons (ksuits_set (c := "Post") (by decide +kernel) (by decide) (fun g og hg hp b hb => ?_))
    (fun _ => by decide +kernel) ?_
  · have hg : some fAuthor = some g := hg
    cases hg
    cases hp.opp_eq paired_author
    rw [refsOf_inst rfl] at hb
    cases List.mem_singleton.1 hb
    exact has_of (c := "User") (by decide +kernel) rfl
  refine kh_cons (ksuits_set (c := "User") (by decide +kernel) (by decide) (fun g og hg hp b hb => ?_)) (fun h => ?_) ?_
  · have hg : some fPosts = some g := hg
    cases hg
    cases hp.opp_eq paired_posts
    have : b = 2 ∨ b = 3 ∨ b = 4 := by simpa using (show b ∈ [2, 3, 4] from hb)
    rcases this with rfl | rfl | rfl <;> exact has_of (c := "Post") (by decide +kernel) rfl
  · obtain ⟨f, hf⟩ := h
    unfold World.cdef at hf
    rw [show ((step 4 op3 (step 1 op1 keyed)).heap 0).cls = "User" from by decide +kernel] at hf
    cases hf
  refine kh_cons (ksuits_set (c := "Post") (by decide +kernel) (by decide) (fun g og hg hp b hb => ?_))
    (fun _ => by decide +kernel) rfl
  cases hg

/-- reading of a text attribute -/
def text (w : World) (i : Nat) (n : String) : String := match w.attr i n with
  | .str s => s
  | _ => ""

theorem text_eq {w : World} {i : Nat} {n s : String} (h : text w i n = s) (hs : s ≠ "") : w.attr i n = .str s := by
  unfold text at h
  split at h
  · rename_i e; rw [e, h]
  · exact absurd h.symm hs

/-- The hypotheses of `local_key_mirrors_partial` are met by a history in which user 1 takes
post 2, post 4 gets author 1, an assignment raises midway, and post 4 is given another
reference id; at the end post 2 has author 0 with its key, and post 4 only a reference id. -/
example : Mirrors Demo.env kw4 ∧ refs kw4 2 fAuthor = [0] ∧ text kw4 2 "author_id" = "u0" ∧
    refs kw4 4 fAuthor = [] ∧ text kw4 4 "author_id" = "u9" ∧ okRun (kop3.run Demo.env 0 (step 4 op3 (step 1 op1 keyed))) = false :=
  ⟨(local_key_mirrors_partial relations plainPrimary _ keyed_linked.typed keyed_mirrors khist).2.1, by decide +kernel⟩

/-- The hypotheses of `local_key_cleared_partial` are met by taking post 2 out of user 0's
posts, which clears the reference id of post 2. -/
def kop5 : FOp := .lst "posts" (.remove (.obj 2))

theorem khist5 : KeyHistory Demo.env [(0, kop5)] keyed (step 0 kop5 keyed) := by
  refine kh_cons ⟨by decide +kernel, trivial, fun g hg => ?_, fun g og hg hp b hb => ?_⟩ (fun h => h.elim) rfl
  · rcases hg with hg | ⟨hg, hs⟩
    · cases hg
    · have hg : some fPosts = some g := hg
      cases hg; cases hs
  · simp [LOp.newItems] at hb

example : (keyed.attr 2 "author_id" = .str "u0" ∧ refs (step 0 kop5 keyed) 2 fAuthor = []) ∧
    ((step 0 kop5 keyed).attr 2 "author" = .none → (step 0 kop5 keyed).attr 2 "author_id" = .none) :=
  ⟨⟨rfl, by decide +kernel⟩, local_key_cleared_partial relations plainPrimary _ keyed_linked.typed keyed_mirrors khist5
    (has_of (g := fAuthor) (c := "Post") rfl rfl) rfl rfl (fun v h => by simp [kop5] at h) (fun h => by cases h)⟩

/-- The hypotheses of `assign_sets_key` are met by moving post 2 to user 1. -/
example : (step 2 op3 keyed).attr 2 "author_id" = .str "u1" :=
  (assign_sets_key (a := 2) (b := 1) relations plainPrimary keyed_linked keyed_symmetric keyed_mirrors
    (has_of (g := fAuthor) (c := "Post") rfl rfl) paired_author rfl rfl (has_of (c := "User") rfl rfl)
    (okRun_eq (by decide +kernel))).2

/-- The hypotheses of `assign_id_unlinks` are met by giving post 2 another reference id. -/
example : (step 2 kop4 keyed).attr 2 "author" = .none ∧ refs keyed 0 fPosts = [2] ∧ ¬ Refers (step 2 kop4 keyed) 0 fPosts 2 :=
  have h := assign_id_unlinks (a := 2) (f := fAuthor) (v := .str "u9") relations keyed_linked keyed_symmetric rfl rfl
    paired_author (fun _ => by intro h; cases h) (by decide +kernel) (okRun_eq (by decide +kernel))
  ⟨h.2.1, by decide +kernel, h.2.2 0 (has_of (c := "User") rfl rfl)⟩

end JC.SymDemo

namespace JC
open JC.SymDemo

/-- **C39**, limit: after the primary key of the linked object is changed, the stored reference
id is not the key of the linked object. -/
theorem local_key_id_change_stale : ∃ env, Relations env ∧ PlainPrimary env ∧ ∃ w w' f, WellLinked env w ∧ Symmetric env w ∧
    Mirrors env w ∧ setAttr env 0 "id" (.str "new") w = (.ok (), w') ∧ HasField env w' 2 f ∧ f.store = .localKey ∧ f.ftype = .inst ∧
    w'.attr 2 f.name = .obj 0 ∧ w'.id env 0 = .str "new" ∧ w'.attr 2 f.refName = .str "u0" := by
  refine ⟨Demo.env, relations, plainPrimary, keyed, (setAttr Demo.env 0 "id" (.str "new") keyed).2, Demo.fAuthor, keyed_linked,
    keyed_symmetric, keyed_mirrors, okRun_eq (by decide +kernel), has_of (c := "Post") (by decide +kernel) rfl, rfl, rfl, ?_, ?_, ?_⟩
  · have : refs (setAttr Demo.env 0 "id" (.str "new") keyed).2 2 Demo.fAuthor = [0] := by decide +kernel
    unfold refs at this
    cases h : (setAttr Demo.env 0 "id" (.str "new") keyed).2.attr 2 Demo.fAuthor.name <;> rw [h] at this <;>
      first | (cases this; rfl) | cases this
  · have h1 : ((setAttr Demo.env 0 "id" (.str "new") keyed).2.heap 0).cls = "User" := by decide +kernel
    have h2 : text (setAttr Demo.env 0 "id" (.str "new") keyed).2 0 "id" = "new" := by decide +kernel
    unfold World.id World.cdef
    rw [h1]
    exact text_eq h2 (by decide)
  · exact text_eq (by decide +kernel) (by decide)

end JC

/-! ### A relation kept by a list of local keys -/
namespace JC.KeyListDemo
open JC
open JC.SymDemo (okRun okRun_eq text text_eq)
open JC.Demo (attrsOf)

def fId : Field := { name := "id", jsonName := "id" }
def fTags : Field := { name := "tags", jsonName := "tags", store := .localKey, ftype := .list, refName := "tags_ids",
                       jrefName := "tagsIds", foreign := some ("Tag", "notes") }
def fNotes : Field := { name := "notes", jsonName := "notes", store := .foreignKey, ftype := .list,
                        foreign := some ("Note", "tags") }

/-- `Note.tags: list[Tag]` linked to `Tag.notes`, and `Tag.notes: list[Note]` linked by
`tags` -/
def env : Env where
  cls := fun n => if n = "Note" then { name := "Note", primary := some "id", fields := [fId, fTags] }
    else if n = "Tag" then { name := "Tag", primary := some "id", fields := [fId, fNotes] } else {}
  pystr := fun v => match v with
    | .str s => s
    | _ => ""

/-- a note with the tag 1, and a tag 2 -/
def world : World where
  heap := fun i => match i with
    | 0 => { cls := "Note", attrs := attrsOf [("id", .str "n0"), ("tags", .list [.obj 1]), ("tags_ids", .list [.str "t1"])] }
    | 1 => { cls := "Tag", attrs := attrsOf [("id", .str "t1"), ("notes", .list [.obj 0])] }
    | 2 => { cls := "Tag", attrs := attrsOf [("id", .str "t2"), ("notes", .list [])] }
    | _ => {}
  next := 3

/-- `note.tags[0] = tag2` -/
def replace : World := ((FOp.lst "tags" (.setIdx 0 (.obj 2))).run env 0 world).2

/-- reading of a list of texts -/
def texts (w : World) (i : Nat) (n : String) : List String := match w.attr i n with
  | .list ks => ks.map (fun k => match k with
    | .str s => s
    | _ => "")
  | _ => []

end JC.KeyListDemo

namespace JC
open JC.SymDemo JC.KeyListDemo

/-- **C39**, violation for lists: `note.tags[0] = tag2`, on a relation kept by a list of local
keys, links the new tag, unlinks the old one, completes, and leaves the old tag's key in the
list of reference ids. -/
theorem local_key_list_replace_stale : ∃ env w w' f, HasField env w 0 f ∧ f.store = .localKey ∧ f.ftype = .list ∧
    w.attr 0 f.name = .list [.obj 1] ∧ w.attr 0 f.refName = .list [w.id env 1] ∧
    (FOp.lst f.name (.setIdx 0 (.obj 2))).run env 0 w = (.ok (), w') ∧
    refsOf f (w'.attr 0 f.name) = [2] ∧ texts w' 0 f.refName = ["t1"] ∧ text w' 1 "id" = "t1" ∧ text w' 2 "id" = "t2" := by
  refine ⟨KeyListDemo.env, KeyListDemo.world, KeyListDemo.replace, KeyListDemo.fTags, rfl, rfl, rfl, rfl, rfl,
    okRun_eq (by decide +kernel), ?_⟩
  decide +kernel

end JC
