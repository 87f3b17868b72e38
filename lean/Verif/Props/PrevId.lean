import Verif.Props.ReportNames
import Verif.Model.PrevId
import Verif.Props.Locality
import Verif.Props.Input
import Verif.Props.Marks

/-
C88: the primary key an object is stored under is remembered.
-/
namespace JC
variable {env : Env}

/-! ### Specification -/

/-- `n` belongs to no relation of any class: it is neither the name of a relation, nor the name
of reference ids. -/
def NoRelation (env : Env) (n : String) : Prop := ¬ RelationName env n ∧ ∀ c, ∀ f ∈ (env.cls c).fields, f.refName ≠ n

/-- The field `n` of class `c` is declared and its previous value is recorded, as `types.primary`
says for primary keys. -/
def KeepsPrevious (env : Env) (c n : String) : Prop :=
  ∃ f, (env.cls c).field? n = some f ∧ recordsPrev (env.cls c) f = true

/-- No method of a list or dict is called on the value of `n` of the object `b`. -/
def Act.Leaves (b : Nat) (n : String) : Act → Prop
  | .op i (.lst m _) => i = b → m ≠ n
  | .op i (.dct m _) => i = b → m ≠ n
  | _ => True

/-- A program: assignments, methods of lists and dicts, `set`, `update` and constructors on any
objects. Each step completes or raises. -/
inductive ProgramOn (env : Env) (b : Nat) (n : String) : World → World → Prop where
  | none (w) : ProgramOn env b n w w
  | more {w w' : World} {m : Nat} {a : Act} : a.Leaves b n → ProgramOn env b n (a.run env m w).2 w' → ProgramOn env b n w w'

/-! ### Proof -/

variable {n : String}

/-- what is recorded for `n` -/
def recorded (n : String) (d : List (String × Val)) : List (String × Val) := d.filter (fun e => e.1 = n)

theorem recorded_other {m : String} (h : m ≠ n) (d : List (String × Val)) (v : Val) : recorded n (d ++ [(m, v)]) = recorded n d := by
  simp [recorded, h]

theorem recorded_get (d : List (String × Val)) : dictGet d n = (recorded n d).head?.map Prod.snd := by
  induction d with
  | nil => rfl
  | cons e d ih =>
    obtain ⟨k, v⟩ := e
    by_cases h : k = n
    · simp [recorded, dictGet, h]
    · simp only [recorded, dictGet, h, List.filter_cons, List.find?_cons, decide_false, Bool.false_eq_true, if_false]
      exact ih

/-- as far as the attribute `n` is concerned the object is as before, or further modified -/
structure Blind (n : String) (o o' : Obj) : Prop where
  attr : o'.attrs n = o.attrs n
  cls : o'.cls = o.cls
  new : o'.isNew = o.isNew
  marks : n ∈ o'.modFields ↔ n ∈ o.modFields
  prev : recorded n o'.prev = recorded n o.prev
  flag : o.isModified = true → o'.isModified = true

theorem Blind.refl (n : String) (o : Obj) : Blind n o o := ⟨rfl, rfl, rfl, .rfl, rfl, id⟩

/-- an existing object with a property -/
def AtObj (J : Obj → Prop) (b : Nat) (w : World) : Prop := b < w.next ∧ J (w.heap b)

/-- a property of what concerns `n` -/
def Stable (n : String) (J : Obj → Prop) : Prop := ∀ o o', Blind n o o' → J o → J o'

/-- not the attribute `n` of `b` -/
def Away (b : Nat) (n : String) (i : Nat) (m : String) : Prop := i = b → m ≠ n

variable {J : Obj → Prop} {b : Nat}

local notation "N" => AtObj J b

theorem bl_upd (hJ : Stable n J) {i : Nat} {g : Obj → Obj} (h : i = b → ∀ o, Blind n o (g o)) {w : World} (hw : N w) : N (w.upd i g) := by
  refine ⟨hw.1, ?_⟩
  simp only [World.upd]
  by_cases hb : b = i
  · simp only [hb, if_true]
    have := hw.2
    rw [hb] at this
    exact hJ _ _ (h hb.symm _) this
  · simp only [hb, if_false]; exact hw.2

theorem bl_updObj (hJ : Stable n J) {i : Nat} {g : Obj → Obj} (h : i = b → ∀ o, Blind n o (g o)) : Kp' N (updObj i g) :=
  fun _ hw => ⟨bl_upd hJ h hw, fun _ _ => trivial⟩

theorem bl_rawSet (hJ : Stable n J) {i : Nat} {m : String} (h : Away b n i m) (v : Val) : Kp' N (rawSet i m v) :=
  bl_updObj hJ (fun hi _ => ⟨if_neg (fun hc => h hi hc.symm), rfl, rfl, .rfl, rfl, id⟩)

theorem bl_addUnlinked (hJ : Stable n J) (i : Nat) (m : String) (v : Val) : Kp' N (addUnlinked i m v) :=
  bl_updObj hJ (fun _ _ => ⟨rfl, rfl, rfl, .rfl, rfl, id⟩)

theorem bl_delUnlinked (hJ : Stable n J) (i : Nat) (m : String) (v : Val) : Kp' N (delUnlinked i m v) :=
  bl_updObj hJ (fun _ _ => ⟨rfl, rfl, rfl, .rfl, rfl, id⟩)

theorem blind_mark {m : String} (h : m ≠ n) (o : Obj) : Blind n o { o with isModified := true, modFields := setAdd m o.modFields } :=
  ⟨rfl, rfl, rfl, setAdd_other h.symm _, rfl, fun _ => rfl⟩

theorem bl_markModified (hJ : Stable n J) {i : Nat} {m : String} (h : Away b n i m) : Kp' N (markModified i m) := by
  refine bl_updObj hJ (fun hi o => ?_)
  split
  · exact .refl _ _
  · exact blind_mark (h hi) o

theorem bl_markLocalKey (hJ : Stable n J) {i : Nat} {f : Field} (h : f.name ≠ n) : Kp' N (markLocalKey i f) := by
  refine bl_updObj hJ (fun hi o => ?_)
  split
  · exact blind_mark h o
  · exact .refl _ _

theorem bl_track (hJ : Stable n J) {i : Nat} {f : Field} (h : Away b n i f.name) : Kp' N (track env i f) := by
  intro w hw
  refine ⟨?_, fun _ _ => trivial⟩
  unfold track
  dsimp only
  refine bl_upd hJ (fun hi o => ?_) hw
  split
  · exact .refl _ _
  · refine ⟨rfl, rfl, rfl, setAdd_other (h hi).symm _, ?_, fun _ => rfl⟩
    show recorded n (if _ then _ else _) = _
    split
    · exact recorded_other (h hi) _ _
    · rfl

theorem bl_willChange (hJ : Stable n J) (d : Bool) {i : Nat} {m : String} (h : Away b n i m) : Kp' N (willChange env d i m) := by
  intro w hw
  refine ⟨?_, fun _ _ => trivial⟩
  simp only [willChange]
  cases hf : (w.cdef env i).field? m with
  | none => cases d <;> exact hw
  | some f =>
    simp only []
    split
    · dsimp only
      refine bl_upd hJ ?_ hw
      intro hi o
      exact ⟨rfl, rfl, rfl, .rfl, recorded_other (h hi) _ _, id⟩
    · exact hw

theorem bl_linkGraph (hJ : Stable n J) (i j : Nat) : Kp' N (linkGraph env i j) := by
  intro w hw
  refine ⟨⟨?_, ?_⟩, fun _ _ => trivial⟩
  · obtain ⟨-, h1, -⟩ := putSelf_heap (env := env) i w
    have hn : b < (putSelf env i w).next := by rw [h1]; exact hw.1
    unfold linkGraph mergeGraphs
    generalize putSelf env i w = w₁ at hn
    split
    · exact hn
    · cases mergeLoop env w₁ ((w₁.graphs (w₁.heap j).graph).map Prod.snd) (w₁.graphs (w₁.heap i).graph) with
      | error e => exact hn
      | ok g => exact hn
  · have := linkGraph_untouched (env := env) i j w b
    unfold Untouched at this
    rw [this]
    exact hJ (w.heap b) _ ⟨rfl, rfl, rfl, .rfl, rfl, id⟩ hw.2

theorem away_relation (hn : NoRelation env n) {m : String} (h : RelationName env m) (i : Nat) : Away b n i m :=
  fun _ hc => hn.1 (hc ▸ h)

theorem away_key (hn : NoRelation env n) {c : String} {f : Field} (h : f ∈ (env.cls c).fields) (i : Nat) : Away b n i f.refName :=
  fun _ => hn.2 c f h

theorem away_foreign_key (hn : NoRelation env n) {f of : Field} (h : env.foreignField f = some of) (i : Nat) : Away b n i of.refName := by
  obtain ⟨c, hc⟩ := foreignField_mem h
  exact away_key hn hc i

/-- what a command may be about -/
def UCmd.Off (env : Env) (b : Nat) (n : String) : UCmd → Prop
  | .unlink _ f _ => RelField env f
  | .del i p _ => Away b n i p

section
variable (hJ : Stable n J) (hn : NoRelation env n)
include hJ hn

omit hn in
theorem bl_listRemoveAttr {run : UCmd → Py World Unit} (hrun : ∀ c, c.Off env b n → Kp' N (run c))
    {i : Nat} {m : String} {v : Val} (hm : Away b n i m) : Kp' N (listRemoveAttr env run i m v) := by
  unfold listRemoveAttr
  refine Kp.get.bind (fun w _ => ?_)
  split
  · refine (bl_willChange hJ _ hm).bind' (fun _ => ?_)
    split
    · exact (bl_rawSet hJ hm _).bind' (fun _ => hrun (.del _ _ _) hm)
    · exact Kp.raise _
  · exact Kp.raise _

theorem bl_unlinkKey {of : Field} (h : RelationName env of.name) (hk : of.refName ≠ n) (j : Nat) : Kp' N (unlinkKey j of) := by
  unfold unlinkKey
  split
  · refine (bl_rawSet hJ (fun _ => hk) _).bind' (fun _ => bl_updObj hJ (fun hi o => ?_))
    exact ⟨rfl, rfl, rfl, setAdd_other (away_relation (b := b) hn h j hi).symm _, rfl, id⟩
  · exact Kp.pure' ()

theorem bl_unlinkOther {run : UCmd → Py World Unit} (hrun : ∀ c, c.Off env b n → Kp' N (run c))
    {f of : Field} (hf : RelField env f) (ho : env.foreignField f = some of) (i : Nat) (item : Val) :
    Kp' N (unlinkOther env run i of item) := by
  have hr := relationName_foreign hf ho
  obtain ⟨c, hc⟩ := foreignField_mem ho
  unfold unlinkOther
  cases item with
  | obj j =>
    refine Kp.get.bind (fun w _ => ?_)
    cases of.ftype with
    | inst =>
      simp only []
      split
      · exact (bl_rawSet hJ (away_relation hn hr _) _).bind' (fun _ => (bl_unlinkKey hJ hn hr (hn.2 c of hc) j).bind' (fun _ => bl_addUnlinked hJ _ _ _))
      · exact Kp.pure' ()
    | list =>
      simp only []
      cases w.attr j of.name with
      | list xs =>
        simp only []
        split
        · exact (bl_listRemoveAttr hJ hrun (away_relation hn hr _)).bind' (fun _ => bl_addUnlinked hJ _ _ _)
        · exact Kp.pure' ()
      | _ => exact Kp.pure' ()
    | _ => exact Kp.pure' ()
  | _ => exact Kp.raise _

theorem bl_unlinkBody {run : UCmd → Py World Unit} (hrun : ∀ c, c.Off env b n → Kp' N (run c))
    {f : Field} (hf : RelField env f) (i : Nat) (v : Val) : Kp' N (unlinkBody env run i f v) := by
  unfold unlinkBody
  cases ho : env.foreignField f with
  | none =>
    simp only []
    cases linkItems f v with
    | nil => exact Kp.pure' ()
    | cons x xs => exact bl_addUnlinked hJ _ _ _
  | some of =>
    exact kp_forItems (fun x => (bl_addUnlinked hJ _ _ _).bind' (fun _ => bl_unlinkOther hJ hn hrun hf ho i x)) _

theorem bl_delBody {run : UCmd → Py World Unit} (hrun : ∀ c, c.Off env b n → Kp' N (run c))
    (i : Nat) (path : String) (v : Val) (hp : Away b n i path) : Kp' N (delBody env run i path v) := by
  unfold delBody
  refine Kp.get.bind (fun w hw => ?_)
  cases hl : (w.cdef env i).localKey? path with
  | some f =>
    obtain ⟨hm, hs, _⟩ := localKey_mem hl
    have hr := relationName_self hm (isRef_localKey hs)
    simp only []
    unfold delLocal
    refine (bl_markLocalKey hJ (fun hc => hn.1 (hc ▸ hr))).bind' (fun _ => Kp.get.bind (fun w' _ => ?_))
    cases w'.attr i f.name with
    | list xs =>
      refine Kp.read'.bind' (fun n => ?_)
      split
      · refine Kp.read'.bind' (fun m => ?_)
        cases m with
        | some x => exact bl_listRemoveAttr hJ hrun (away_relation hn hr _)
        | none => exact Kp.pure' ()
      · exact Kp.pure' ()
    | _ => exact Kp.pure' ()
  | none =>
    simp only []
    refine Kp.bind' ?_ (fun _ => bl_markModified hJ hp)
    unfold delRef
    cases hf : (w.cdef env i).field? path with
    | none => exact Kp.pure' ()
    | some f =>
      obtain ⟨hm, _⟩ := field_mem hf
      simp only []
      split
      · rename_i hr
        refine (hrun (.unlink _ _ _) (show RelField env f from ⟨_, hm, hr⟩)).bind' (fun _ => ?_)
        unfold delKey
        split
        · rename_i hs
          refine Kp.get.bind (fun w' _ => ?_)
          cases w'.attr i f.refName with
          | list ks =>
            refine Kp.read'.bind' (fun n => ?_)
            split
            · refine Kp.read'.bind' (fun k => ?_)
              split
              · exact bl_listRemoveAttr hJ hrun (away_key hn hm _)
              · exact Kp.pure' ()
            · exact Kp.pure' ()
          | _ => exact Kp.raise _
        · exact Kp.pure' ()
      · exact Kp.pure' ()

theorem bl_runU : ∀ (k : Nat) (c : UCmd), c.Off env b n → Kp' N (runU env k c) := by
  intro k
  induction k with
  | zero => intro c _; cases c <;> exact Kp.raise _
  | succ k ih =>
    intro c hc
    cases c with
    | unlink i f v => exact bl_unlinkBody hJ hn ih hc i v
    | del i p v => exact bl_delBody hJ hn ih i p v hc

end

/-- what a command may be about -/
def LCmd.Off (env : Env) (b : Nat) (n : String) : LCmd → Prop
  | .link _ f _ => RelField env f
  | .add i p _ _ => Away b n i p
  | .set i m _ => Away b n i m

section
variable (hJ : Stable n J) (hn : NoRelation env n)
include hJ hn

omit hn in
theorem bl_listAppendAttr {run : LCmd → Py World Unit} (hrun : ∀ c, c.Off env b n → Kp' N (run c))
    {i : Nat} {m : String} {v : Val} (hm : Away b n i m) : Kp' N (listAppendAttr env run i m v) := by
  unfold listAppendAttr
  refine Kp.get.bind (fun w _ => ?_)
  split
  · exact (bl_willChange hJ _ hm).bind' (fun _ => (bl_rawSet hJ hm _).bind' (fun _ => hrun (.add _ _ _ _) hm))
  · exact Kp.raise _

theorem bl_linkSide {run : LCmd → Py World Unit} (hrun : ∀ c, c.Off env b n → Kp' N (run c))
    {of : Field} (hr : RelationName env of.name) (i j : Nat) : Kp' N (linkSide env run i of j) := by
  unfold linkSide
  refine Kp.get.bind (fun w _ => ?_)
  cases of.ftype with
  | inst =>
    simp only []
    split
    · exact Kp.pure' ()
    · exact (hrun (.set _ _ _) (away_relation hn hr _)).bind' (fun _ => bl_delUnlinked hJ _ _ _)
  | list =>
    simp only []
    cases w.attr j of.name with
    | list xs =>
      simp only []
      split
      · exact Kp.pure' ()
      · exact (bl_listAppendAttr hJ hrun (away_relation hn hr _)).bind' (fun _ => bl_delUnlinked hJ _ _ _)
    | _ => exact (hrun (.set _ _ _) (away_relation hn hr _)).bind' (fun _ => bl_delUnlinked hJ _ _ _)
  | _ => exact Kp.pure' ()

theorem bl_linkBody {run : LCmd → Py World Unit} (hrun : ∀ c, c.Off env b n → Kp' N (run c))
    {f : Field} (hf : RelField env f) (i : Nat) (v : Val) : Kp' N (linkBody env run i f v) := by
  unfold linkBody
  cases ho : env.foreignField f with
  | none =>
    simp only []
    cases linkItems f v with
    | nil => exact Kp.pure' ()
    | cons x xs => exact bl_delUnlinked hJ _ _ _
  | some of =>
    refine kp_forItems (fun x => (bl_delUnlinked hJ _ _ _).bind' (fun _ => ?_)) _
    unfold linkOther
    cases x with
    | obj j => exact (bl_linkSide hJ hn hrun (relationName_foreign hf ho) i j).bind' (fun _ => bl_linkGraph hJ i j)
    | _ => exact Kp.raise _

theorem bl_addBody {run : LCmd → Py World Unit} (hrun : ∀ c, c.Off env b n → Kp' N (run c))
    (i : Nat) (path : String) (idx : Int) (v : Val) (hp : Away b n i path) : Kp' N (addBody env run i path idx v) := by
  unfold addBody
  refine Kp.get.bind (fun w hw => ?_)
  cases hl : (w.cdef env i).localKey? path with
  | some f =>
    obtain ⟨hm, hs, _⟩ := localKey_mem hl
    exact bl_markLocalKey hJ (fun hc => hn.1 (hc ▸ relationName_self hm (isRef_localKey hs)))
  | none =>
    simp only []
    refine Kp.bind' ?_ (fun _ => ?_)
    · unfold addRef
      cases hf : (w.cdef env i).field? path with
      | none => exact Kp.pure' ()
      | some f =>
        obtain ⟨hm, _⟩ := field_mem hf
        simp only []
        split
        · rename_i hr
          refine (hrun (.link _ _ _) (show RelField env f from ⟨_, hm, hr⟩)).bind' (fun _ => ?_)
          unfold addKey
          split
          · rename_i hs
            refine Kp.get.bind (fun w' _ => ?_)
            cases w'.attr i f.refName with
            | list ks =>
              refine Kp.read'.bind' (fun n => ?_)
              split
              · refine Kp.read'.bind' (fun k => ?_)
                split
                · exact Kp.raise _
                · exact (bl_rawSet hJ (away_key hn hm _) _).bind' (fun _ => hrun (.add _ _ _ _) (away_key hn hm _))
              · exact Kp.pure' ()
            | _ => exact Kp.raise _
          · exact Kp.pure' ()
        · exact Kp.pure' ()
    · unfold addTail
      cases v with
      | list xs => exact (bl_runU hJ hn _ (.del ..) hp).bind' (fun _ => hrun (.add _ _ _ _) hp)
      | dict xs => exact (bl_runU hJ hn _ (.del ..) hp).bind' (fun _ => hrun (.add _ _ _ _) hp)
      | _ => exact bl_markModified hJ hp

theorem bl_syncKey {c : String} {f : Field} (hm : f ∈ (env.cls c).fields) (i : Nat) (v : Val) : Kp' N (syncKey env i f v) := by
  have hw : ∀ x, Kp' N (rawSet i f.refName x) := fun x => bl_rawSet hJ (away_key hn hm i) x
  unfold syncKey
  split
  · exact Kp.pure' ()
  · split
    · exact hw _
    · exact Kp.get.bind (fun w _ => hw _)
    · exact hw _
    · exact Kp.read'.bind' (fun ks => hw _)
    · exact Kp.raise _
    · exact Kp.pure' ()

theorem bl_setBody {run : LCmd → Py World Unit} (hrun : ∀ c, c.Off env b n → Kp' N (run c))
    {i : Nat} {m : String} (h : Away b n i m) (v : Val) : Kp' N (setBody env run i m v) := by
  unfold setBody
  refine Kp.get.bind (fun w hw => ?_)
  cases hf : (w.cdef env i).field? m with
  | none => exact bl_rawSet hJ h _
  | some f =>
    obtain ⟨hm, he⟩ := field_mem hf
    simp only []
    split
    · exact Kp.raise _
    · rename_i hc
      split
      · exact Kp.pure' ()
      · refine (bl_track hJ (he ▸ h)).bind' (fun _ => ?_)
        split
        · rename_i hr
          refine (bl_runU hJ hn _ (.unlink _ _ _) (show RelField env f from ⟨_, hm, hr⟩)).bind' (fun _ => (bl_rawSet hJ h _).bind' (fun _ => ?_))
          exact (bl_syncKey hJ hn hm i v).bind' (fun _ => hrun (.link _ _ _) (show RelField env f from ⟨_, hm, hr⟩))
        · exact bl_rawSet hJ h _

theorem bl_runL : ∀ (k : Nat) (c : LCmd), c.Off env b n → Kp' N (runL env k c) := by
  intro k
  induction k with
  | zero => intro c _; cases c <;> exact Kp.raise _
  | succ k ih =>
    intro c hc
    cases c with
    | link i f v => exact bl_linkBody hJ hn ih hc i v
    | add i p k v => exact bl_addBody hJ hn ih i p k v hc
    | set i m v => exact bl_setBody hJ hn ih hc v

theorem bl_setField {i : Nat} {m : String} (h : Away b n i m) (v : Val) : Kp' N (setField env i m v) :=
  bl_runL hJ hn _ (.set _ _ _) h

/-- an assignment to a reference id, or to anything but `n` of `b` -/
theorem bl_setAttr {i : Nat} {m : String} (h : Away b n i m) (v : Val) : Kp' N (setAttr env i m v) := by
  unfold setAttr
  refine Kp.get.bind (fun w hw => ?_)
  cases hl : (w.cdef env i).localKey? m with
  | none => exact bl_setField hJ hn h _
  | some f =>
    obtain ⟨hm, hs, _⟩ := localKey_mem hl
    have hr := relationName_self hm (isRef_localKey hs)
    have ha : Away b n i f.name := away_relation hn hr i
    have hk : Away b n i f.refName := away_key hn hm i
    simp only []
    unfold setLocalKey
    refine Kp.get.bind (fun w' _ => ?_)
    split
    · exact Kp.pure' ()
    · refine Kp.bind' ?_ (fun _ => (bl_markModified hJ ha).bind' (fun _ => bl_rawSet hJ hk _))
      unfold setLocalKeyField
      cases f.ftype with
      | inst => exact (bl_rawSet hJ hk _).bind' (fun _ => bl_setField hJ hn ha _)
      | list =>
        cases v with
        | none => exact (bl_rawSet hJ hk _).bind' (fun _ => bl_setField hJ hn ha _)
        | list ks => exact (bl_rawSet hJ hk _).bind' (fun _ => Kp.read'.bind' (fun xs => bl_setField hJ hn ha _))
        | _ => exact Kp.raise _
      | _ => exact Kp.pure' ()

theorem bl_ownerLEv {i : Nat} {m : String} (h : Away b n i m) (e : LEv Val) : Kp' N (ownerLEv env i m e) := by
  cases e with
  | will => exact bl_willChange hJ _ h
  | add k v => exact bl_runL hJ hn _ (.add _ _ _ _) h
  | del v => exact bl_runU hJ hn _ (.del _ _ _) h
  | sor => exact bl_markModified hJ h

omit hn in
theorem bl_odictAdd {i : Nat} {m : String} (h : Away b n i m) : ∀ (k : Nat) (v : Val), Kp' N (odictAdd i m k v) := by
  intro k
  induction k with
  | zero => intro v; exact Kp.raise _
  | succ k ih =>
    intro v
    cases v with
    | list xs => exact (bl_markModified hJ h).bind' (fun _ => ih _)
    | dict xs => exact (bl_markModified hJ h).bind' (fun _ => ih _)
    | _ => exact bl_markModified hJ h

omit hn in
theorem bl_ownerDEv {i : Nat} {m : String} (h : Away b n i m) (e : DEv Val) : Kp' N (ownerDEv env i m e) := by
  cases e with
  | will => exact bl_willChange hJ _ h
  | add k v => exact bl_odictAdd hJ h _ _
  | del v => exact bl_markModified hJ h

theorem bl_run {i : Nat} {op : FOp} (h : Away b n i op.name) : Kp' N (op.run env i) := by
  cases op with
  | set m v => exact bl_setAttr hJ hn h v
  | lst m op =>
    show Kp' N (listOp env i m op)
    unfold listOp
    refine Kp.get.bind (fun w _ => ?_)
    split
    · exact (lk_forEvs _ (fun e _ => bl_ownerLEv hJ hn h e)).bind' (fun _ => (bl_rawSet hJ h _).bind' (fun _ =>
        (lk_forEvs _ (fun e _ => bl_ownerLEv hJ hn h e)).bind' (fun _ => lk_raiseOpt _)))
    · exact Kp.raise _
  | dct m op =>
    show Kp' N (dictOp env i m op)
    unfold dictOp
    refine Kp.get.bind (fun w _ => ?_)
    split
    · exact (lk_forEvs _ (fun e _ => bl_ownerDEv hJ h e)).bind' (fun _ => (bl_rawSet hJ h _).bind' (fun _ =>
        (lk_forEvs _ (fun e _ => bl_ownerDEv hJ h e)).bind' (fun _ => lk_raiseOpt _)))
    · exact Kp.raise _

end

/-- inputs keep the property, if assignments to the attribute do -/
def blindWalk (env : Env) (hJ : Stable n J) (hn : NoRelation env n) (hset : ∀ v, Kp' (AtObj J b) (setAttr env b n v)) : Walk env where
  P := fun m => Kp' (AtObj J b) m
  bind := fun hm hk => hm.bind' hk
  same := fun h w hw => ⟨⟨by rw [(h w).2]; exact hw.1, by rw [(h w).1]; exact hw.2⟩, fun _ _ => trivial⟩
  fresh := fun h w hw => by
    have := (h { w with marks := [] } hw).1
    exact ⟨this, fun _ _ => trivial⟩
  alloc := fun cls w hw => by
    refine ⟨⟨Nat.lt_succ_of_lt hw.1, ?_⟩, fun _ _ => trivial⟩
    rw [alloc_heap (Nat.ne_of_lt hw.1)]
    exact hw.2
  setAttr := fun i m v => by
    by_cases h : i = b ∧ m = n
    · obtain ⟨rfl, rfl⟩ := h; exact hset v
    · exact bl_setAttr hJ hn (fun hi hm => h ⟨hi, hm⟩) v
  linkLocalKeys := fun a i m k => by
    unfold linkLocalKeys
    refine Kp.get.bind (fun w hw => ?_)
    cases hf : (w.cdef env i).field? m with
    | none => exact Kp.raise _
    | some f =>
      obtain ⟨hm, -⟩ := field_mem hf
      have hk : Away b n i f.refName := away_key hn hm i
      simp only []
      split
      · exact (Kp.when (fun _ => bl_setAttr hJ hn hk _)).bind' (fun _ => bl_listAppendAttr hJ (bl_runL hJ hn _) hk)
      · split
        · exact Kp.pure' ()
        · exact bl_listRemoveAttr hJ (bl_runU hJ hn _) hk
  addLinkKey := fun a i m k => bl_updObj hJ (fun _ o => by split <;> exact ⟨rfl, rfl, rfl, .rfl, rfl, id⟩)

/-- what a step keeps -/
theorem bl_act (hJ : Stable n J) (hn : NoRelation env n) (hu : PlainUnions env) (hset : ∀ v, Kp' N (setAttr env b n v)) {m : Nat} {a : Act}
    (ha : a.Leaves b n) : Kp' N (a.run env m) := by
  cases a with
  | op i o =>
    cases o with
    | set k v =>
      by_cases h : i = b ∧ k = n
      · obtain ⟨rfl, rfl⟩ := h; exact hset v
      · exact bl_setAttr hJ hn (fun hi hm => h ⟨hi, hm⟩) v
    | lst k op => exact bl_run hJ hn (op := .lst k op) ha
    | dct k op => exact bl_run hJ hn (op := .dct k op) ha
  | set i kvs => exact wk_setDict (W := blindWalk env hJ hn hset) (wk_instOps hu m) i kvs false
  | update i kvs =>
    intro w hw
    simp only [Act.run, apiUpdate]
    split
    · exact ⟨(wk_setAll (W := blindWalk env hJ hn hset) i kvs w hw).1, fun _ _ => trivial⟩
    · exact ⟨hw, fun _ _ => trivial⟩
  | new cls kvs =>
    exact Wk.bind (W := blindWalk env hJ hn hset) (wk_newObj (wk_instOps hu m) cls kvs) (fun _ => Wk.pure ())

/-- the previous value is recorded and the field reported, or nothing happened to it -/
def HeldBack (c n : String) (v : Val) (o : Obj) : Prop :=
  o.cls = c ∧ o.isNew = false ∧ ((recorded n o.prev = [(n, v)] ∧ n ∈ o.modFields ∧ o.isModified = true) ∨
    (recorded n o.prev = [] ∧ o.attrs n = v ∧ n ∉ o.modFields))

theorem heldBack_stable (c n : String) (v : Val) : Stable n (HeldBack c n v) := by
  rintro o o' ⟨h1, h2, h3, h4, h5, h6⟩ ⟨hc, hn, h⟩
  refine ⟨h2.trans hc, h3.trans hn, ?_⟩
  rcases h with ⟨k1, k2, k3⟩ | ⟨k1, k2, k3⟩
  · exact .inl ⟨h5.trans k1, h4.mpr k2, h6 k3⟩
  · exact .inr ⟨h5.trans k1, h1.trans k2, fun hc => k3 (h4.mp hc)⟩

/-- an assignment to the field itself -/
theorem heldBack_set {c : String} {v : Val} (hn : NoRelation env n) (hk : KeepsPrevious env c n) (x : Val) :
    Kp' (AtObj (HeldBack c n v) b) (setAttr env b n x) := by
  obtain ⟨f, hf, hr⟩ := hk
  have hm := field_found hf
  have hnr : f.isRef ≠ true := fun h => hn.1 (hm.2 ▸ relationName_self hm.1 h)
  have hl : (env.cls c).localKey? n = none := by
    cases h : (env.cls c).localKey? n with
    | none => rfl
    | some g => exact absurd (localKey_found h).2.2 (hn.2 c g (localKey_found h).1)
  intro w hw
  obtain ⟨hb, hc, hnew, h⟩ := hw
  have hcd : w.cdef env b = env.cls c := by unfold World.cdef; rw [hc]
  refine ⟨?_, fun _ _ => trivial⟩
  unfold setAttr
  rw [Py.bind_run, Py.get_run]
  simp only [hcd, hl, setField]
  cases env.fuel with
  | zero => exact ⟨hb, hc, hnew, h⟩
  | succ k =>
    show AtObj _ b (setBody env (runL env k) b n x w).2
    unfold setBody
    rw [Py.bind_run, Py.get_run]
    simp only [hcd, hf]
    split
    · exact ⟨hb, hc, hnew, h⟩
    · split
      · exact ⟨hb, hc, hnew, h⟩
      · rw [Py.bind_run]
        simp only [track, hcd, hr, hm.2, Bool.true_and]
        refine ⟨hb, ?_⟩
        simp only [rawSet, updObj, Py.modify, World.upd, if_true, hnew, Bool.false_eq_true, if_false]
        refine ⟨hc, rfl, .inl ⟨?_, ?_, rfl⟩⟩
        · show recorded n (if _ then _ else _) = _
          rw [recorded_get]
          rcases h with ⟨k1, -, -⟩ | ⟨k1, k2, -⟩
          · rw [k1]; exact k1
          · rw [k1, ← k2]
            simp only [List.head?_nil, Option.map_none, Option.isNone_none, if_true]
            simp only [recorded] at k1 ⊢
            simp [k1]
        · exact (mem_setAdd _ _ _).mpr (.inr rfl)

/-! ### Theorems -/

theorem recorded_nil {d : List (String × Val)} : recorded n d = [] ↔ dictGet d n = none := by
  rw [recorded_get]
  cases recorded n d <;> simp

/-- what holds after a program -/
theorem held_program (hu : PlainUnions env) {w w' : World} {b : Nat} {n : String} (h : ProgramOn env b n w w')
    (hn : NoRelation env n) {c : String} {v : Val} (hk : KeepsPrevious env c n) (hI : AtObj (HeldBack c n v) b w) :
    AtObj (HeldBack c n v) b w' := by
  induction h with
  | none => exact hI
  | more ha _ ih => exact ih (bl_act (heldBack_stable _ _ _) hn hu (fun x => heldBack_set hn hk x) ha _ hI).1

/-- **C88**. Take a persisted object and a field that belongs to no relation, has its previous
value recorded and is not modified. After any program that does not change a list or dict in the
field in place, and whose steps complete or raise: if the field is reported as modified, the
recorded previous value is the value it had, and the object counts as modified; if it is not reported, it has the value it had and
nothing is recorded for it. -/
theorem previous_value_kept (hu : PlainUnions env) {w w' : World} {b : Nat} {n : String} (h : ProgramOn env b n w w') (hb : b < w.next)
    (hn : NoRelation env n) (hk : KeepsPrevious env (w.heap b).cls n) (hnew : (w.heap b).isNew = false)
    (hm : n ∉ (w.heap b).modFields) (hp : dictGet (w.heap b).prev n = none) :
    (n ∈ (w'.heap b).modFields → dictGet (w'.heap b).prev n = some (w.attr b n) ∧ (w'.heap b).isModified = true) ∧
    (n ∉ (w'.heap b).modFields → w'.attr b n = w.attr b n ∧ dictGet (w'.heap b).prev n = none) ∧
    (w'.heap b).isNew = false ∧ (w'.heap b).cls = (w.heap b).cls := by
  obtain ⟨-, h1, h2, h3⟩ := held_program hu h hn hk (v := w.attr b n) ⟨hb, rfl, hnew, .inr ⟨recorded_nil.mpr hp, rfl, hm⟩⟩
  refine ⟨fun hm => ?_, fun hm => ?_, h2, h1⟩
  · rcases h3 with ⟨k1, -, k3⟩ | ⟨-, -, k3⟩
    · exact ⟨by rw [recorded_get, k1]; rfl, k3⟩
    · exact absurd hm k3
  · rcases h3 with ⟨-, k2, -⟩ | ⟨k1, k2, -⟩
    · exact absurd k2 hm
    · exact ⟨k2, recorded_nil.mp k1⟩

/-- **C88**. The primary key under which a persisted object is stored: after any program, whose
steps complete or raise, `_previous_id` is the primary key the object had when it was loaded. -/
theorem previous_id_kept (hu : PlainUnions env) {w w' : World} {b : Nat} {n : String} (h : ProgramOn env b n w w') (hb : b < w.next)
    (hid : (w.cdef env b).primary = some n) (hn : NoRelation env n) (hk : KeepsPrevious env (w.heap b).cls n)
    (hclean : Clean (w.heap b)) : previousId env w' b = .ok (w.id env b) := by
  obtain ⟨h0, h1, h2, h3⟩ := hclean
  obtain ⟨k1, k2, k3, k4⟩ := previous_value_kept hu h hb hn hk h0 (by rw [h2]; exact List.not_mem_nil) (by rw [h3]; rfl)
  have hcd : w'.cdef env b = w.cdef env b := by unfold World.cdef; rw [k4]
  unfold previousId World.id
  simp only [hcd, hid, k3, Bool.false_eq_true, if_false]
  by_cases hm : n ∈ (w'.heap b).modFields
  · obtain ⟨j1, j2⟩ := k1 hm
    simp [hm, j1, j2]
  · simp [hm, (k2 hm).1]

/-- the value is the same, or equal -/
def SameOrEqual (x y : Val) : Prop := y = x ∨ pyEq x y = true

theorem attr_stable (n : String) (x : Val) : Stable n (fun o => o.attrs n = x) := fun _ _ h hx => h.attr.trans hx

theorem attr_clear {x : Val} : Kp' (AtObj (fun o => o.attrs n = x) b) (updObj b (fun o => { o with isModified := false, modFields := [], prev := [] })) := by
  intro w hw
  refine ⟨⟨hw.1, ?_⟩, fun _ _ => trivial⟩
  simp only [updObj, Py.modify, World.upd, if_true]
  exact hw.2

/-- the loop of `reset` without entries for `n` -/
theorem resetLoop_other (hn : NoRelation env n) {x : Val} : ∀ es : List (String × Val), recorded n es = [] →
    Kp' (AtObj (fun o => o.attrs n = x) b) (resetLoop env b es)
  | [], _ => Kp.pure' ()
  | (k, v) :: es, h => by
    have hk : k ≠ n := by rintro rfl; simp [recorded] at h
    have hes : recorded n es = [] := by simpa [recorded, hk] using h
    unfold resetLoop
    exact (bl_setAttr (attr_stable n x) hn (fun _ => hk) v).bind' (fun _ => attr_clear.bind' (fun _ => resetLoop_other hn es hes))

/-- an assignment that completes assigns, or finds an equal value -/
theorem set_plain {c : String} {x : Val} {w w' : World} (hn : NoRelation env n) (hc : (w.heap b).cls = c)
    (hk : KeepsPrevious env c n) (hr : setAttr env b n x w = (.ok (), w')) : w'.next = w.next ∧ SameOrEqual x (w'.attr b n) := by
  obtain ⟨f, hf, hrec⟩ := hk
  have hm := field_found hf
  have hnr : f.isRef ≠ true := fun h => hn.1 (hm.2 ▸ relationName_self hm.1 h)
  have hl : (env.cls c).localKey? n = none := by
    cases h : (env.cls c).localKey? n with
    | none => rfl
    | some g => exact absurd (localKey_found h).2.2 (hn.2 c g (localKey_found h).1)
  have hcd : w.cdef env b = env.cls c := by unfold World.cdef; rw [hc]
  unfold setAttr at hr
  rw [Py.bind_run, Py.get_run] at hr
  simp only [hcd, hl, setField] at hr
  cases hfu : env.fuel with
  | zero => rw [hfu] at hr; cases hr
  | succ k =>
    rw [hfu] at hr
    change setBody env (runL env k) b n x w = _ at hr
    unfold setBody at hr
    rw [Py.bind_run, Py.get_run] at hr
    simp only [hcd, hf] at hr
    split at hr
    · cases hr
    · split at hr
      · rename_i he
        cases hr
        exact ⟨rfl, .inr he⟩
      · rw [Py.bind_run] at hr
        simp only [track] at hr
        cases hr
        exact ⟨rfl, .inl (by simp [World.upd, World.attr])⟩

/-- **C88** (with C33). After any program, also one that changes relations, a `reset()` that
completes gives the field the value it had when the object was loaded, or an equal one. -/
theorem reset_restores_field (hu : PlainUnions env) {w w₁ w₂ : World} {b : Nat} {n : String} (h : ProgramOn env b n w w₁) (hb : b < w.next)
    (hn : NoRelation env n) (hk : KeepsPrevious env (w.heap b).cls n) (hclean : Clean (w.heap b))
    (hr : apiReset env b w₁ = (.ok (), w₂)) : SameOrEqual (w.attr b n) (w₂.attr b n) := by
  obtain ⟨h0, h1, h2, h3⟩ := hclean
  obtain ⟨g1, g2, g3, g4⟩ := held_program hu h hn hk (v := w.attr b n)
    ⟨hb, rfl, h0, .inr ⟨by rw [h3]; rfl, rfl, by rw [h2]; exact List.not_mem_nil⟩⟩
  unfold apiReset at hr
  split at hr
  · cases hr
  · rename_i hres
    rw [if_neg (by rw [g3]; decide)] at hr
    clear hres
    rcases g4 with ⟨k1, -, -⟩ | ⟨k1, k2, -⟩
    · generalize (w₁.heap b).prev = es at hr k1
      generalize w.attr b n = v at k1 ⊢
      generalize (w.heap b).cls = c at hk g2
      clear h0 h1 h2 h3 hb h g3
      induction es generalizing w₁ with
      | nil => cases k1
      | cons e es ih =>
        obtain ⟨k, x⟩ := e
        unfold resetLoop at hr
        obtain ⟨_, w', e1, hr⟩ := bind_ok hr
        obtain ⟨_, w'', e2, hr⟩ := bind_ok hr
        by_cases hkn : k = n
        · subst hkn
          simp only [recorded, List.filter_cons, decide_true, if_true, List.cons.injEq, Prod.mk.injEq, true_and] at k1
          obtain ⟨rfl, hes⟩ := k1
          obtain ⟨n1, n2⟩ := set_plain hn g2 hk e1
          have i1 : AtObj (fun o => o.attrs k = w'.attr b k) b w' := ⟨by rw [n1]; exact g1, rfl⟩
          have i2 := (attr_clear w' i1).1
          rw [e2] at i2
          have i3 := (resetLoop_other hn es hes w'' i2).1
          rw [hr] at i3
          unfold SameOrEqual at n2 ⊢
          rw [show w₂.attr b k = w'.attr b k from i3.2]
          exact n2
        · have hes : recorded n es = [(n, v)] := by simpa [recorded, hkn] using k1
          have hs : Stable n (fun o => o.cls = c) := fun _ _ h hx => h.cls.trans hx
          have i1 := (show Kp' (AtObj (fun o => o.cls = c) b) (setAttr env b k x) from bl_setAttr hs hn (fun _ => hkn) x) w₁ ⟨g1, g2⟩ |>.1
          rw [e1] at i1
          cases e2
          refine ih (by exact i1.1) hr hes ?_
          simp only [World.upd, if_true]
          exact i1.2
    · have i1 : AtObj (fun o => o.attrs n = w.attr b n) b w₁ := ⟨g1, k2⟩
      have i2 := (resetLoop_other hn _ k1 w₁ i1).1
      rw [hr] at i2
      exact .inl i2.2

/-- **C88**. A new object has no other key than its own. -/
theorem previous_id_new {w : World} {b : Nat} (h : (w.heap b).isNew = true) : previousId env w b = .ok (w.id env b) := by
  unfold previousId; simp [h]

/-- **C88**. What `KeepsPrevious` asks of a primary key is what declaring it gives (C70): a row of
methods with `primary` in it, anywhere, makes the previous value be recorded. -/
theorem primary_keeps_previous {ms : List Meth} {d : FDef} (h : Describes ms d) (hp : Meth.primary ∈ ms) :
    d.primary = true ∧ d.hasReset = true := ⟨h.primary.mpr (.inl hp), h.tracked.mpr ⟨_, hp, rfl⟩⟩

end JC

namespace JC.KeyDemo

open JC
open JC.Demo (attrsOf reqStr optStr)

def fId : Field := { name := "id", jsonName := "id", hasReset := true, chain := [.leaf optStr] }
def fName : Field := { name := "name", jsonName := "name", chain := [.leaf reqStr] }
def fPosts : Field := { name := "posts", jsonName := "posts", store := .foreignKey, ftype := .list,
                        foreign := some ("Post", "author"), chain := [.listOf false .no [.instOf "Post" none]] }
def fAuthor : Field := { name := "author", jsonName := "author", store := .localKey, ftype := .inst, isInst := true, refName := "author_id",
                         jrefName := "authorId", foreign := some ("User", "posts"), chain := [.instOf "User" none] }
def user : ClassDef := { name := "User", primary := some "id", resetAllFields := true, fields := [fId, fName, fPosts] }
def post : ClassDef := { name := "Post", primary := some "id", fields := [fId, fName, fAuthor] }
def env : Env where
  cls := fun n => if n = "User" then user else if n = "Post" then post else {}
  pystr := fun v => match v with
    | .str s => s
    | _ => ""

/-- A persisted user with one post, and a second post of nobody. -/
def world : World where
  heap := fun i => match i with
    | 0 => { cls := "User", isNew := false, graph := 0, attrs := attrsOf [("id", .str "u"), ("name", .str "ann"), ("posts", .list [.obj 1])] }
    | 1 => { cls := "Post", isNew := false, graph := 0, attrs := attrsOf [("id", .str "p"), ("author", .obj 0), ("author_id", .str "u")] }
    | 2 => { cls := "Post", isNew := false, graph := 0, attrs := attrsOf [("id", .str "q")] }
    | _ => {}
  next := 3

theorem mem (c : String) : ∀ f ∈ (env.cls c).fields, f = fId ∨ f = fName ∨ f = fPosts ∨ f = fAuthor := by
  intro f hf
  simp only [env] at hf
  split at hf
  · simp only [user, List.mem_cons, List.not_mem_nil, or_false] at hf
    rcases hf with h | h | h <;> simp [h]
  · split at hf
    · simp only [post, List.mem_cons, List.not_mem_nil, or_false] at hf
      rcases hf with h | h | h <;> simp [h]
    · cases hf

theorem plain : PlainUnions env := by
  intro c f hf
  rcases mem c f hf with rfl | rfl | rfl | rfl <;> simp [fId, fName, fPosts, fAuthor, Mod.PlainUnionL, Mod.PlainUnion]

theorem noRel (n : String) (h : n = "id" ∨ n = "name") : NoRelation env n := by
  refine ⟨?_, fun c f hf => ?_⟩
  · rintro ⟨c, f, hf, hr, hn⟩
    rcases mem c f hf with rfl | rfl | rfl | rfl <;> rcases h with rfl | rfl <;> revert hr hn <;> decide +kernel
  · rcases mem c f hf with rfl | rfl | rfl | rfl <;> rcases h with rfl | rfl <;> decide +kernel

/-- `user.id = "v"`; `user.posts.append(post2)`; `user.posts.remove(None)`, which raises;
`user.set(id="w", name="bob")`; `user.posts.clear()`. -/
def acts : List Act := [.op 0 (.set "id" (.str "v")), .op 0 (.lst "posts" (.append (.obj 2))), .op 0 (.lst "posts" (.remove .none)),
  .set 0 [("id", .str "w"), ("name", .str "bob")], .op 0 (.lst "posts" .clear)]
def run : List Act → World → World
  | [], w => w
  | a :: as, w => run as (a.run env 3 w).2
def after : World := run acts world

theorem program : ProgramOn env 0 "id" world after := by
  refine .more (m := 3) (a := .op 0 (.set "id" (.str "v"))) trivial ?_
  refine .more (m := 3) (a := .op 0 (.lst "posts" (.append (.obj 2)))) (fun _ => by decide) ?_
  refine .more (m := 3) (a := .op 0 (.lst "posts" (.remove .none))) (fun _ => by decide) ?_
  refine .more (m := 3) (a := .set 0 [("id", .str "w"), ("name", .str "bob")]) trivial ?_
  refine .more (m := 3) (a := .op 0 (.lst "posts" .clear)) (fun _ => by decide) ?_
  exact .none _

/-- The key changes twice and the posts are unlinked: the hypotheses hold, and the previous key is
the first one. -/
example : after.id env 0 = .str "w" ∧ after.attr 0 "posts" = .list [] ∧ after.attr 1 "author" = .none ∧
    previousId env after 0 = .ok (.str "u") :=
  ⟨by rfl, by rfl, by rfl, previous_id_kept plain program (by decide) rfl (noRel _ (.inl rfl)) ⟨fId, rfl, rfl⟩ ⟨rfl, rfl, rfl, rfl⟩⟩

/-- `reset()` brings the key back, and the posts. -/
example : ∃ w₂, apiReset env 0 after = (.ok (), w₂) ∧ SameOrEqual (.str "u") (w₂.attr 0 "id") := by
  refine ⟨(apiReset env 0 after).2, ?_, ?_⟩
  · rfl
  · exact reset_restores_field plain program (by decide) (noRel _ (.inl rfl)) ⟨fId, rfl, rfl⟩ ⟨rfl, rfl, rfl, rfl⟩ (w₂ := (apiReset env 0 after).2) rfl

/-- A class whose primary key is not declared to have its previous value recorded: after a change
`_previous_id` raises. `types.primary` declares it. -/
def bareEnv : Env := { env with cls := fun _ => { name := "User", primary := some "name", fields := [fName] } }

theorem bare_key_raises :
    let w' := (setAttr bareEnv 0 "name" (.str "eve") world).2
    world.attr 0 "name" = .str "ann" ∧ w'.attr 0 "name" = .str "eve" ∧ previousId bareEnv w' 0 = .error .keyError := by
  refine ⟨rfl, by rfl, by rfl⟩

end JC.KeyDemo
