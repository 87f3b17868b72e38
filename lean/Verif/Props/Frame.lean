import Verif.Model.Methods
import Verif.Props.Sim

/-
Frame properties: what assignments and input handling leave alone. `Kp I m` says that the
computation `m` keeps the property `I` of the world; the lemmas below reduce this, for all
of the linking code and all of the input code, to a few primitive steps.
-/
namespace JC
variable {env : Env} {I : World → Prop} {α β : Type}

/-- `m` keeps `I`, and its results satisfy `Q`. -/
def Kp (I : World → Prop) (m : Py World α) (Q : α → Prop) : Prop :=
  ∀ w, I w → I (m w).2 ∧ ∀ a, (m w).1 = .ok a → Q a

/-- `m` keeps `I`. -/
abbrev Kp' (I : World → Prop) (m : Py World α) : Prop := Kp I m (fun _ => True)

theorem Kp.mono {m : Py World α} {Q R : α → Prop} (h : Kp I m Q) (hq : ∀ a, Q a → R a) : Kp I m R :=
  fun w hw => ⟨(h w hw).1, fun a ha => hq a ((h w hw).2 a ha)⟩

theorem Kp.weaken {m : Py World α} {Q : α → Prop} (h : Kp I m Q) : Kp' I m := h.mono (fun _ _ => trivial)

theorem Kp.pure {Q : α → Prop} {a : α} (h : Q a) : Kp I (pure a) Q :=
  fun w hw => ⟨hw, fun b hb => by simp only [Py.pure_run, Except.ok.injEq] at hb; subst hb; exact h⟩

theorem Kp.pure' (a : α) : Kp' I (Pure.pure a : Py World α) := Kp.pure trivial

theorem Kp.raise (e : Exc) {Q : α → Prop} : Kp I (Py.raise e) Q :=
  fun w hw => ⟨hw, fun b hb => by simp at hb⟩

theorem Kp.bind {m : Py World α} {f : α → Py World β} {Q : α → Prop} {R : β → Prop} (hm : Kp I m Q)
    (hf : ∀ a, Q a → Kp I (f a) R) : Kp I (m >>= f) R := by
  intro w hw
  obtain ⟨h1, h2⟩ := hm w hw
  rw [Py.bind_run]
  rcases h : m w with ⟨e | a, w'⟩
  · rw [h] at h1
    exact ⟨h1, fun b hb => by simp at hb⟩
  · rw [h] at h1 h2
    exact hf a (h2 a rfl) w' h1

theorem Kp.bind' {m : Py World α} {f : α → Py World β} {R : β → Prop} (hm : Kp' I m)
    (hf : ∀ a, Kp I (f a) R) : Kp I (m >>= f) R := hm.bind (fun a _ => hf a)

theorem Kp.get : Kp I (Py.get : Py World World) I := fun w hw => ⟨hw, fun a ha => by
  simp only [Py.get_run, Except.ok.injEq] at ha; subst ha; exact hw⟩

theorem Kp.read {f : World → Except Exc α} : Kp I (readW f) (fun a => ∃ w, I w ∧ f w = .ok a) :=
  fun w hw => ⟨hw, fun a ha => ⟨w, hw, ha⟩⟩

theorem Kp.read' {f : World → Except Exc α} : Kp' I (readW f) := Kp.read.weaken

theorem Kp.catchAll {m : Py World α} {h : Exc → Py World α} {Q : α → Prop} (hm : Kp I m Q) (hh : ∀ e, Kp I (h e) Q) :
    Kp I (m.catchAll h) Q := by
  intro w hw
  obtain ⟨h1, h2⟩ := hm w hw
  unfold Py.catchAll
  rcases hr : m w with ⟨e | a, w'⟩
  · rw [hr] at h1; exact hh e w' h1
  · rw [hr] at h1 h2; exact ⟨h1, h2⟩

theorem Kp.catchV {m : Py World α} {h : List (String × String) → Py World α} {Q : α → Prop} (hm : Kp I m Q)
    (hh : ∀ e, Kp I (h e) Q) : Kp I (m.catchV h) Q := by
  intro w hw
  obtain ⟨h1, h2⟩ := hm w hw
  unfold Py.catchV
  rcases hr : m w with ⟨e | a, w'⟩
  · rw [hr] at h1
    cases e with
    | validation msgs => exact hh msgs w' h1
    | _ => exact ⟨h1, fun a ha => by simp at ha⟩
  · rw [hr] at h1 h2; exact ⟨h1, h2⟩

theorem Kp.when {b : Bool} {m : Py World Unit} (h : b = true → Kp' I m) : Kp' I (pyWhen b m) := by
  unfold pyWhen
  split
  · rename_i hb; exact h hb
  · exact Kp.pure' ()

/-! ### The primitive steps of linking -/

/-- Names written by linking and unlinking: names of relation fields, of their opposite
fields, and reference keys. -/
def RelName (env : Env) (n : String) : Prop :=
  ∃ c f, f ∈ (env.cls c).fields ∧ ((f.isRef = true ∧ n = f.name) ∨ n = f.refName ∨
    (f.isRef = true ∧ ∃ of, env.foreignField f = some of ∧ n = of.name))

/-- the field is a relation field of some class -/
def RelField (env : Env) (f : Field) : Prop := ∃ c, f ∈ (env.cls c).fields ∧ f.isRef = true

/-- wherever a class declares a field under a relation name, that field is a relation -/
def RelNames (env : Env) : Prop := ∀ c n f, RelName env n → (env.cls c).field? n = some f → f.isRef = true

/-- no class has a relation stored by a local key -/
def NoLocalKeys (env : Env) : Prop := ∀ c f, f ∈ (env.cls c).fields → f.store ≠ .localKey

/-- What bookkeeping leaves alone on an object: class, values, whether it is new; and of new
objects the modified flag, the previous values (where relation names are relations) and the
names of modified fields (where there are no local keys). -/
def SameCore (env : Env) (o o' : Obj) : Prop :=
  o'.cls = o.cls ∧ o'.attrs = o.attrs ∧ o'.isNew = o.isNew ∧
    (o.isNew = true → o'.isModified = o.isModified ∧ (RelNames env → o'.prev = o.prev) ∧
      (NoLocalKeys env → o'.modFields = o.modFields))

/-- A step that changes bookkeeping only. -/
def QuietStep (env : Env) (w w' : World) : Prop :=
  w'.next = w.next ∧ w'.marks = w.marks ∧ ∀ j, SameCore env (w.heap j) (w'.heap j)

/-- `I` survives bookkeeping and writes to relation names. -/
structure LinkClosed (env : Env) (I : World → Prop) : Prop where
  quiet : ∀ w w', I w → QuietStep env w w' → I w'
  rel : ∀ w i n v, RelName env n → I w → I (rawSet i n v w).2

theorem SameCore.refl (o : Obj) : SameCore env o o := ⟨rfl, rfl, rfl, fun _ => ⟨rfl, fun _ => rfl, fun _ => rfl⟩⟩

theorem quiet_upd {w : World} {i : Nat} {g : Obj → Obj} (h : ∀ o, SameCore env o (g o)) : QuietStep env w (w.upd i g) := by
  refine ⟨rfl, rfl, fun j => ?_⟩
  simp only [World.upd]
  by_cases hj : j = i
  · subst hj; simp only [if_true]; exact h _
  · simp only [hj, if_false]; exact SameCore.refl _

theorem Kp.upd (C : LinkClosed env I) {i : Nat} {g : Obj → Obj} (h : ∀ o, SameCore env o (g o)) : Kp' I (updObj i g) :=
  fun w hw => ⟨C.quiet _ _ hw (quiet_upd h), fun _ _ => trivial⟩

theorem Kp.rawRel (C : LinkClosed env I) {i : Nat} {n : String} {v : Val} (h : RelName env n) : Kp' I (rawSet i n v) :=
  fun w hw => ⟨C.rel w i n v h hw, fun _ _ => trivial⟩

theorem kp_markModified (C : LinkClosed env I) (i : Nat) (n : String) : Kp' I (markModified i n) := by
  apply Kp.upd C
  intro o
  split
  · exact SameCore.refl o
  · rename_i h; exact ⟨rfl, rfl, rfl, fun h' => absurd h' h⟩

theorem kp_markLocalKey (C : LinkClosed env I) (i : Nat) (f : Field) : Kp' I (markLocalKey i f) := by
  apply Kp.upd C
  intro o
  split
  · rename_i h
    refine ⟨rfl, rfl, rfl, fun h' => ?_⟩
    simp [h'] at h
  · exact SameCore.refl o

theorem kp_addUnlinked (C : LinkClosed env I) (i : Nat) (n : String) (v : Val) : Kp' I (addUnlinked i n v) :=
  Kp.upd C (fun _ => ⟨rfl, rfl, rfl, fun _ => ⟨rfl, fun _ => rfl, fun _ => rfl⟩⟩)

theorem kp_delUnlinked (C : LinkClosed env I) (i : Nat) (n : String) (v : Val) : Kp' I (delUnlinked i n v) :=
  Kp.upd C (fun _ => ⟨rfl, rfl, rfl, fun _ => ⟨rfl, fun _ => rfl, fun _ => rfl⟩⟩)

theorem kp_track (C : LinkClosed env I) (i : Nat) (f : Field) : Kp' I (track env i f) := by
  intro w hw
  refine ⟨C.quiet _ _ hw (quiet_upd (fun o => ?_)), fun _ _ => trivial⟩
  split
  · exact SameCore.refl o
  · rename_i h; exact ⟨rfl, rfl, rfl, fun h' => absurd h' h⟩

theorem kp_willChange (C : LinkClosed env I) (b : Bool) (i : Nat) {n : String} (hn : RelName env n) : Kp' I (willChange env b i n) := by
  intro w hw
  refine ⟨?_, fun _ _ => trivial⟩
  simp only [willChange]
  cases hf : (w.cdef env i).field? n with
  | none => cases b <;> exact hw
  | some f =>
    simp only []
    split
    · rename_i h
      refine C.quiet _ _ hw (quiet_upd (fun _ => ⟨rfl, rfl, rfl, fun _ => ⟨rfl, fun hR => ?_, fun _ => rfl⟩⟩))
      simp [hR _ n f hn hf] at h
    · exact hw

theorem putSelf_heap (i : Nat) (w : World) : (putSelf env i w).heap = w.heap ∧ (putSelf env i w).next = w.next ∧
    (putSelf env i w).marks = w.marks := by
  unfold putSelf
  cases graphKey env w i with
  | error e => exact ⟨rfl, rfl, rfl⟩
  | ok k =>
    simp only []
    cases gLookup (w.graphs (w.heap i).graph) k <;> exact ⟨rfl, rfl, rfl⟩

theorem kp_linkGraph (C : LinkClosed env I) (i j : Nat) : Kp' I (linkGraph env i j) := by
  intro w hw
  refine ⟨?_, fun _ _ => trivial⟩
  obtain ⟨h1, h2, h3⟩ := putSelf_heap (env := env) i w
  have hp : I (putSelf env i w) := C.quiet _ _ hw ⟨h2, h3, fun j => by rw [h1]; exact SameCore.refl _⟩
  unfold linkGraph mergeGraphs
  generalize putSelf env i w = w₁ at hp
  split
  · exact hp
  · cases mergeLoop env w₁ ((w₁.graphs (w₁.heap j).graph).map Prod.snd) (w₁.graphs (w₁.heap i).graph) with
    | error e => exact hp
    | ok g =>
      refine C.quiet _ _ hp ⟨rfl, rfl, fun o => ?_⟩
      simp only []
      split
      · exact ⟨rfl, rfl, rfl, fun _ => ⟨rfl, fun _ => rfl, fun _ => rfl⟩⟩
      · exact SameCore.refl _

theorem kp_forItems {body : Val → Py World Unit} (h : ∀ x, Kp' I (body x)) (xs : List Val) : Kp' I (forItems xs body) := by
  induction xs with
  | nil => exact Kp.pure' ()
  | cons x xs ih => exact (h x).bind' (fun _ => ih)

/-! ### Unlinking -/

/-- what a command may be about -/
def UCmd.Ok (env : Env) : UCmd → Prop
  | .unlink _ f _ => RelField env f
  | .del _ _ _ => True

theorem relName_self {f : Field} (h : RelField env f) : RelName env f.name := by
  obtain ⟨c, h1, h2⟩ := h
  exact ⟨c, f, h1, .inl ⟨h2, rfl⟩⟩

theorem relName_ref {c : String} {f : Field} (h : f ∈ (env.cls c).fields) : RelName env f.refName := ⟨c, f, h, .inr (.inl rfl)⟩

theorem relName_foreign {f of : Field} (h : RelField env f) (ho : env.foreignField f = some of) : RelName env of.name := by
  obtain ⟨c, h1, h2⟩ := h
  exact ⟨c, f, h1, .inr (.inr ⟨h2, of, ho, rfl⟩)⟩

theorem foreignField_mem {f of : Field} (ho : env.foreignField f = some of) : ∃ c, of ∈ (env.cls c).fields := by
  unfold Env.foreignField at ho
  cases hf : f.foreign with
  | none => rw [hf] at ho; cases ho
  | some cn =>
    rw [hf] at ho
    exact ⟨cn.1, List.mem_of_find?_eq_some ho⟩

theorem field_mem {w : World} {i : Nat} {n : String} {f : Field} (h : (w.cdef env i).field? n = some f) :
    f ∈ (env.cls (w.heap i).cls).fields ∧ f.name = n :=
  ⟨List.mem_of_find?_eq_some h, by have := List.find?_some h; simpa using this⟩

theorem localKey_mem {w : World} {i : Nat} {n : String} {f : Field} (h : (w.cdef env i).localKey? n = some f) :
    f ∈ (env.cls (w.heap i).cls).fields ∧ f.store = .localKey ∧ f.refName = n := by
  refine ⟨List.mem_of_find?_eq_some h, ?_⟩
  have := List.find?_some h
  simpa using this

theorem isRef_localKey {f : Field} (h : f.store = .localKey) : f.isRef = true := by simp [Field.isRef, h]

theorem kp_listRemoveAttr (C : LinkClosed env I) {run : UCmd → Py World Unit} (hrun : ∀ c, c.Ok env → Kp' I (run c))
    {i : Nat} {n : String} {v : Val} (hn : RelName env n) : Kp' I (listRemoveAttr env run i n v) := by
  unfold listRemoveAttr
  refine Kp.get.bind (fun w _ => ?_)
  split
  · refine (kp_willChange C _ _ hn).bind' (fun _ => ?_)
    split
    · exact (Kp.rawRel C hn).bind' (fun _ => hrun (.del _ _ _) trivial)
    · exact Kp.raise _
  · exact Kp.raise _

theorem kp_unlinkKey (C : LinkClosed env I) {of : Field} (ho : ∃ c, of ∈ (env.cls c).fields) (j : Nat) : Kp' I (unlinkKey j of) := by
  obtain ⟨c, hc⟩ := ho
  unfold unlinkKey
  split
  · rename_i hs
    exact (Kp.rawRel C (relName_ref hc)).bind' (fun _ => Kp.upd C (fun _ =>
      ⟨rfl, rfl, rfl, fun _ => ⟨rfl, fun _ => rfl, fun hN => absurd hs (hN _ _ hc)⟩⟩))
  · exact Kp.pure' ()

theorem kp_unlinkOther (C : LinkClosed env I) {run : UCmd → Py World Unit} (hrun : ∀ c, c.Ok env → Kp' I (run c))
    {f of : Field} (hf : RelField env f) (ho : env.foreignField f = some of) (i : Nat) (item : Val) :
    Kp' I (unlinkOther env run i of item) := by
  have hn := relName_foreign hf ho
  unfold unlinkOther
  cases item with
  | obj j =>
    refine Kp.get.bind (fun w _ => ?_)
    cases of.ftype with
    | inst =>
      simp only []
      split
      · exact (Kp.rawRel C hn).bind' (fun _ => (kp_unlinkKey C (foreignField_mem ho) j).bind' (fun _ => kp_addUnlinked C _ _ _))
      · exact Kp.pure' ()
    | list =>
      simp only []
      cases w.attr j of.name with
      | list xs =>
        simp only []
        split
        · exact (kp_listRemoveAttr C hrun hn).bind' (fun _ => kp_addUnlinked C _ _ _)
        · exact Kp.pure' ()
      | _ => exact Kp.pure' ()
    | _ => exact Kp.pure' ()
  | _ => exact Kp.raise _

theorem kp_unlinkBody (C : LinkClosed env I) {run : UCmd → Py World Unit} (hrun : ∀ c, c.Ok env → Kp' I (run c))
    {f : Field} (hf : RelField env f) (i : Nat) (v : Val) : Kp' I (unlinkBody env run i f v) := by
  unfold unlinkBody
  cases ho : env.foreignField f with
  | none =>
    simp only []
    cases linkItems f v with
    | nil => exact Kp.pure' ()
    | cons x xs => exact kp_addUnlinked C _ _ _
  | some of =>
    exact kp_forItems (fun x => (kp_addUnlinked C _ _ _).bind' (fun _ => kp_unlinkOther C hrun hf ho i x)) _

theorem kp_delBody (C : LinkClosed env I) {run : UCmd → Py World Unit} (hrun : ∀ c, c.Ok env → Kp' I (run c))
    (i : Nat) (path : String) (v : Val) : Kp' I (delBody env run i path v) := by
  unfold delBody
  refine Kp.get.bind (fun w _ => ?_)
  cases hl : (w.cdef env i).localKey? path with
  | some f =>
    obtain ⟨hm, hs, _⟩ := localKey_mem hl
    simp only []
    unfold delLocal
    refine (kp_markLocalKey C _ _).bind' (fun _ => Kp.get.bind (fun w' _ => ?_))
    cases w'.attr i f.name with
    | list xs =>
      refine Kp.read'.bind' (fun n => ?_)
      split
      · refine Kp.read'.bind' (fun m => ?_)
        cases m with
        | some x => exact kp_listRemoveAttr C hrun (relName_self ⟨_, hm, isRef_localKey hs⟩)
        | none => exact Kp.pure' ()
      · exact Kp.pure' ()
    | _ => exact Kp.pure' ()
  | none =>
    simp only []
    refine Kp.bind' ?_ (fun _ => kp_markModified C _ _)
    unfold delRef
    cases hf : (w.cdef env i).field? path with
    | none => exact Kp.pure' ()
    | some f =>
      obtain ⟨hm, _⟩ := field_mem hf
      simp only []
      split
      · rename_i hr
        refine (hrun (.unlink _ _ _) (show RelField env f from ⟨_, hm, hr⟩)).bind' (fun _ => ?_)
        unfold delKey
        split
        · refine Kp.get.bind (fun w' _ => ?_)
          cases w'.attr i f.refName with
          | list ks =>
            refine Kp.read'.bind' (fun n => ?_)
            split
            · refine Kp.read'.bind' (fun k => ?_)
              split
              · exact kp_listRemoveAttr C hrun (relName_ref hm)
              · exact Kp.pure' ()
            · exact Kp.pure' ()
          | _ => exact Kp.raise _
        · exact Kp.pure' ()
      · exact Kp.pure' ()

theorem kp_runU (C : LinkClosed env I) : ∀ (n : Nat) (c : UCmd), c.Ok env → Kp' I (runU env n c) := by
  intro n
  induction n with
  | zero => intro c _; cases c <;> exact Kp.raise _
  | succ n ih =>
    intro c hc
    cases c with
    | unlink i f v => exact kp_unlinkBody C ih hc i v
    | del i p v => exact kp_delBody C ih i p v

/-! ### Linking -/

/-- what a command may be about -/
def LCmd.Ok (env : Env) : LCmd → Prop
  | .link _ f _ => RelField env f
  | .add _ _ _ _ => True
  | .set _ n _ => RelName env n

theorem kp_listAppendAttr (C : LinkClosed env I) {run : LCmd → Py World Unit} (hrun : ∀ c, c.Ok env → Kp' I (run c))
    {i : Nat} {n : String} {v : Val} (hn : RelName env n) : Kp' I (listAppendAttr env run i n v) := by
  unfold listAppendAttr
  refine Kp.get.bind (fun w _ => ?_)
  split
  · exact (kp_willChange C _ _ hn).bind' (fun _ => (Kp.rawRel C hn).bind' (fun _ => hrun (.add _ _ _ _) trivial))
  · exact Kp.raise _

theorem kp_linkSide (C : LinkClosed env I) {run : LCmd → Py World Unit} (hrun : ∀ c, c.Ok env → Kp' I (run c))
    {of : Field} (hn : RelName env of.name) (i j : Nat) : Kp' I (linkSide env run i of j) := by
  unfold linkSide
  refine Kp.get.bind (fun w _ => ?_)
  cases of.ftype with
  | inst =>
    simp only []
    split
    · exact Kp.pure' ()
    · exact (hrun (.set _ _ _) hn).bind' (fun _ => kp_delUnlinked C _ _ _)
  | list =>
    simp only []
    cases w.attr j of.name with
    | list xs =>
      simp only []
      split
      · exact Kp.pure' ()
      · exact (kp_listAppendAttr C hrun hn).bind' (fun _ => kp_delUnlinked C _ _ _)
    | _ => exact (hrun (.set _ _ _) hn).bind' (fun _ => kp_delUnlinked C _ _ _)
  | _ => exact Kp.pure' ()

theorem kp_linkBody (C : LinkClosed env I) {run : LCmd → Py World Unit} (hrun : ∀ c, c.Ok env → Kp' I (run c))
    {f : Field} (hf : RelField env f) (i : Nat) (v : Val) : Kp' I (linkBody env run i f v) := by
  unfold linkBody
  cases ho : env.foreignField f with
  | none =>
    simp only []
    cases linkItems f v with
    | nil => exact Kp.pure' ()
    | cons x xs => exact kp_delUnlinked C _ _ _
  | some of =>
    refine kp_forItems (fun x => (kp_delUnlinked C _ _ _).bind' (fun _ => ?_)) _
    unfold linkOther
    cases x with
    | obj j => exact (kp_linkSide C hrun (relName_foreign hf ho) i j).bind' (fun _ => kp_linkGraph C i j)
    | _ => exact Kp.raise _

theorem kp_addBody (C : LinkClosed env I) {run : LCmd → Py World Unit} (hrun : ∀ c, c.Ok env → Kp' I (run c))
    (i : Nat) (path : String) (idx : Int) (v : Val) : Kp' I (addBody env run i path idx v) := by
  unfold addBody
  refine Kp.get.bind (fun w _ => ?_)
  cases hl : (w.cdef env i).localKey? path with
  | some f => exact kp_markLocalKey C _ _
  | none =>
    simp only []
    refine Kp.bind' ?_ (fun _ => ?_)
    · unfold addRef
      cases hf : (w.cdef env i).field? path with
      | none => exact Kp.pure' ()
      | some f =>
        obtain ⟨hm, _⟩ := field_mem hf
        simp only []
        split
        · rename_i hr
          refine (hrun (.link _ _ _) (show RelField env f from ⟨_, hm, hr⟩)).bind' (fun _ => ?_)
          unfold addKey
          split
          · refine Kp.get.bind (fun w' _ => ?_)
            cases w'.attr i f.refName with
            | list ks =>
              refine Kp.read'.bind' (fun n => ?_)
              split
              · refine Kp.read'.bind' (fun k => ?_)
                split
                · exact Kp.raise _
                · exact (Kp.rawRel C (relName_ref hm)).bind' (fun _ => hrun (.add _ _ _ _) trivial)
              · exact Kp.pure' ()
            | _ => exact Kp.raise _
          · exact Kp.pure' ()
        · exact Kp.pure' ()
    · unfold addTail
      cases v with
      | list xs => exact (kp_runU C _ (.del ..) trivial).bind' (fun _ => hrun (.add _ _ _ _) trivial)
      | dict xs => exact (kp_runU C _ (.del ..) trivial).bind' (fun _ => hrun (.add _ _ _ _) trivial)
      | _ => exact kp_markModified C _ _

theorem kp_syncKey (C : LinkClosed env I) {f : Field} (hf : RelName env f.refName) (i : Nat) (v : Val) : Kp' I (syncKey env i f v) := by
  unfold syncKey
  split
  · exact Kp.pure' ()
  · split
    · exact Kp.rawRel C hf
    · exact Kp.get.bind (fun w _ => Kp.rawRel C hf)
    · exact Kp.rawRel C hf
    · exact Kp.read'.bind' (fun ks => Kp.rawRel C hf)
    · exact Kp.raise _
    · exact Kp.pure' ()

/-- assignment: what it writes itself is the one name -/
theorem kp_setBody (C : LinkClosed env I) {run : LCmd → Py World Unit} (hrun : ∀ c, c.Ok env → Kp' I (run c))
    {i : Nat} {n : String} {v : Val} (hn : Kp' I (rawSet i n v)) : Kp' I (setBody env run i n v) := by
  unfold setBody
  refine Kp.get.bind (fun w _ => ?_)
  cases hf : (w.cdef env i).field? n with
  | none => exact hn
  | some f =>
    obtain ⟨hm, _⟩ := field_mem hf
    simp only []
    split
    · exact Kp.raise _
    · split
      · exact Kp.pure' ()
      · refine (kp_track C _ _).bind' (fun _ => ?_)
        split
        · rename_i hr
          refine (kp_runU C _ (.unlink _ _ _) (show RelField env f from ⟨_, hm, hr⟩)).bind' (fun _ => hn.bind' (fun _ => ?_))
          exact (kp_syncKey C (relName_ref hm) i v).bind' (fun _ => hrun (.link _ _ _) (show RelField env f from ⟨_, hm, hr⟩))
        · exact hn

theorem kp_runL (C : LinkClosed env I) : ∀ (n : Nat) (c : LCmd), c.Ok env → Kp' I (runL env n c) := by
  intro n
  induction n with
  | zero => intro c _; cases c <;> exact Kp.raise _
  | succ n ih =>
    intro c hc
    cases c with
    | link i f v => exact kp_linkBody C ih hc i v
    | add i p k v => exact kp_addBody C ih i p k v
    | set i m v => exact kp_setBody C ih (Kp.rawRel C hc)

theorem kp_setField (C : LinkClosed env I) {i : Nat} {n : String} {v : Val} (hn : Kp' I (rawSet i n v)) :
    Kp' I (setField env i n v) := by
  unfold setField
  cases env.fuel with
  | zero => exact Kp.raise _
  | succ m => exact kp_setBody C (kp_runL C m) hn

/-- **Assignment**: apart from the assigned name, only relation names and bookkeeping
change, on any object. -/
theorem kp_setAttr (C : LinkClosed env I) {i : Nat} {n : String} {v : Val} (hn : Kp' I (rawSet i n v)) :
    Kp' I (setAttr env i n v) := by
  unfold setAttr
  refine Kp.get.bind (fun w _ => ?_)
  cases hl : (w.cdef env i).localKey? n with
  | none => exact kp_setField C hn
  | some f =>
    obtain ⟨hm, hs, _⟩ := localKey_mem hl
    have hr := relName_ref hm
    have hs' : RelName env f.name := relName_self ⟨_, hm, isRef_localKey hs⟩
    simp only []
    unfold setLocalKey
    refine Kp.get.bind (fun w' _ => ?_)
    split
    · exact Kp.pure' ()
    · refine Kp.bind' ?_ (fun _ => (kp_markModified C _ _).bind' (fun _ => Kp.rawRel C hr))
      unfold setLocalKeyField
      cases f.ftype with
      | inst => exact (Kp.rawRel C hr).bind' (fun _ => kp_setField C (Kp.rawRel C hs'))
      | list =>
        cases v with
        | none => exact (Kp.rawRel C hr).bind' (fun _ => kp_setField C (Kp.rawRel C hs'))
        | list ks => exact (Kp.rawRel C hr).bind' (fun _ => Kp.read'.bind' (fun xs => kp_setField C (Kp.rawRel C hs')))
        | _ => exact Kp.raise _
      | _ => exact Kp.pure' ()

/-- relation names can be assigned -/
theorem kp_setRel (C : LinkClosed env I) {i : Nat} {n : String} {v : Val} (hn : RelName env n) : Kp' I (setAttr env i n v) :=
  kp_setAttr C (Kp.rawRel C hn)

end JC
