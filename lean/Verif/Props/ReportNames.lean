import Verif.Props.InputWalk

/-
C78: what `modified_fields` names: stored fields of the object's class, and relations.
-/
namespace JC
variable {env : Env}

/-! ### Specification -/

/-- `n` is the name of a field of class `c` that holds a value. -/
def StoredIn (env : Env) (c n : String) : Prop := ∃ f ∈ (env.cls c).fields, f.name = n ∧ f.store ≠ .calculated

/-- `n` is the name of a relation of some class, or of the opposite of such a relation. -/
def RelationName (env : Env) (n : String) : Prop :=
  ∃ d, ∃ f ∈ (env.cls d).fields, f.isRef = true ∧ (n = f.name ∨ ∃ of, env.foreignField f = some of ∧ n = of.name)

/-- The modified fields of every object are stored fields of its class or relations. -/
def NamesFields (env : Env) (w : World) : Prop :=
  ∀ j, ∀ n ∈ (w.heap j).modFields, StoredIn env (w.heap j).cls n ∨ RelationName env n

/-- Methods are called on lists and dicts kept in stored fields, or on lists of reference ids; the
latter are not sorted or reversed. -/
def FOp.OnFields (cd : ClassDef) : FOp → Prop
  | .set _ _ => True
  | .lst n op => (∃ f ∈ cd.fields, f.name = n ∧ f.store ≠ .calculated) ∨
      ((cd.localKey? n).isSome = true ∧ op ≠ .reverse ∧ ∀ f e, op ≠ .sort f e)
  | .dct n _ => ∃ f ∈ cd.fields, f.name = n ∧ f.store ≠ .calculated

/-- A history of operations on any objects, completed or not. -/
inductive AnyHistory (env : Env) : World → World → Prop where
  | none (w) : AnyHistory env w w
  | more {w w' : World} {i : Nat} {op : FOp} : op.OnFields (w.cdef env i) → AnyHistory env (op.run env i w).2 w' → AnyHistory env w w'

/-- The name that reference ids of a field would have that is not kept as reference ids. -/
def NoKeyRef (env : Env) (c n : String) : Prop := ∃ f ∈ (env.cls c).fields, f.store ≠ .localKey ∧ n = f.refName

/-- the same for what programs do -/
def Act.OnFields (env : Env) (w : World) : Act → Prop
  | .op i o => o.OnFields (w.cdef env i)
  | _ => True

/-- A program, whose steps complete or not. -/
inductive AnyProgram (env : Env) : World → World → Prop where
  | none (w) : AnyProgram env w w
  | more {w w' : World} {n : Nat} {a : Act} : a.OnFields env w → AnyProgram env (a.run env n w).2 w' → AnyProgram env w w'

/-! ### Proof -/

/-- `n` may be in the modified fields of objects of class `c`; `X` are further names -/
def Nameable (env : Env) (X : String → String → Prop) (c n : String) : Prop := StoredIn env c n ∨ RelationName env n ∨ X c n

/-- the classes of objects are `K`, and the modified fields are as specified -/
def NamesK (env : Env) (X : String → String → Prop) (K : Nat → String) (w : World) : Prop :=
  ∀ j, (w.heap j).cls = K j ∧ ∀ n ∈ (w.heap j).modFields, Nameable env X (K j) n

/-- what the bookkeeping of object `i` may be told -/
def Markable (env : Env) (X : String → String → Prop) (c p : String) : Prop :=
  ((env.cls c).localKey? p).isSome = true ∨ Nameable env X c p

variable {X : String → String → Prop} {K : Nat → String}

local notation "N" => NamesK env X K

theorem setAdd_mem {n m : String} {xs : List String} (h : m ∈ setAdd n xs) : m ∈ xs ∨ m = n := by
  unfold setAdd at h
  split at h
  · exact .inl h
  · rcases List.mem_append.mp h with h | h
    · exact .inl h
    · exact .inr (by simpa using h)

theorem nk_upd {i : Nat} {g : Obj → Obj} (hc : ∀ o, (g o).cls = o.cls)
    (hm : ∀ o, ∀ n ∈ (g o).modFields, n ∈ o.modFields ∨ Nameable env X (K i) n) {w : World} (hw : N w) : N (w.upd i g) := by
  intro j
  simp only [World.upd]
  by_cases hj : j = i
  · subst hj
    simp only [if_true]
    refine ⟨by rw [hc]; exact (hw j).1, fun n hn => ?_⟩
    rcases hm _ n hn with h | h
    · exact (hw j).2 n h
    · exact h
  · simp only [hj, if_false]; exact hw j

theorem nk_updObj {i : Nat} {g : Obj → Obj} (hc : ∀ o, (g o).cls = o.cls)
    (hm : ∀ o, ∀ n ∈ (g o).modFields, n ∈ o.modFields ∨ Nameable env X (K i) n) : Kp' N (updObj i g) :=
  fun _ hw => ⟨nk_upd hc hm hw, fun _ _ => trivial⟩

theorem nk_rawSet (i : Nat) (n : String) (v : Val) : Kp' N (rawSet i n v) :=
  nk_updObj (fun _ => rfl) (fun _ _ h => .inl h)

theorem nk_addUnlinked (i : Nat) (n : String) (v : Val) : Kp' N (addUnlinked i n v) :=
  nk_updObj (fun _ => rfl) (fun _ _ h => .inl h)

theorem nk_delUnlinked (i : Nat) (n : String) (v : Val) : Kp' N (delUnlinked i n v) :=
  nk_updObj (fun _ => rfl) (fun _ _ h => .inl h)

theorem nk_markModified {i : Nat} {n : String} (h : Nameable env X (K i) n) : Kp' N (markModified i n) := by
  refine nk_updObj (fun o => by split <;> rfl) (fun o m hm => ?_)
  split at hm
  · exact .inl hm
  · rcases setAdd_mem hm with h' | h'
    · exact .inl h'
    · subst h'; exact .inr h

theorem nk_markLocalKey {i : Nat} {f : Field} (h : RelationName env f.name) : Kp' N (markLocalKey i f) := by
  refine nk_updObj (fun o => by split <;> rfl) (fun o m hm => ?_)
  split at hm
  · rcases setAdd_mem hm with h' | h'
    · exact .inl h'
    · subst h'; exact .inr (.inr (.inl h))
  · exact .inl hm

theorem nk_track {i : Nat} {f : Field} (h : StoredIn env (K i) f.name) : Kp' N (track env i f) := by
  intro w hw
  refine ⟨?_, fun _ _ => trivial⟩
  unfold track
  dsimp only
  refine nk_upd (fun o => by split <;> rfl) (fun o m hm => ?_) hw
  split at hm
  · exact .inl hm
  · rcases setAdd_mem hm with h' | h'
    · exact .inl h'
    · subst h'; exact .inr (.inl h)

theorem nk_willChange (b : Bool) (i : Nat) (n : String) : Kp' N (willChange env b i n) := by
  intro w hw
  refine ⟨?_, fun _ _ => trivial⟩
  simp only [willChange]
  cases hf : (w.cdef env i).field? n with
  | none => cases b <;> exact hw
  | some f =>
    simp only []
    split
    · dsimp only
      refine nk_upd ?_ ?_ hw
      · intro o; rfl
      · intro o m h; exact .inl h
    · exact hw

theorem nk_linkGraph (i j : Nat) : Kp' N (linkGraph env i j) := by
  intro w hw
  refine ⟨?_, fun _ _ => trivial⟩
  obtain ⟨h1, -, -⟩ := putSelf_heap (env := env) i w
  have hp : N (putSelf env i w) := by intro j; rw [h1]; exact hw j
  unfold linkGraph mergeGraphs
  generalize putSelf env i w = w₁ at hp
  split
  · exact hp
  · cases mergeLoop env w₁ ((w₁.graphs (w₁.heap j).graph).map Prod.snd) (w₁.graphs (w₁.heap i).graph) with
    | error e => exact hp
    | ok g =>
      intro o
      simp only []
      split
      · exact hp o
      · exact hp o

theorem relationName_self {c : String} {f : Field} (h : f ∈ (env.cls c).fields) (hr : f.isRef = true) : RelationName env f.name :=
  ⟨c, f, h, hr, .inl rfl⟩

theorem relationName_foreign {f of : Field} (h : RelField env f) (ho : env.foreignField f = some of) : RelationName env of.name := by
  obtain ⟨c, h1, h2⟩ := h
  exact ⟨c, f, h1, h2, .inr ⟨of, ho, rfl⟩⟩

/-- what a command may be about -/
def UCmd.Nok (env : Env) (X : String → String → Prop) (K : Nat → String) : UCmd → Prop
  | .unlink _ f _ => RelField env f
  | .del i p _ => Markable env X (K i) p

theorem nk_listRemoveAttr {run : UCmd → Py World Unit} (hrun : ∀ c, c.Nok env X K → Kp' N (run c))
    {i : Nat} {n : String} {v : Val} (hn : Markable env X (K i) n) : Kp' N (listRemoveAttr env run i n v) := by
  unfold listRemoveAttr
  refine Kp.get.bind (fun w _ => ?_)
  split
  · refine (nk_willChange _ _ _).bind' (fun _ => ?_)
    split
    · exact (nk_rawSet _ _ _).bind' (fun _ => hrun (.del _ _ _) hn)
    · exact Kp.raise _
  · exact Kp.raise _

theorem nk_unlinkKey {of : Field} (h : RelationName env of.name) (j : Nat) : Kp' N (unlinkKey j of) := by
  unfold unlinkKey
  split
  · refine (nk_rawSet _ _ _).bind' (fun _ => nk_updObj (fun _ => rfl) (fun o m hm => ?_))
    rcases setAdd_mem hm with h' | h'
    · exact .inl h'
    · subst h'; exact .inr (.inr (.inl h))
  · exact Kp.pure' ()

theorem nk_unlinkOther {run : UCmd → Py World Unit} (hrun : ∀ c, c.Nok env X K → Kp' N (run c))
    {f of : Field} (hf : RelField env f) (ho : env.foreignField f = some of) (i : Nat) (item : Val) :
    Kp' N (unlinkOther env run i of item) := by
  have hn := relationName_foreign hf ho
  unfold unlinkOther
  cases item with
  | obj j =>
    refine Kp.get.bind (fun w _ => ?_)
    cases of.ftype with
    | inst =>
      simp only []
      split
      · exact (nk_rawSet _ _ _).bind' (fun _ => (nk_unlinkKey hn j).bind' (fun _ => nk_addUnlinked _ _ _))
      · exact Kp.pure' ()
    | list =>
      simp only []
      cases w.attr j of.name with
      | list xs =>
        simp only []
        split
        · exact (nk_listRemoveAttr hrun (.inr (.inr (.inl hn)))).bind' (fun _ => nk_addUnlinked _ _ _)
        · exact Kp.pure' ()
      | _ => exact Kp.pure' ()
    | _ => exact Kp.pure' ()
  | _ => exact Kp.raise _

theorem nk_unlinkBody {run : UCmd → Py World Unit} (hrun : ∀ c, c.Nok env X K → Kp' N (run c))
    {f : Field} (hf : RelField env f) (i : Nat) (v : Val) : Kp' N (unlinkBody env run i f v) := by
  unfold unlinkBody
  cases ho : env.foreignField f with
  | none =>
    simp only []
    cases linkItems f v with
    | nil => exact Kp.pure' ()
    | cons x xs => exact nk_addUnlinked _ _ _
  | some of =>
    exact kp_forItems (fun x => (nk_addUnlinked _ _ _).bind' (fun _ => nk_unlinkOther hrun hf ho i x)) _

/-- the definition of a local key in a state with the classes `K` -/
theorem nk_localKey {w : World} (hw : N w) {i : Nat} {p : String} {f : Field} (h : (w.cdef env i).localKey? p = some f) :
    f ∈ (env.cls (K i)).fields ∧ f.store = .localKey ∧ f.refName = p := by
  have := localKey_mem h
  rw [(hw i).1] at this
  exact this

theorem nk_field {w : World} (hw : N w) {i : Nat} {p : String} {f : Field} (h : (w.cdef env i).field? p = some f) :
    f ∈ (env.cls (K i)).fields ∧ f.name = p := by
  have := field_mem h
  rw [(hw i).1] at this
  exact this

theorem localKey_isSome {cd : ClassDef} {f : Field} (h : f ∈ cd.fields) (hs : f.store = .localKey) : (cd.localKey? f.refName).isSome = true := by
  unfold ClassDef.localKey?
  rw [List.find?_isSome]
  exact ⟨f, h, by simp [hs]⟩

/-- a name that is markable and no local key -/
theorem Markable.plain {c p : String} (h : Markable env X c p) (hl : (env.cls c).localKey? p = none) : Nameable env X c p := by
  rcases h with h | h
  · rw [hl] at h; cases h
  · exact h

theorem nk_delBody {run : UCmd → Py World Unit} (hrun : ∀ c, c.Nok env X K → Kp' N (run c))
    (i : Nat) (path : String) (v : Val) (hp : Markable env X (K i) path) : Kp' N (delBody env run i path v) := by
  unfold delBody
  refine Kp.get.bind (fun w hw => ?_)
  cases hl : (w.cdef env i).localKey? path with
  | some f =>
    obtain ⟨hm, hs, _⟩ := nk_localKey hw hl
    have hr := relationName_self hm (isRef_localKey hs)
    simp only []
    unfold delLocal
    refine (nk_markLocalKey hr).bind' (fun _ => Kp.get.bind (fun w' _ => ?_))
    cases w'.attr i f.name with
    | list xs =>
      refine Kp.read'.bind' (fun n => ?_)
      split
      · refine Kp.read'.bind' (fun m => ?_)
        cases m with
        | some x => exact nk_listRemoveAttr hrun (.inr (.inr (.inl hr)))
        | none => exact Kp.pure' ()
      · exact Kp.pure' ()
    | _ => exact Kp.pure' ()
  | none =>
    have hl' : (env.cls (K i)).localKey? path = none := by rw [← (hw i).1]; exact hl
    simp only []
    refine Kp.bind' ?_ (fun _ => nk_markModified (hp.plain hl'))
    unfold delRef
    cases hf : (w.cdef env i).field? path with
    | none => exact Kp.pure' ()
    | some f =>
      obtain ⟨hm, _⟩ := nk_field hw hf
      simp only []
      split
      · rename_i hr
        refine (hrun (.unlink _ _ _) (show RelField env f from ⟨_, hm, hr⟩)).bind' (fun _ => ?_)
        unfold delKey
        split
        · rename_i hs
          refine Kp.get.bind (fun w' _ => ?_)
          cases w'.attr i f.refName with
          | list ks =>
            refine Kp.read'.bind' (fun n => ?_)
            split
            · refine Kp.read'.bind' (fun k => ?_)
              split
              · exact nk_listRemoveAttr hrun (.inl (localKey_isSome hm hs))
              · exact Kp.pure' ()
            · exact Kp.pure' ()
          | _ => exact Kp.raise _
        · exact Kp.pure' ()
      · exact Kp.pure' ()

theorem nk_runU : ∀ (n : Nat) (c : UCmd), c.Nok env X K → Kp' N (runU env n c) := by
  intro n
  induction n with
  | zero => intro c _; cases c <;> exact Kp.raise _
  | succ n ih =>
    intro c hc
    cases c with
    | unlink i f v => exact nk_unlinkBody ih hc i v
    | del i p v => exact nk_delBody ih i p v hc

/-- what a command may be about -/
def LCmd.Nok (env : Env) (X : String → String → Prop) (K : Nat → String) : LCmd → Prop
  | .link _ f _ => RelField env f
  | .add i p _ _ => Markable env X (K i) p
  | .set _ _ _ => True

theorem nk_listAppendAttr {run : LCmd → Py World Unit} (hrun : ∀ c, c.Nok env X K → Kp' N (run c))
    {i : Nat} {n : String} {v : Val} (hn : Markable env X (K i) n) : Kp' N (listAppendAttr env run i n v) := by
  unfold listAppendAttr
  refine Kp.get.bind (fun w _ => ?_)
  split
  · exact (nk_willChange _ _ _).bind' (fun _ => (nk_rawSet _ _ _).bind' (fun _ => hrun (.add _ _ _ _) hn))
  · exact Kp.raise _

theorem nk_linkSide {run : LCmd → Py World Unit} (hrun : ∀ c, c.Nok env X K → Kp' N (run c))
    {of : Field} (hn : RelationName env of.name) (i j : Nat) : Kp' N (linkSide env run i of j) := by
  unfold linkSide
  refine Kp.get.bind (fun w _ => ?_)
  cases of.ftype with
  | inst =>
    simp only []
    split
    · exact Kp.pure' ()
    · exact (hrun (.set _ _ _) trivial).bind' (fun _ => nk_delUnlinked _ _ _)
  | list =>
    simp only []
    cases w.attr j of.name with
    | list xs =>
      simp only []
      split
      · exact Kp.pure' ()
      · exact (nk_listAppendAttr hrun (.inr (.inr (.inl hn)))).bind' (fun _ => nk_delUnlinked _ _ _)
    | _ => exact (hrun (.set _ _ _) trivial).bind' (fun _ => nk_delUnlinked _ _ _)
  | _ => exact Kp.pure' ()

theorem nk_linkBody {run : LCmd → Py World Unit} (hrun : ∀ c, c.Nok env X K → Kp' N (run c))
    {f : Field} (hf : RelField env f) (i : Nat) (v : Val) : Kp' N (linkBody env run i f v) := by
  unfold linkBody
  cases ho : env.foreignField f with
  | none =>
    simp only []
    cases linkItems f v with
    | nil => exact Kp.pure' ()
    | cons x xs => exact nk_delUnlinked _ _ _
  | some of =>
    refine kp_forItems (fun x => (nk_delUnlinked _ _ _).bind' (fun _ => ?_)) _
    unfold linkOther
    cases x with
    | obj j => exact (nk_linkSide hrun (relationName_foreign hf ho) i j).bind' (fun _ => nk_linkGraph i j)
    | _ => exact Kp.raise _

theorem nk_addBody {run : LCmd → Py World Unit} (hrun : ∀ c, c.Nok env X K → Kp' N (run c))
    (i : Nat) (path : String) (idx : Int) (v : Val) (hp : Markable env X (K i) path) : Kp' N (addBody env run i path idx v) := by
  unfold addBody
  refine Kp.get.bind (fun w hw => ?_)
  cases hl : (w.cdef env i).localKey? path with
  | some f =>
    obtain ⟨hm, hs, _⟩ := nk_localKey hw hl
    exact nk_markLocalKey (relationName_self hm (isRef_localKey hs))
  | none =>
    have hl' : (env.cls (K i)).localKey? path = none := by rw [← (hw i).1]; exact hl
    simp only []
    refine Kp.bind' ?_ (fun _ => ?_)
    · unfold addRef
      cases hf : (w.cdef env i).field? path with
      | none => exact Kp.pure' ()
      | some f =>
        obtain ⟨hm, _⟩ := nk_field hw hf
        simp only []
        split
        · rename_i hr
          refine (hrun (.link _ _ _) (show RelField env f from ⟨_, hm, hr⟩)).bind' (fun _ => ?_)
          unfold addKey
          split
          · rename_i hs
            refine Kp.get.bind (fun w' _ => ?_)
            cases w'.attr i f.refName with
            | list ks =>
              refine Kp.read'.bind' (fun n => ?_)
              split
              · refine Kp.read'.bind' (fun k => ?_)
                split
                · exact Kp.raise _
                · exact (nk_rawSet _ _ _).bind' (fun _ => hrun (.add _ _ _ _) (.inl (localKey_isSome hm hs)))
              · exact Kp.pure' ()
            | _ => exact Kp.raise _
          · exact Kp.pure' ()
        · exact Kp.pure' ()
    · unfold addTail
      cases v with
      | list xs => exact (nk_runU _ (.del ..) hp).bind' (fun _ => hrun (.add _ _ _ _) hp)
      | dict xs => exact (nk_runU _ (.del ..) hp).bind' (fun _ => hrun (.add _ _ _ _) hp)
      | _ => exact nk_markModified (hp.plain hl')

theorem nk_syncKey (f : Field) (i : Nat) (v : Val) : Kp' N (syncKey env i f v) := by
  unfold syncKey
  split
  · exact Kp.pure' ()
  · split
    · exact nk_rawSet _ _ _
    · exact Kp.get.bind (fun w _ => nk_rawSet _ _ _)
    · exact nk_rawSet _ _ _
    · exact Kp.read'.bind' (fun ks => nk_rawSet _ _ _)
    · exact Kp.raise _
    · exact Kp.pure' ()

theorem nk_setBody {run : LCmd → Py World Unit} (hrun : ∀ c, c.Nok env X K → Kp' N (run c))
    (i : Nat) (n : String) (v : Val) : Kp' N (setBody env run i n v) := by
  unfold setBody
  refine Kp.get.bind (fun w hw => ?_)
  cases hf : (w.cdef env i).field? n with
  | none => exact nk_rawSet _ _ _
  | some f =>
    obtain ⟨hm, _⟩ := nk_field hw hf
    simp only []
    split
    · exact Kp.raise _
    · rename_i hc
      split
      · exact Kp.pure' ()
      · refine (nk_track ⟨f, hm, rfl, hc⟩).bind' (fun _ => ?_)
        split
        · rename_i hr
          refine (nk_runU _ (.unlink _ _ _) (show RelField env f from ⟨_, hm, hr⟩)).bind' (fun _ => (nk_rawSet _ _ _).bind' (fun _ => ?_))
          exact (nk_syncKey f i v).bind' (fun _ => hrun (.link _ _ _) (show RelField env f from ⟨_, hm, hr⟩))
        · exact nk_rawSet _ _ _

theorem nk_runL : ∀ (n : Nat) (c : LCmd), c.Nok env X K → Kp' N (runL env n c) := by
  intro n
  induction n with
  | zero => intro c _; cases c <;> exact Kp.raise _
  | succ n ih =>
    intro c hc
    cases c with
    | link i f v => exact nk_linkBody ih hc i v
    | add i p k v => exact nk_addBody ih i p k v hc
    | set i m v => exact nk_setBody ih i m v

theorem nk_setField (i : Nat) (n : String) (v : Val) : Kp' N (setField env i n v) := nk_runL _ (.set _ _ _) trivial

theorem nk_setAttr (i : Nat) (n : String) (v : Val) : Kp' N (setAttr env i n v) := by
  unfold setAttr
  refine Kp.get.bind (fun w hw => ?_)
  cases hl : (w.cdef env i).localKey? n with
  | none => exact nk_setField _ _ _
  | some f =>
    obtain ⟨hm, hs, _⟩ := nk_localKey hw hl
    have hr := relationName_self hm (isRef_localKey hs)
    simp only []
    unfold setLocalKey
    refine Kp.get.bind (fun w' _ => ?_)
    split
    · exact Kp.pure' ()
    · refine Kp.bind' ?_ (fun _ => (nk_markModified (.inr (.inl hr))).bind' (fun _ => nk_rawSet _ _ _))
      unfold setLocalKeyField
      cases f.ftype with
      | inst => exact (nk_rawSet _ _ _).bind' (fun _ => nk_setField _ _ _)
      | list =>
        cases v with
        | none => exact (nk_rawSet _ _ _).bind' (fun _ => nk_setField _ _ _)
        | list ks => exact (nk_rawSet _ _ _).bind' (fun _ => Kp.read'.bind' (fun xs => nk_setField _ _ _))
        | _ => exact Kp.raise _
      | _ => exact Kp.pure' ()

/-! #### Methods of lists and dicts -/

theorem nk_forEvs {ε : Type} {f : ε → Py World Unit} (xs : List ε) (h : ∀ e ∈ xs, Kp' N (f e)) : Kp' N (forEvs f xs) := by
  induction xs with
  | nil => exact Kp.pure' ()
  | cons x xs ih => exact (h x (by simp)).bind' (fun _ => ih (fun e he => h e (by simp [he])))

theorem nk_raiseOpt (e : Option Exc) : Kp' N (raiseOpt e) := by
  cases e with
  | none => exact Kp.pure' ()
  | some e => exact Kp.raise _

theorem nk_odictAdd {i : Nat} {n : String} (h : Nameable env X (K i) n) : ∀ (m : Nat) (v : Val), Kp' N (odictAdd i n m v) := by
  intro m
  induction m with
  | zero => intro v; exact Kp.raise _
  | succ m ih =>
    intro v
    cases v with
    | list xs => exact (nk_markModified h).bind' (fun _ => ih _)
    | dict xs => exact (nk_markModified h).bind' (fun _ => ih _)
    | _ => exact nk_markModified h

theorem nk_ownerLEv {i : Nat} {n : String} (hm : Markable env X (K i) n) {e : LEv Val} (hs : e = .sor → Nameable env X (K i) n) :
    Kp' N (ownerLEv env i n e) := by
  cases e with
  | will => exact nk_willChange _ _ _
  | add k v => exact nk_runL _ (.add _ _ _ _) hm
  | del v => exact nk_runU _ (.del _ _ _) hm
  | sor => exact nk_markModified (hs rfl)

theorem nk_ownerDEv {i : Nat} {n : String} (hm : Nameable env X (K i) n) (e : DEv Val) : Kp' N (ownerDEv env i n e) := by
  cases e with
  | will => exact nk_willChange _ _ _
  | add k v => exact nk_odictAdd hm _ _
  | del v => exact nk_markModified hm

theorem nk_run {i : Nat} {op : FOp} (ho : op.OnFields (env.cls (K i))) : Kp' N (op.run env i) := by
  cases op with
  | set n v => exact nk_setAttr i n v
  | lst n op =>
    have hm : Markable env X (K i) n := by
      rcases ho with h | h
      · exact .inr (.inl h)
      · exact .inl h.1
    have hs : ∀ {xs : List Val}, .sor ∈ (ownedOp pyEq op xs).log → Nameable env X (K i) n := by
      intro xs hx
      rcases ho with h | ⟨-, h1, h2⟩
      · exact .inl h
      · rcases sor_only hx with h | ⟨f, e, h⟩
        · exact absurd h h1
        · exact absurd h (h2 f e)
    show Kp' N (listOp env i n op)
    unfold listOp
    refine Kp.get.bind (fun w _ => ?_)
    split
    · rename_i xs _
      have hev : ∀ p : LEv Val → Bool, ∀ e ∈ (ownedOp pyEq op xs).log.filter p, Kp' N (ownerLEv env i n e) := fun p e he =>
        nk_ownerLEv hm (fun h => hs (by rw [← h]; exact (List.mem_filter.mp he).1))
      exact (nk_forEvs _ (hev _)).bind' (fun _ => (nk_rawSet _ _ _).bind' (fun _ => (nk_forEvs _ (hev _)).bind' (fun _ => nk_raiseOpt _)))
    · exact Kp.raise _
  | dct n op =>
    show Kp' N (dictOp env i n op)
    unfold dictOp
    refine Kp.get.bind (fun w _ => ?_)
    have hev : ∀ xs : List (DEv Val), ∀ e ∈ xs, Kp' N (ownerDEv env i n e) := fun _ e _ => nk_ownerDEv (.inl ho) e
    split
    · exact (nk_forEvs _ (hev _)).bind' (fun _ => (nk_rawSet _ _ _).bind' (fun _ => (nk_forEvs _ (hev _)).bind' (fun _ => nk_raiseOpt _)))
    · exact Kp.raise _

/-- the modified fields of every object are as specified or further names -/
def NamesX (env : Env) (X : String → String → Prop) (w : World) : Prop :=
  ∀ j, ∀ n ∈ (w.heap j).modFields, Nameable env X (w.heap j).cls n

theorem namesK_iff {w : World} (h : ∀ j, (w.heap j).cls = K j) : N w ↔ NamesX env X w :=
  ⟨fun hn j n hm => by rw [h j]; exact (hn j).2 n hm, fun hn j => ⟨h j, fun n hm => by rw [← h j]; exact hn j n hm⟩⟩

/-- for computations that keep the classes of objects -/
theorem NamesX.keep {α : Type} {m : Py World α} (h : ∀ K, Kp' (NamesK env X K) m) : Kp' (NamesX env X) m := by
  intro w hw
  have hk := (namesK_iff (env := env) (X := X) (K := fun j => (w.heap j).cls) (fun _ => rfl)).mpr hw
  have h' := (h _ w hk).1
  exact ⟨(namesK_iff (fun j => (h' j).1)).mp h', fun _ _ => trivial⟩

theorem names_run {w : World} (hw : NamesX env X w) {i : Nat} {op : FOp} (ho : op.OnFields (w.cdef env i)) :
    NamesX env X (op.run env i w).2 := by
  have hk := (namesK_iff (env := env) (X := X) (K := fun j => (w.heap j).cls) (fun _ => rfl)).mpr hw
  have h := (nk_run (env := env) (X := X) (K := fun j => (w.heap j).cls) (i := i) (op := op) ho w hk).1
  exact (namesK_iff (fun j => (h j).1)).mp h

theorem namesFields_iff {w : World} : NamesFields env w ↔ NamesX env (fun _ _ => False) w := by
  refine ⟨fun h j n hm => ?_, fun h j n hm => ?_⟩
  · rcases h j n hm with h | h
    · exact .inl h
    · exact .inr (.inl h)
  · rcases h j n hm with h | h | h
    · exact .inl h
    · exact .inr h
    · cases h

/-- inputs keep the specification -/
def namesWalk (env : Env) : Walk env where
  P := fun m => Kp' (NamesX env (NoKeyRef env)) m
  bind := fun hm hk => hm.bind' hk
  same := fun h w hw => ⟨by intro j; rw [(h w).1]; exact hw j, fun _ _ => trivial⟩
  fresh := fun h w hw => by
    have := (h { w with marks := [] } hw).1
    exact ⟨fun j => this j, fun _ _ => trivial⟩
  alloc := fun cls w hw => by
    refine ⟨fun j => ?_, fun _ _ => trivial⟩
    simp only [alloc]
    split
    · intro n hn; cases hn
    · exact hw j
  setAttr := fun i n v => NamesX.keep (fun K => nk_setAttr i n v)
  linkLocalKeys := fun b i n k => by
    refine NamesX.keep (fun K => ?_)
    unfold linkLocalKeys
    refine Kp.get.bind (fun w hw => ?_)
    cases hf : (w.cdef env i).field? n with
    | none => exact Kp.raise _
    | some f =>
      obtain ⟨hm, -⟩ := nk_field hw hf
      have hk : Markable env (NoKeyRef env) (K i) f.refName := by
        by_cases hs : f.store = .localKey
        · exact .inl (localKey_isSome hm hs)
        · exact .inr (.inr (.inr ⟨f, hm, hs, rfl⟩))
      simp only []
      split
      · exact (Kp.when (fun _ => nk_setAttr _ _ _)).bind' (fun _ => nk_listAppendAttr (nk_runL _) hk)
      · split
        · exact Kp.pure' ()
        · exact nk_listRemoveAttr (nk_runU _) hk
  addLinkKey := fun b i n k => NamesX.keep (fun K => nk_updObj (fun o => by split <;> rfl) (fun o m hm => by split at hm <;> exact .inl hm))

theorem names_act (hu : PlainUnions env) {n : Nat} {a : Act} {w : World} (ha : a.OnFields env w) (hw : NamesX env (NoKeyRef env) w) :
    NamesX env (NoKeyRef env) (a.run env n w).2 := by
  cases a with
  | op i o => exact names_run hw ha
  | set i kvs => exact (wk_setDict (W := namesWalk env) (wk_instOps hu n) i kvs false w hw).1
  | update i kvs =>
    simp only [Act.run, apiUpdate]
    split
    · exact (wk_setAll (W := namesWalk env) i kvs w hw).1
    · exact hw
  | new cls kvs =>
    exact (Wk.bind (W := namesWalk env) (wk_newObj (wk_instOps hu n) cls kvs) (fun _ => Wk.pure ()) w hw).1

/-! ### Theorems -/

/-- **C78**. Whatever assignments and methods of lists and dicts are called on whatever objects,
completed or not: everything in `modified_fields` of an object is the name of a stored field of
the object's class or of a relation. Never an attribute that is no field, nor the name under which
reference ids are kept. -/
theorem modified_fields_name_fields {w w' : World} (h : AnyHistory env w w') (hw : NamesFields env w) : NamesFields env w' := by
  rw [namesFields_iff] at hw ⊢
  induction h with
  | none => exact hw
  | more ho _ ih => exact ih (names_run hw ho)

/-- **C78**, for all ways to change objects: assignments, methods of lists and dicts, `set`,
`update` and constructors, completed or not. The last case is about `_add` and `_del` commands,
which the model lets name any field; the code takes them for relations kept as reference ids. -/
theorem program_names_fields (hu : PlainUnions env) {w w' : World} (h : AnyProgram env w w') (hw : NamesFields env w) {j : Nat} {n : String}
    (hn : n ∈ (w'.heap j).modFields) : StoredIn env (w'.heap j).cls n ∨ RelationName env n ∨ NoKeyRef env (w'.heap j).cls n := by
  have hw' : NamesX env (NoKeyRef env) w := fun j n hm => by
    rcases hw j n hm with h | h
    · exact .inl h
    · exact .inr (.inl h)
  clear hw
  induction h with
  | none => exact hw' j n hn
  | more ha _ ih => exact ih hn (names_act hu ha hw')

/-- **C78**. The name of a calculated field never gets into `modified_fields`. -/
theorem calculated_not_modified (hu : PlainUnions env) {w w' : World} (h : AnyProgram env w w') (hw : NamesFields env w) {j : Nat} {f : Field}
    (hf : ∀ g ∈ (w'.cdef env j).fields, g.name = f.name → g = f) (hc : f.store = .calculated)
    (hr : ¬ RelationName env f.name) (hk : ∀ g ∈ (w'.cdef env j).fields, g.refName ≠ f.name) : f.name ∉ (w'.heap j).modFields := by
  intro hm
  rcases program_names_fields hu h hw hm with ⟨g, hg, hn, hs⟩ | h' | ⟨g, hg, -, hn⟩
  · exact hs (by rw [hf g hg hn]; exact hc)
  · exact hr h'
  · exact hk g hg hn.symm

end JC

namespace JC.TrackDemo

open JC

/-- nothing is reported at the start -/
theorem names_start : NamesFields env world := by
  intro j n hn
  have : (world.heap j).modFields = [] := by
    simp only [world]
    split <;> rfl
  rw [this] at hn
  cases hn

/-- The program of `TrackInput`, after which two objects have modified fields. -/
theorem any_program : AnyProgram env world v₂ :=
  .more (n := 3) (a := act₁) trivial (.more (n := 3) (a := act₂) trivial (.none _))

/-- The hypotheses are met, with modified fields at the end. -/
example : ∃ n, n ∈ (v₂.heap 1).modFields ∧ (StoredIn env (v₂.heap 1).cls n ∨ RelationName env n ∨ NoKeyRef env (v₂.heap 1).cls n) :=
  have h : "arts" ∈ (v₂.heap 1).modFields := by rw [program_changed.2.2.2.2.2]; simp
  ⟨"arts", h, program_names_fields plain any_program names_start h⟩

/-- `article.tag_ids.append("t9")` reports `tags`. -/
example : NamesFields env ((FOp.lst "tag_ids" (.append (.str "t9"))).run env 0 world).2 :=
  modified_fields_name_fields (.more (i := 0) (op := .lst "tag_ids" (.append (.str "t9"))) (.inr ⟨by decide +kernel, by simp, by simp⟩) (.none _))
    names_start

theorem no_field {c : String} {f : Field} (hf : f ∈ (env.cls c).fields) : f.name ≠ "tag_ids" := by
  rcases env_cases c with h | h | h | h <;> rw [h] at hf <;>
    simp only [art, tag, cover, List.mem_cons, List.not_mem_nil, or_false] at hf
  · rcases hf with rfl | rfl | rfl <;> simp [Demo.fId, fTags, fCover]
  · rcases hf with rfl | rfl <;> simp [Demo.fId, fArts]
  · rcases hf with rfl | rfl <;> simp [Demo.fId, fArt]

/-- **C78** fails for sorting: `article.tag_ids.reverse()` puts `tag_ids`, which is no field, into the
modified fields. -/
theorem reversed_ids_reported : (((FOp.lst "tag_ids" .reverse).run env 0 world).2.heap 0).modFields = ["tag_ids"] ∧
    ¬ StoredIn env "Art" "tag_ids" ∧ ¬ RelationName env "tag_ids" := by
  refine ⟨by decide +kernel, ?_, ?_⟩
  · rintro ⟨f, hf, hn, -⟩
    exact no_field hf hn
  · rintro ⟨d, f, hf, -, h | ⟨of, ho, h⟩⟩
    · exact no_field hf h.symm
    · obtain ⟨c, hc⟩ := foreignField_mem ho
      exact no_field hc h.symm

end JC.TrackDemo
