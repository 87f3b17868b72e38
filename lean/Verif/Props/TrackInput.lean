import Verif.Props.TrackLinks
import Verif.Props.BuildSym
import Verif.Props.ValidateComplete

/-
C74 for inputs: constructors, `set` and `update` report what they change of the objects that
existed before.
-/
namespace JC
variable {env : Env}

/-! ### Specification -/

mutual
/-- Alternatives of unions hold no object types. -/
def Mod.PlainUnion : Mod → Prop
  | .listOf _ _ item => Mod.PlainUnionL item
  | .dictOf _ item => Mod.PlainUnionL item
  | .union alts => Mod.ObjectlessA alts
  | _ => True
/-- the same for a chain -/
def Mod.PlainUnionL : List Mod → Prop
  | [] => True
  | m :: ms => m.PlainUnion ∧ Mod.PlainUnionL ms
end

/-- Alternatives of unions hold no object types, in all fields. -/
def PlainUnions (env : Env) : Prop := ∀ c, ∀ f ∈ (env.cls c).fields, Mod.PlainUnionL f.chain

/-- What a program does: assignments and methods of lists and dicts, `obj.set(**kwargs)`,
`obj.update(**kwargs)` and `cls(**kwargs)`. -/
inductive Act where
  | op (i : Nat) (o : FOp)
  | set (i : Nat) (kvs : List (String × Val))
  | update (i : Nat) (kvs : List (String × Val))
  | new (cls : String) (kvs : List (String × Val))

/-- running it; `n` bounds the nesting of objects in an input -/
def Act.run (env : Env) (n : Nat) : Act → Py World Unit
  | .op i o => o.run env i
  | .set i kvs => apiSet env n i kvs
  | .update i kvs => apiUpdate env i kvs
  | .new cls kvs => do let _ ← apiNew env n cls kvs; pure ()

/-- A program, all of whose steps complete. -/
inductive Program (env : Env) : World → World → Prop where
  | none (w) : Program env w w
  | more {w w₁ w₂ : World} {n : Nat} {a : Act} : (∀ i o, a = .op i o → o.Reports (w.cdef env i)) → a.run env n w = (.ok (), w₁) →
      Program env w₁ w₂ → Program env w w₂

/-! ### Proof -/

/-- A computation that completes reports what it changes of objects that existed before. -/
def TrN (env : Env) (n₀ : Nat) {α : Type} (m : Py World α) : Prop :=
  ∀ w x w', n₀ ≤ w.next → m w = (.ok x, w') → Tracks env (fun j => j < n₀) (fun _ _ => False) w w'

variable {n₀ : Nat}

section
variable {α β : Type}

theorem Tr0.toN {m : Py World α} (h : Tr0 env (fun j => j < n₀) m) : TrN env n₀ m := fun w x w' _ hr => h w x w' hr

theorem TrN.bind {m : Py World α} {k : α → Py World β} (hm : TrN env n₀ m) (hk : ∀ a, TrN env n₀ (k a)) : TrN env n₀ (m >>= k) := by
  intro w x w' hn h
  obtain ⟨a, w₁, h1, h2⟩ := bind_ok h
  have t := hm _ _ _ hn h1
  exact t.trans (hk a _ _ _ (Nat.le_trans hn t.next) h2)

theorem TrN.pure (a : α) : TrN env n₀ (Pure.pure a : Py World α) := Tr0.toN (Tr.pure a)
theorem TrN.raise (e : Exc) : TrN env n₀ (Py.raise e : Py World α) := Tr0.toN (Tr.raise e)
theorem TrN.get : TrN env n₀ (Py.get : Py World World) := Tr0.toN Tr.get
theorem TrN.read (f : World → Except Exc α) : TrN env n₀ (readW f) := Tr0.toN (Tr.read f)

theorem TrN.when {b : Bool} {m : Py World Unit} (h : TrN env n₀ m) : TrN env n₀ (pyWhen b m) := by
  unfold pyWhen
  cases b with
  | true => exact h
  | false => exact TrN.pure ()

/-- nothing of the objects is changed -/
theorem tracks_same {S : Nat → Prop} {ex : Nat → String → Prop} {w w' : World} (hh : ∀ j, S j → w'.heap j = w.heap j) (hn : w.next ≤ w'.next) :
    Tracks env S ex w w' := by
  refine ⟨?_, ?_, ?_, ?_, ?_, ?_, ?_, hn⟩ <;> intro j hj <;> (try unfold World.attr) <;> rw [hh j hj]
  · intro _ h; exact h
  · intro h; exact h
  · intro _ _ _ _ _ _ h; exact absurd rfl h
  · intro h; exact h
  · intro h; exact h

theorem TrN.same {m : Py World α} (h : ∀ w, (m w).2.heap = w.heap ∧ (m w).2.next = w.next) : TrN env n₀ m := by
  intro w x w' _ hr
  have := h w
  rw [hr] at this
  exact tracks_same (fun j _ => by rw [this.1]) (Nat.le_of_eq this.2.symm)

theorem TrN.modify {g : World → World} (h : ∀ w, (g w).heap = w.heap ∧ (g w).next = w.next) : TrN env n₀ (Py.modify g) := TrN.same h

/-- what changes no state -/
theorem TrN.still {m : Py World α} (h : ∀ u, Kp' (fun w => w = u) m) : TrN env n₀ m :=
  TrN.same (fun w => by have := (h w w rfl).1; simp only [] at this; rw [this]; exact ⟨rfl, rfl⟩)

theorem TrN.fresh {m : Py World α} (h : TrN env n₀ m) : TrN env n₀ (withFreshMarks m) := by
  intro w x w' hn hr
  unfold withFreshMarks at hr
  rcases hm : m { w with marks := [] } with ⟨r, w1⟩
  rw [hm] at hr
  cases hr
  have t := h { w with marks := [] } _ _ hn hm
  have t1 : Tracks env (fun j => j < n₀) (fun _ _ => False) w { w with marks := [] } := tracks_same (fun _ _ => rfl) (Nat.le_refl _)
  have t2 : Tracks env (fun j => j < n₀) (fun _ _ => False) w1 { w1 with marks := w.marks } := tracks_same (fun _ _ => rfl) (Nat.le_refl _)
  exact (t1.trans t).trans t2

end

theorem trN_alloc (cls : String) : TrN env n₀ (alloc env cls) := by
  intro w x w' hn hr
  cases hr
  refine tracks_same (fun j hj => ?_) (Nat.le_succ _)
  have : j ≠ w.next := by omega
  simp only [if_neg this]

theorem trN_setAttr (hd : SeparateNames env) (i : Nat) (n : String) (v : Val) : TrN env n₀ (setAttr env i n v) := (tr_setAttr hd i n v).toN

theorem trN_validate (n : Nat) (m : Mod) (c : Ctx) : TrN env n₀ ((m.den env (instOps env n)).validate c) :=
  TrN.same (fun w => by
    have := (sim_den_validate (simV_once (env := env) w n) m (Mod.all_of_forall (leafOnce w) m) c trivial w w (KOnce.self w)).2.2.2.1
    exact ⟨this.1, this.2.1⟩)

theorem trN_linkLocalKeys (hd : SeparateNames env) (b : Bool) (i : Nat) (n : String) (k : Val) : TrN env n₀ (linkLocalKeys env b i n k) := by
  unfold linkLocalKeys
  refine TrN.get.bind (fun w => ?_)
  cases (w.cdef env i).field? n with
  | none => exact TrN.raise _
  | some f =>
    simp only []
    split
    · exact (trN_setAttr hd i _ _).when.bind (fun _ => (tr_listAppendAttr (lGood hd _) i _ _).toN)
    · split
      · exact TrN.pure ()
      · exact (tr_listRemoveAttr (uGood hd _) i _ _).toN

theorem trN_addLinkKey (b : Bool) (i : Nat) (n : String) (k : Val) : TrN env n₀ (addLinkKey b i n k) := by
  refine Tr0.toN (tr_quietUpd ?_ ?_ ?_ ?_ ?_) <;> intro o <;> split <;> rfl

theorem trN_specialHandle (hd : SeparateNames env) (sp : Special) (c : Ctx) (kvs : List (String × Val)) : TrN env n₀ (specialHandle env sp c kvs) := by
  unfold specialHandle
  have hgo : ∀ (b : Bool) (o : Nat) (n : String) (k : Val),
      TrN env n₀ (if sp = .localKeys then linkLocalKeys env b o n k else addLinkKey b o n k) := by
    intro b o n k
    split
    · exact trN_linkLocalKeys hd b o n k
    · exact trN_addLinkKey b o n k
  split
  · rename_i o fname _ _
    simp only []
    cases dictGet kvs "_add" with
    | some k => exact hgo true o fname k
    | none =>
      simp only []
      cases dictGet kvs "_del" with
      | some k => exact hgo false o fname k
      | none => exact TrN.pure ()
  · exact TrN.raise _

theorem trN_special (hd : SeparateNames env) (sp : Special) (c : Ctx) (k : Key) (v : Val) (act : Py World Unit)
    (h : (colEnv env sp).special c k v = some act) : TrN env n₀ act := by
  simp only [colEnv] at h
  cases v with
  | dict kvs =>
    simp only [] at h
    split at h
    · cases h; exact trN_specialHandle hd sp c kvs
    · cases h
  | _ => cases h

theorem trN_ownerConf (sp : Special) (c : Ctx) : TrN env n₀ ((colEnv env sp).ownerConf c) := by
  simp only [colEnv]
  cases c.owner with
  | none => exact TrN.raise _
  | some o => exact TrN.pure ()

theorem trN_colMapLoop {ce : ColEnv World} {b : Bool} {f : Ctx → Py World Val} {c : Ctx} (hs : ∀ k v act, ce.special c k v = some act → TrN env n₀ act)
    (hc : TrN env n₀ (ce.ownerConf c)) (hf : ∀ v k, TrN env n₀ (f (c.colval v k))) (es : List (Key × Val)) : TrN env n₀ (colMapLoop ce b f c es) := by
  induction es with
  | nil => exact TrN.pure _
  | cons e es ih =>
    obtain ⟨k, v⟩ := e
    unfold colMapLoop
    cases b with
    | true =>
      simp only [if_true]
      cases hsp : ce.special c k v with
      | some act => exact (hs k v act hsp).bind (fun _ => ih)
      | none => exact (hf v k).bind (fun x => hc.bind (fun _ => ih.bind (fun xs => TrN.pure _)))
    | false =>
      simp only [Bool.false_eq_true, if_false]
      exact (hf v k).bind (fun x => hc.bind (fun _ => ih.bind (fun xs => TrN.pure _)))

theorem trN_reduceM {f : Ops World → Val → Py World Val} (ms : List (Ops World)) (h : ∀ m ∈ ms, ∀ v, TrN env n₀ (f m v)) :
    ∀ v, TrN env n₀ (reduceM f ms v) := by
  induction ms with
  | nil => intro v; exact TrN.pure v
  | cons m ms ih => intro v; exact (h m (by simp) v).bind (fun v' => ih (fun m' h' => h m' (by simp [h'])) v')

mutual
theorem trN_den (hd : SeparateNames env) {n : Nat} (hv : ∀ cls st c, TrN env n₀ ((instOps env n cls st).transform c)) :
    ∀ (m : Mod), m.PlainUnion → ∀ c, TrN env n₀ ((m.den env (instOps env n)).transform c)
  | .eager, _, c => TrN.pure c.val
  | .pre, _, c => TrN.pure c.val
  | .leaf l, _, c => TrN.read _
  | .listOf nn sp item, h, c => by
    have hi := fun v k => trN_chain hd hv item h (c.colval v k)
    simp only [Mod.den, listOps]
    cases c.val with
    | none => cases nn <;> exact TrN.pure _
    | list xs => exact (trN_colMapLoop (fun k v act ha => trN_special hd sp c k v act ha) (trN_ownerConf sp c) hi _).bind (fun r => TrN.pure _)
    | _ => exact TrN.pure _
  | .dictOf nn item, h, c => by
    have hi := fun v k => trN_chain hd hv item h (c.colval v k)
    simp only [Mod.den, dictOps]
    cases c.val with
    | none => cases nn <;> exact TrN.pure _
    | dict xs =>
      exact (trN_colMapLoop (ce := { colEnv env .no with special := fun _ _ _ => Option.none }) (fun k v act ha => by cases ha)
        (trN_ownerConf (env := env) .no c) hi _).bind (fun r => TrN.pure _)
    | _ => exact TrN.pure _
  | .instOf cls st, _, c => hv cls st c
  | .union alts, h, c => by
    simp only [Mod.den, unionOps]
    split
    · exact TrN.pure _
    · exact TrN.still (fun u => still_union_transform (instOps_noMarks env n) alts h c.alterfdef)
theorem trN_chain (hd : SeparateNames env) {n : Nat} (hv : ∀ cls st c, TrN env n₀ ((instOps env n cls st).transform c)) :
    ∀ (ms : List Mod), Mod.PlainUnionL ms → ∀ c, TrN env n₀ ((chainOps (setParent env) (denL env (instOps env n) ms)).transform c)
  | ms, h, c => by
    simp only [chainOps, chainTransform]
    refine TrN.bind (trN_reduceM _ ?_ _) (fun v => trN_reduceM _ ?_ _)
    · rw [tvs_denL env _ (instOps_noMarks env n)]
      intro m hm v
      obtain ⟨m', h1, rfl⟩ := List.mem_map.1 hm
      unfold vt
      exact (trN_mem hd hv ms h m' (mem_tvsM h1) _).bind (fun r => (trN_validate n m' _).bind (fun _ => TrN.pure _))
    · rw [nvs_denL env _ (instOps_noMarks env n)]
      intro m hm v
      obtain ⟨m', h1, rfl⟩ := List.mem_map.1 hm
      exact trN_mem hd hv ms h m' (mem_nvsM h1) _
theorem trN_mem (hd : SeparateNames env) {n : Nat} (hv : ∀ cls st c, TrN env n₀ ((instOps env n cls st).transform c)) :
    ∀ (ms : List Mod), Mod.PlainUnionL ms → ∀ m ∈ ms, ∀ c, TrN env n₀ ((m.den env (instOps env n)).transform c)
  | m' :: ms, h, m, hm, c => by
    by_cases he : m = m'
    · rw [he]
      exact trN_den hd hv m' h.1 c
    · refine trN_mem hd hv ms h.2 m ?_ c
      rcases List.mem_cons.1 hm with h' | h'
      · exact absurd h' he
      · exact h'
end

theorem trN_graphPutSelf (i : Nat) : TrN env n₀ (graphPutSelf env i) := by
  apply TrN.modify
  intro w
  split <;> exact ⟨rfl, rfl⟩

theorem trN_setDict {vis : Visitor} (hv : ∀ cls st c, TrN env n₀ ((vis cls st).transform c)) (i : Nat) (kvs : List (String × Val)) (b : Bool) :
    TrN env n₀ (setDict vis i kvs b) :=
  TrN.get.bind (fun _ => (hv _ _ _).fresh.bind (fun _ => TrN.pure ()))

theorem trN_newObj {vis : Visitor} (hv : ∀ cls st c, TrN env n₀ ((vis cls st).transform c)) (cls : String) (kvs : List (String × Val)) :
    TrN env n₀ (newObj env vis cls kvs) := by
  unfold newObj
  split
  · exact TrN.raise _
  · exact (trN_alloc cls).bind (fun i => (trN_setDict hv i kvs true).bind (fun _ => (trN_graphPutSelf i).bind (fun _ => TrN.pure i)))

theorem trN_findDest {vis : Visitor} (hv : ∀ cls st c, TrN env n₀ ((vis cls st).transform c)) (cls : String) (c : Ctx) (kvs : List (String × Val)) :
    TrN env n₀ (findDest env vis cls c kvs) := by
  have hp : ∀ pk o, TrN env n₀ (Py.modify (fun w => w.markPutp env pk o)) := fun pk o => TrN.modify (fun w => ⟨rfl, rfl⟩)
  unfold findDest
  simp only []
  split
  · exact (hp _ _).when.bind (fun _ => TrN.pure _)
  · split
    · refine (trN_newObj hv cls []).bind (fun i => (TrN.modify (g := fun w => w.markPut env i) (fun w => ?_)).bind (fun _ => TrN.pure _))
      unfold World.markPut
      split <;> exact ⟨rfl, rfl⟩
    · refine TrN.get.bind (fun w => ?_)
      split
      · exact TrN.pure _
      · exact (trN_newObj hv cls []).bind (fun i => (hp _ i).bind (fun _ => TrN.pure _))

theorem trN_fillDefault (hd : SeparateNames env) {ops : Field → Ops World} {f : Field} (hv : ∀ c, TrN env n₀ ((ops f).transform c)) (c : Ctx)
    (dest : Nat) : TrN env n₀ (fillDefault env ops c dest f) := by
  unfold fillDefault
  split
  · exact trN_setAttr hd _ _ _
  · exact TrN.get.bind (fun _ => (TrN.read _).bind (fun _ => (hv _).bind (fun _ => trN_setAttr hd _ _ _)))

theorem trN_setRefKey (hd : SeparateNames env) (dest : Nat) (r : String) (kvs : List (String × Val)) (k : String) :
    TrN env n₀ (setRefKey env dest r kvs k) := by
  unfold setRefKey
  split
  · exact TrN.pure ()
  · exact trN_setAttr hd _ _ _

theorem trN_transformField (hd : SeparateNames env) {ops : Field → Ops World} {f : Field} (hv : ∀ c, TrN env n₀ ((ops f).transform c)) (c : Ctx)
    (dest : Nat) (soft : Bool) (kvs : List (String × Val)) : TrN env n₀ (transformField env ops c dest soft kvs f) := by
  unfold transformField
  split
  · unfold presentField
    refine (TrN.read _).bind (fun cur => ?_)
    split
    · exact TrN.get.bind (fun _ => (TrN.read _).bind (fun _ => (hv _).bind (fun _ => (trN_setAttr hd _ _ _).when)))
    · split
      · exact trN_fillDefault hd hv c dest
      · exact TrN.pure ()
  · unfold absentField
    split
    · split
      · exact (trN_setRefKey hd _ _ _ _).bind (fun _ => trN_setRefKey hd _ _ _ _)
      · exact TrN.pure ()
    · split
      · exact trN_fillDefault hd hv c dest
      · exact TrN.pure ()

theorem trN_transformFields (hd : SeparateNames env) {ops : Field → Ops World} (c : Ctx) (dest : Nat) (soft : Bool) (kvs : List (String × Val))
    (fs : List Field) (hv : ∀ f ∈ fs, ∀ c, TrN env n₀ ((ops f).transform c)) : TrN env n₀ (transformFields env ops c dest soft kvs fs) := by
  induction fs with
  | nil => exact TrN.pure ()
  | cons f fs ih => exact (trN_transformField hd (hv f (by simp)) c dest soft kvs).bind (fun _ => ih (fun g hg => hv g (by simp [hg])))

theorem trN_fillRefLists (hd : SeparateNames env) (dest : Nat) (ns : List String) : TrN env n₀ (fillRefLists env dest ns) := by
  induction ns with
  | nil => exact TrN.pure ()
  | cons n ns ih => exact (TrN.read _).bind (fun _ => (trN_setAttr hd _ _ _).when.bind (fun _ => ih))

theorem trN_applyDict (hd : SeparateNames env) {ops : Field → Ops World} (hv : ∀ cls, ∀ f ∈ (env.cls cls).fields, ∀ c, TrN env n₀ ((ops f).transform c))
    (cls : String) (st : Option Bool) (c : Ctx) (dest : Nat) (soft : Bool) (kvs : List (String × Val)) :
    TrN env n₀ (applyDict env ops cls st c dest soft kvs) := by
  unfold applyDict
  exact TrN.get.bind (fun w => (TrN.read _).when.bind (fun _ => (trN_transformFields hd c dest soft kvs _ (hv _)).bind
    (fun _ => trN_fillRefLists hd dest _)))

theorem trN_instOps (hd : SeparateNames env) (hu : PlainUnions env) (n : Nat) : ∀ cls st c, TrN env n₀ ((instOps env n cls st).transform c) := by
  induction n with
  | zero => exact fun _ _ _ => TrN.raise _
  | succ n ih =>
    intro cls st c
    simp only [instOps, instTransform]
    cases c.val with
    | none => exact TrN.pure _
    | dict kvs =>
      exact (trN_findDest ih cls c kvs).bind (fun d => (trN_applyDict hd (fun cls f hf c => trN_chain hd ih f.chain (hu cls f hf) c) cls st c d.1 d.2 kvs).bind
        (fun _ => TrN.pure _))
    | _ => exact TrN.pure _

theorem trN_setAll (hd : SeparateNames env) (i : Nat) (kvs : List (String × Val)) : TrN env n₀ (setAll env i kvs) := by
  induction kvs with
  | nil => exact TrN.pure ()
  | cons kv kvs ih => exact (trN_setAttr hd _ _ _).bind (fun _ => ih)

theorem tracks_act (hd : SeparateNames env) (hu : PlainUnions env) {n : Nat} {a : Act} {w w' : World} (hn : n₀ ≤ w.next)
    (ha : ∀ i o, a = .op i o → o.Reports (w.cdef env i)) (hr : a.run env n w = (.ok (), w')) :
    Tracks env (fun j => j < n₀) (fun _ _ => False) w w' := by
  cases a with
  | op i o => exact tr_op hd (ha i o rfl) hr
  | set i kvs => exact trN_setDict (trN_instOps hd hu n) i kvs false w () w' hn hr
  | update i kvs =>
    simp only [Act.run, apiUpdate] at hr
    split at hr
    · exact trN_setAll hd i kvs w () w' hn hr
    · cases hr
  | new cls kvs => exact (trN_newObj (trN_instOps hd hu n) cls kvs).bind (fun _ => TrN.pure ()) w () w' hn hr

theorem tracks_program (hd : SeparateNames env) (hu : PlainUnions env) {w w' : World} (h : Program env w w') :
    ∀ {n₀}, n₀ ≤ w.next → Tracks env (fun j => j < n₀) (fun _ _ => False) w w' := by
  induction h with
  | none w => intro _ _; exact Tracks.refl _
  | more ha hr _ ih => intro n₀ hn; have t := tracks_act hd hu hn ha hr; exact t.trans (ih (Nat.le_trans hn t.next))

/-- **C74**, all ways to change objects. After any program of assignments, list and dict methods,
`set`, `update` and constructors, all of which complete, every field of every object that was
persisted before and whose value or reference ids differ is in `modified_fields` under the
field's name, unless it is a relation to a single object that was cleared from the other side. -/
theorem program_changes_reported (hd : SeparateNames env) (hu : PlainUnions env) {w w' : World} (h : Program env w w') {j : Nat} (hj : j < w.next)
    (hn : (w.heap j).isNew = false) {f : Field} (hf : f ∈ (env.cls (w.heap j).cls).fields) {a : String} (ha : KeptIn f a)
    (hc : (w'.heap j).attrs a ≠ (w.heap j).attrs a) :
    f.name ∈ (w'.heap j).modFields ∨ ClearedFrom env (w'.heap j) a :=
  (tracks_program hd hu h (Nat.le_refl _)).report j hj hn f hf a ha id hc

/-- **C74**, `is_modified` over programs. It never turns False, no modified field is forgotten,
and it is True exactly when there are modified fields, except that it may be False while all of
them are single relations stored by reference id. -/
theorem program_modified_flag (hd : SeparateNames env) (hu : PlainUnions env) {w w' : World} (h : Program env w w') {j : Nat} (hj : j < w.next)
    (hw : (w.heap j).isModified = true ↔ (w.heap j).modFields ≠ []) :
    ((w'.heap j).isModified = true → (w'.heap j).modFields ≠ []) ∧
    (∀ n ∈ (w'.heap j).modFields, (w'.heap j).isModified = true ∨ SingleKey env n) ∧
    ((w.heap j).isModified = true → (w'.heap j).isModified = true) ∧ (∀ n ∈ (w.heap j).modFields, n ∈ (w'.heap j).modFields) ∧
    (w'.heap j).isNew = (w.heap j).isNew := by
  have t := tracks_program hd hu h (Nat.le_refl _)
  refine ⟨t.some j hj hw.1, t.known j hj (fun n hn => .inl (hw.2 ?_)), t.flag j hj, t.keep j hj, t.new j hj⟩
  intro h0; rw [h0] at hn; cases hn

end JC

namespace JC.TrackDemo

open JC

theorem plain : PlainUnions env := by
  intro c f hf
  rcases env_cases c with h | h | h | h <;> rw [h] at hf <;>
    simp only [art, tag, cover, List.mem_cons, List.not_mem_nil, or_false] at hf
  · rcases hf with rfl | rfl | rfl <;> simp [Demo.fId, fTags, fCover, Mod.PlainUnionL, Mod.PlainUnion]
  · rcases hf with rfl | rfl <;> simp [Demo.fId, fArts, Mod.PlainUnionL, Mod.PlainUnion]
  · rcases hf with rfl | rfl <;> simp [Demo.fId, fArt, Mod.PlainUnionL, Mod.PlainUnion]

/-- `Cover(id="c2", art=article)` and `article.set(tags=[{"id": "t7"}, tag2])`. -/
def act₁ : Act := .new "Cover" [("id", .str "c2"), ("art", .obj 0)]
def act₂ : Act := .set 0 [("tags", .list [.dict [("id", .str "t7")], .obj 2])]
def v₁ : World := (act₁.run env 3 world).2
def v₂ : World := (act₂.run env 3 v₁).2

theorem program : Program env world v₂ :=
  .more (n := 3) (a := act₁) (fun _ _ h => by cases h) (completes_eq (by decide +kernel))
    (.more (n := 3) (a := act₂) (fun _ _ h => by cases h) (completes_eq (r := act₂.run env 3 v₁) (by decide +kernel)) (.none _))

/-- a test for values of this program -/
def isVal : Val → Val → Bool
  | .obj i, .obj j => i == j
  | .list [], .list [] => true
  | .list [.str a, .str b], .list [.str c, .str d] => a == c && b == d
  | _, _ => false

theorem isVal_eq {v v' : Val} (h : isVal v v' = true) : v = v' := by
  unfold isVal at h
  split at h <;> simp_all

/-- The constructor gives the article another cover; the input replaces a tag by a new one. The
article reports both, the tag that was dropped reports its articles. -/
theorem program_changed : world.attr 0 "cover" = .obj 3 ∧ v₂.attr 0 "cover" = .obj 5 ∧ v₂.attr 0 "tag_ids" = .list [.str "t7", .str "t2"] ∧
    (v₂.heap 0).modFields = ["cover", "tags"] ∧ v₂.attr 1 "arts" = .list [] ∧ (v₂.heap 1).modFields = ["arts"] := by
  refine ⟨rfl, isVal_eq ?_, isVal_eq ?_, ?_, isVal_eq ?_, ?_⟩ <;> decide +kernel

/-- The hypotheses are met, on an object no step was called on. -/
example : fArts.name ∈ (v₂.heap 1).modFields ∨ ClearedFrom env (v₂.heap 1) "arts" :=
  program_changes_reported names plain program (by decide) rfl (f := fArts) (by simp [env, world, tag]) (.inl rfl) (by
    have h := program_changed.2.2.2.2.1
    unfold World.attr at h
    rw [h]
    simp [world, Demo.attrsOf, dictGet])
example := (program_modified_flag (j := 0) names plain program (Nat.zero_lt_succ 4) (by decide +kernel)).2.1

end JC.TrackDemo
