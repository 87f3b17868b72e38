import Verif.Props.Frame

/-
Frame properties of the input code: modifiers, `InstanceOfModifier.transform`, `set` and
the constructor.
-/
namespace JC
variable {env : Env} {I J : World → Prop} {P : Ctx → Prop} {q : String → Prop} {vis : Visitor} {α : Type}

/-! ### Which modifiers validate eagerly -/

mutual
/-- Every instance modifier that is validated eagerly, that is, before the last eager mark of
its chain, is about a class satisfying `q`. -/
def Mod.EagerAll (q : String → Prop) : Mod → Prop
  | .listOf _ _ item => Mod.AllL (fun _ => True) q (tvsM item) ∧ Mod.EagerAllL q item
  | .dictOf _ item => Mod.AllL (fun _ => True) q (tvsM item) ∧ Mod.EagerAllL q item
  | .union alts => Mod.EagerAllA q alts
  | _ => True
def Mod.EagerAllL (q : String → Prop) : List Mod → Prop
  | [] => True
  | m :: ms => m.EagerAll q ∧ Mod.EagerAllL q ms
def Mod.EagerAllA (q : String → Prop) : List (List Mod) → Prop
  | [] => True
  | a :: as => (Mod.AllL (fun _ => True) q (tvsM a) ∧ Mod.EagerAllL q a) ∧ Mod.EagerAllA q as
end

/-- the same for a chain -/
def EagerChain (q : String → Prop) (ms : List Mod) : Prop := Mod.AllL (fun _ => True) q (tvsM ms) ∧ Mod.EagerAllL q ms

theorem Mod.EagerAllL_iff {ms : List Mod} : Mod.EagerAllL q ms ↔ ∀ m ∈ ms, m.EagerAll q := by
  induction ms with
  | nil => simp [Mod.EagerAllL]
  | cons m ms ih => simp [Mod.EagerAllL, ih]

theorem Mod.EagerAllA_iff {as : List (List Mod)} : Mod.EagerAllA q as ↔ ∀ a ∈ as, EagerChain q a := by
  induction as with
  | nil => simp [Mod.EagerAllA]
  | cons a as ih => simp [Mod.EagerAllA, ih, EagerChain]

mutual
theorem Mod.eagerAll_of_forall (hq : ∀ c, q c) : ∀ m : Mod, m.EagerAll q
  | .eager => trivial
  | .pre => trivial
  | .leaf _ => trivial
  | .listOf _ _ item => ⟨Mod.AllL.mono (fun _ _ => trivial) (fun c _ => hq c) _ (Mod.allL_of_forall (fun _ => trivial) _), Mod.eagerAllL_of_forall hq item⟩
  | .dictOf _ item => ⟨Mod.AllL.mono (fun _ _ => trivial) (fun c _ => hq c) _ (Mod.allL_of_forall (fun _ => trivial) _), Mod.eagerAllL_of_forall hq item⟩
  | .instOf _ _ => trivial
  | .union alts => Mod.eagerAllA_of_forall hq alts
theorem Mod.eagerAllL_of_forall (hq : ∀ c, q c) : ∀ ms : List Mod, Mod.EagerAllL q ms
  | [] => trivial
  | m :: ms => ⟨Mod.eagerAll_of_forall hq m, Mod.eagerAllL_of_forall hq ms⟩
theorem Mod.eagerAllA_of_forall (hq : ∀ c, q c) : ∀ as : List (List Mod), Mod.EagerAllA q as
  | [] => trivial
  | a :: as => ⟨⟨Mod.AllL.mono (fun _ _ => trivial) (fun c _ => hq c) _ (Mod.allL_of_forall (fun _ => trivial) _), Mod.eagerAllL_of_forall hq a⟩,
      Mod.eagerAllA_of_forall hq as⟩
end

theorem eagerChain_of_forall (hq : ∀ c, q c) (ms : List Mod) : EagerChain q ms :=
  ⟨Mod.AllL.mono (fun _ _ => trivial) (fun c _ => hq c) _ (Mod.allL_of_forall (fun _ => trivial) _), Mod.eagerAllL_of_forall hq ms⟩

/-! ### Modifiers -/

/-- What is needed of instance modifiers. -/
structure VisKp (env : Env) (J : World → Prop) (P : Ctx → Prop) (q : String → Prop) (vis : Visitor) : Prop where
  link : LinkClosed env J
  noMarks : NoMarks vis
  nval : ∀ c v, P c → P (c.nval v)
  colval : ∀ c v k, P c → P (c.colval v k)
  alter : ∀ c, P c → P c.alterfdef
  transform : ∀ cls st c, P c → Kp' J ((vis cls st).transform c)
  validate : ∀ cls st c, q cls → P c → Kp' J ((vis cls st).validate c)

theorem kp_raiseMsgs (msgs : List (String × String)) : Kp' J (raiseMsgs msgs) := by
  unfold raiseMsgs
  split
  · exact Kp.pure' ()
  · exact Kp.raise _

theorem kp_validateLoop {c : Ctx} (ms : List (Ops World)) (h : ∀ m ∈ ms, Kp' J (m.validate c)) :
    ∀ acc, Kp' J (validateLoop c ms acc) := by
  induction ms with
  | nil => intro acc; exact Kp.pure' acc
  | cons m ms ih =>
    intro acc w hw
    obtain ⟨h1, _⟩ := h m (by simp) w hw
    have ih' := ih (fun m' h' => h m' (by simp [h']))
    unfold validateLoop
    rcases hr : m.validate c w with ⟨e | a, w'⟩
    · rw [hr] at h1
      cases e with
      | validation msgs =>
        simp only []
        split
        · exact ih' _ w' h1
        · exact ⟨h1, fun _ _ => trivial⟩
      | _ => exact ⟨h1, fun _ _ => trivial⟩
    · rw [hr] at h1
      exact ih' acc w' h1

theorem kp_chainValidate {c : Ctx} {ms : List (Ops World)} (h : ∀ m ∈ nvs ms, Kp' J (m.validate c)) : Kp' J (chainValidate ms c) :=
  (kp_validateLoop _ h []).bind' (fun _ => kp_raiseMsgs _)

theorem kp_colValidateLoop {c : Ctx} {item : Ops World} {all : Bool} (es : List (Key × Val))
    (h : ∀ v k, Kp' J (item.validate (c.colval v k))) : ∀ acc, Kp' J (colValidateLoop item c all es acc) := by
  induction es with
  | nil => intro acc; exact Kp.pure' acc
  | cons e es ih =>
    obtain ⟨k, v⟩ := e
    intro acc w hw
    obtain ⟨h1, _⟩ := h v k w hw
    unfold colValidateLoop
    rcases hr : item.validate (c.colval v k) w with ⟨e | a, w'⟩
    · rw [hr] at h1
      cases e with
      | validation msgs =>
        simp only []
        split
        · exact ih _ w' h1
        · exact ⟨h1, fun _ _ => trivial⟩
      | _ => exact ⟨h1, fun _ _ => trivial⟩
    · rw [hr] at h1
      exact ih acc w' h1

theorem kp_ownerAllFields (sp : Special) (c : Ctx) : Kp' J ((colEnv env sp).ownerAllFields c) := by
  simp only [colEnv]
  cases c.owner with
  | none => exact Kp.raise _
  | some o => exact Kp.read'

theorem kp_ownerConf (sp : Special) (c : Ctx) : Kp' J ((colEnv env sp).ownerConf c) := by
  simp only [colEnv]
  cases c.owner with
  | none => exact Kp.raise _
  | some o => exact Kp.pure' ()

theorem kp_colValidate {c : Ctx} {item : Ops World} {sp : Special} (es : List (Key × Val))
    (h : ∀ v k, Kp' J (item.validate (c.colval v k))) : Kp' J (colValidate (colEnv env sp) item c es) :=
  (kp_ownerAllFields sp c).bind' (fun _ => (kp_colValidateLoop es h []).bind' (fun _ => kp_raiseMsgs _))

mutual
theorem kp_den_validate (hv : VisKp env J P q vis) : ∀ (m : Mod), m.All (fun _ => True) q → ∀ c, P c → Kp' J ((m.den env vis).validate c)
  | .eager, _, c, _ => Kp.pure' ()
  | .pre, _, c, _ => Kp.pure' ()
  | .leaf l, _, c, _ => Kp.read'
  | .listOf nn sp item, h, c, hc => by
    simp only [Mod.den, listOps]
    cases c.val with
    | none => exact Kp.pure' ()
    | list xs => exact kp_colValidate _ (fun v k => kp_chain_validate hv item h _ (hv.colval c v k hc))
    | _ => exact Kp.raise _
  | .dictOf nn item, h, c, hc => by
    simp only [Mod.den, dictOps]
    cases c.val with
    | none => exact Kp.pure' ()
    | dict xs => exact kp_colValidate _ (fun v k => kp_chain_validate hv item h _ (hv.colval c v k hc))
    | _ => exact Kp.raise _
  | .instOf cls st, h, c, hc => hv.validate cls st c h hc
  | .union alts, h, c, hc => by
    simp only [Mod.den, unionOps]
    have := kp_union_validate hv alts h c.alterfdef (hv.alter c hc)
    split
    · exact Kp.pure' ()
    · exact this
theorem kp_chain_validate (hv : VisKp env J P q vis) : ∀ (ms : List Mod), Mod.AllL (fun _ => True) q ms → ∀ c, P c →
    Kp' J ((chainOps (setParent env) (denL env vis ms)).validate c)
  | ms, h, c, hc => by
    refine kp_chainValidate ?_
    rw [nvs_denL env vis hv.noMarks]
    intro m hm
    obtain ⟨m', h1, rfl⟩ := List.mem_map.1 hm
    exact kp_list_validate hv ms h m' (mem_nvsM h1) c hc
theorem kp_list_validate (hv : VisKp env J P q vis) : ∀ (ms : List Mod), Mod.AllL (fun _ => True) q ms → ∀ m ∈ ms, ∀ c, P c →
    Kp' J ((m.den env vis).validate c)
  | m' :: ms, h, m, hm, c, hc => by
    by_cases he : m = m'
    · rw [he]
      exact kp_den_validate hv m' h.1 c hc
    · refine kp_list_validate hv ms h.2 m ?_ c hc
      rcases List.mem_cons.1 hm with h' | h'
      · exact absurd h' he
      · exact h'
theorem kp_union_validate (hv : VisKp env J P q vis) : ∀ (as : List (List Mod)), Mod.AllA (fun _ => True) q as → ∀ c, P c →
    Kp' J (unionValidate c (denA env vis as))
  | [], _, c, _ => Kp.raise _
  | a :: as, h, c, hc => (kp_chain_validate hv a h.1 c hc).catchV (fun _ => kp_union_validate hv as h.2 c hc)
end

theorem kp_linkLocalKeys (C : LinkClosed env J) (b : Bool) (i : Nat) (n : String) (k : Val) : Kp' J (linkLocalKeys env b i n k) := by
  unfold linkLocalKeys
  refine Kp.get.bind (fun w _ => ?_)
  cases hf : (w.cdef env i).field? n with
  | none => exact Kp.raise _
  | some f =>
    have hr := relName_ref (field_mem hf).1
    simp only []
    split
    · exact (Kp.when (fun _ => kp_setRel C hr)).bind' (fun _ => kp_listAppendAttr C (kp_runL C _) hr)
    · split
      · exact Kp.pure' ()
      · exact kp_listRemoveAttr C (kp_runU C _) hr

theorem kp_addLinkKey (C : LinkClosed env J) (b : Bool) (i : Nat) (n : String) (k : Val) : Kp' J (addLinkKey b i n k) := by
  apply Kp.upd C
  intro o
  split <;> exact ⟨rfl, rfl, rfl, fun _ => ⟨rfl, fun _ => rfl, fun _ => rfl⟩⟩

theorem kp_specialHandle (C : LinkClosed env J) (sp : Special) (c : Ctx) (kvs : List (String × Val)) : Kp' J (specialHandle env sp c kvs) := by
  unfold specialHandle
  have hgo : ∀ (b : Bool) (o : Nat) (n : String) (k : Val),
      Kp' J (if sp = .localKeys then linkLocalKeys env b o n k else addLinkKey b o n k) := by
    intro b o n k
    split
    · exact kp_linkLocalKeys C b o n k
    · exact kp_addLinkKey C b o n k
  split
  · rename_i o fname _ _
    simp only []
    cases dictGet kvs "_add" with
    | some k => exact hgo true o fname k
    | none =>
      simp only []
      cases dictGet kvs "_del" with
      | some k => exact hgo false o fname k
      | none => exact Kp.pure' ()
  · exact Kp.raise _

theorem kp_special (C : LinkClosed env J) (sp : Special) (c : Ctx) (k : Key) (v : Val) (act : Py World Unit)
    (h : (colEnv env sp).special c k v = some act) : Kp' J act := by
  simp only [colEnv] at h
  cases v with
  | dict kvs =>
    simp only [] at h
    split at h
    · cases h; exact kp_specialHandle C sp c kvs
    · cases h
  | _ => cases h

theorem kp_colMapLoop {ce : ColEnv World} {b : Bool} {f : Ctx → Py World Val} {c : Ctx} (hs : ∀ k v act, ce.special c k v = some act → Kp' J act)
    (hc : Kp' J (ce.ownerConf c)) (hf : ∀ v k, Kp' J (f (c.colval v k))) (es : List (Key × Val)) : Kp' J (colMapLoop ce b f c es) := by
  induction es with
  | nil => exact Kp.pure' _
  | cons e es ih =>
    obtain ⟨k, v⟩ := e
    unfold colMapLoop
    cases b with
    | true =>
      simp only [if_true]
      cases hsp : ce.special c k v with
      | some act => exact (hs k v act hsp).bind' (fun _ => ih)
      | none => exact (hf v k).bind' (fun x => hc.bind' (fun _ => ih.bind' (fun xs => Kp.pure' _)))
    | false =>
      simp only [Bool.false_eq_true, if_false]
      exact (hf v k).bind' (fun x => hc.bind' (fun _ => ih.bind' (fun xs => Kp.pure' _)))

theorem kp_reduceM {f : Ops World → Val → Py World Val} (ms : List (Ops World)) (h : ∀ m ∈ ms, ∀ v, Kp' J (f m v)) :
    ∀ v, Kp' J (reduceM f ms v) := by
  induction ms with
  | nil => intro v; exact Kp.pure' v
  | cons m ms ih => intro v; exact (h m (by simp) v).bind' (fun v' => ih (fun m' h' => h m' (by simp [h'])) v')

mutual
theorem kp_den_transform (hv : VisKp env J P q vis) : ∀ (m : Mod), m.EagerAll q → ∀ c, P c → Kp' J ((m.den env vis).transform c)
  | .eager, _, c, _ => Kp.pure' c.val
  | .pre, _, c, _ => Kp.pure' c.val
  | .leaf l, _, c, _ => Kp.read'
  | .listOf nn sp item, h, c, hc => by
    have hi := fun v k => kp_chain_transform hv item h.1 h.2 _ (hv.colval c v k hc)
    simp only [Mod.den, listOps]
    cases c.val with
    | none => cases nn <;> exact Kp.pure' _
    | list xs => exact (kp_colMapLoop (fun k v act ha => kp_special hv.link sp c k v act ha) (kp_ownerConf sp c) hi _).bind' (fun r => Kp.pure' _)
    | _ => exact Kp.pure' _
  | .dictOf nn item, h, c, hc => by
    have hi := fun v k => kp_chain_transform hv item h.1 h.2 _ (hv.colval c v k hc)
    simp only [Mod.den, dictOps]
    cases c.val with
    | none => cases nn <;> exact Kp.pure' _
    | dict xs =>
      exact (kp_colMapLoop (ce := { colEnv env .no with special := fun _ _ _ => Option.none }) (fun k v act ha => by cases ha)
        (kp_ownerConf (env := env) .no c) hi _).bind' (fun r => Kp.pure' _)
    | _ => exact Kp.pure' _
  | .instOf cls st, h, c, hc => hv.transform cls st c hc
  | .union alts, h, c, hc => by
    simp only [Mod.den, unionOps]
    have := kp_union_transform hv alts h c.alterfdef (hv.alter c hc)
    split
    · exact Kp.pure' _
    · exact this
theorem kp_chain_transform (hv : VisKp env J P q vis) : ∀ (ms : List Mod), Mod.AllL (fun _ => True) q (tvsM ms) → Mod.EagerAllL q ms → ∀ c, P c →
    Kp' J ((chainOps (setParent env) (denL env vis ms)).transform c)
  | ms, h, h', c, hc => by
    simp only [chainOps, chainTransform]
    refine Kp.bind' (kp_reduceM _ ?_ _) (fun v => kp_reduceM _ ?_ _)
    · rw [tvs_denL env vis hv.noMarks]
      intro m hm v
      obtain ⟨m', h1, rfl⟩ := List.mem_map.1 hm
      unfold vt
      refine (kp_list_transform hv ms h' m' (mem_tvsM h1) _ (hv.nval c v hc)).bind' (fun r => ?_)
      exact (kp_den_validate hv m' (Mod.AllL_iff.1 h m' h1) _ (hv.nval _ _ (hv.nval c v hc))).bind' (fun _ => Kp.pure' _)
    · rw [nvs_denL env vis hv.noMarks]
      intro m hm v
      obtain ⟨m', h1, rfl⟩ := List.mem_map.1 hm
      exact kp_list_transform hv ms h' m' (mem_nvsM h1) _ (hv.nval c v hc)
theorem kp_list_transform (hv : VisKp env J P q vis) : ∀ (ms : List Mod), Mod.EagerAllL q ms → ∀ m ∈ ms, ∀ c, P c →
    Kp' J ((m.den env vis).transform c)
  | m' :: ms, h, m, hm, c, hc => by
    by_cases he : m = m'
    · rw [he]
      exact kp_den_transform hv m' h.1 c hc
    · refine kp_list_transform hv ms h.2 m ?_ c hc
      rcases List.mem_cons.1 hm with h' | h'
      · exact absurd h' he
      · exact h'
theorem kp_union_transform (hv : VisKp env J P q vis) : ∀ (as : List (List Mod)), Mod.EagerAllA q as → ∀ c, P c →
    Kp' J (unionTransform c (denA env vis as))
  | [], _, c, _ => Kp.pure' _
  | a :: as, h, c, hc => (kp_chain_transform hv a h.1.1 h.1.2 c hc).catchAll (fun _ => kp_union_transform hv as h.2 c hc)
end

/-- a field's chain -/
theorem kp_field_transform (hv : VisKp env J P q vis) {f : Field} (hf : EagerChain q f.chain) {c : Ctx} (hc : P c) :
    Kp' J ((f.ops env vis).transform c) := kp_chain_transform hv f.chain hf.1 hf.2 c hc


/-! ### Objects created by a call -/

/-- `I` is kept by everything input handling does to objects that did not exist before
(indices from `n₀` on), by linking, and does not depend on the mark graph. -/
structure InClosed (env : Env) (n₀ : Nat) (I : World → Prop) : Prop extends LinkClosed env I where
  marks : ∀ w ms, I w → I { w with marks := ms }
  new : ∀ w i n v, n₀ ≤ i → I w → I (rawSet i n v w).2
  alloc : ∀ w cls, I w → I (alloc env cls w).2
  next : ∀ w, I w → n₀ ≤ w.next

/-- the mark graph holds only objects that did not exist before -/
def MarksNew (n₀ : Nat) (w : World) : Prop := ∀ e ∈ w.marks, n₀ ≤ e.2

/-- `I` with only new objects in the mark graph -/
def WithNew (n₀ : Nat) (I : World → Prop) (w : World) : Prop := I w ∧ MarksNew n₀ w

theorem withNew_link {n₀ : Nat} (C : InClosed env n₀ I) : LinkClosed env (WithNew n₀ I) where
  quiet := fun w w' h hq => ⟨C.quiet w w' h.1 hq, by unfold MarksNew; rw [hq.2.1]; exact h.2⟩
  rel := fun w i n v hn h => ⟨C.rel w i n v hn h.1, h.2⟩

theorem withNew_fresh {n₀ : Nat} (C : InClosed env n₀ I) {m : Py World α} (h : Kp' (WithNew n₀ I) m) :
    Kp' (WithNew n₀ I) (withFreshMarks m) := by
  intro w hw
  have := (h { w with marks := [] } ⟨C.marks w [] hw.1, by intro e he; cases he⟩).1
  refine ⟨?_, fun _ _ => trivial⟩
  unfold withFreshMarks
  rcases hr : m { w with marks := [] } with ⟨r, w'⟩
  rw [hr] at this
  exact ⟨C.marks w' _ this.1, hw.2⟩

theorem kp_graphPutSelf (C : LinkClosed env J) (i : Nat) : Kp' J (graphPutSelf env i) := by
  intro w hw
  refine ⟨?_, fun _ _ => trivial⟩
  simp only [graphPutSelf, Py.modify_run]
  cases graphKey env w i with
  | error e => exact hw
  | ok k => exact C.quiet _ _ hw ⟨rfl, rfl, fun j => SameCore.refl _⟩

/-- contexts whose object to write to, if fixed, is new -/
def NewOriginal (n₀ : Nat) (c : Ctx) : Prop := ∀ o, c.original = some o → n₀ ≤ o

/-- the eager parts of all fields are free of instance modifiers -/
def EagerSafe (env : Env) : Prop := ∀ cls, ∀ f ∈ (env.cls cls).fields, EagerChain (fun _ => False) f.chain

theorem kp_fillDefault (C : LinkClosed env J) {ops : Field → Ops World} {c : Ctx} {dest : Nat} {f : Field}
    (ht : ∀ o k ek fid, Kp' J ((ops f).transform (c.dflt o k ek fid))) (hw : ∀ v, Kp' J (rawSet dest f.name v)) :
    Kp' J (fillDefault env ops c dest f) := by
  unfold fillDefault
  cases f.default with
  | some v => exact kp_setAttr C (hw v)
  | none => exact Kp.get.bind (fun w _ => Kp.read'.bind' (fun ek => (ht _ _ _ _).bind' (fun t => kp_setAttr C (hw t))))

theorem kp_fillRefLists (C : LinkClosed env J) {dest : Nat} (ns : List String) (h : ∀ n ∈ ns, ∀ v, Kp' J (rawSet dest n v)) :
    Kp' J (fillRefLists env dest ns) := by
  induction ns with
  | nil => exact Kp.pure' ()
  | cons n ns ih =>
    exact Kp.read'.bind' (fun v => (Kp.when (fun _ => kp_setAttr C (h n (by simp) _))).bind'
      (fun _ => ih (fun n' h' => h n' (by simp [h']))))

theorem kp_transformFields (ops : Field → Ops World) (c : Ctx) (dest : Nat) (soft : Bool) (kvs : List (String × Val)) (fs : List Field)
    (h : ∀ f ∈ fs, Kp' J (transformField env ops c dest soft kvs f)) : Kp' J (transformFields env ops c dest soft kvs fs) := by
  induction fs with
  | nil => exact Kp.pure' ()
  | cons f fs ih => exact (h f (by simp)).bind' (fun _ => ih (fun f' h' => h f' (by simp [h'])))

/-- one field: its name is only written if it is given or blanks are filled -/
theorem kp_transformField_free (C : LinkClosed env J) {ops : Field → Ops World} {c : Ctx} {dest : Nat} {soft : Bool}
    {kvs : List (String × Val)} {f : Field} {cls : String} (hf : f ∈ (env.cls cls).fields)
    (ht : ∀ c', c'.original = none → c'.cfg = c.cfg → Kp' J ((ops f).transform c'))
    (hw : hasFieldValue f kvs = true ∨ c.cfg.fillBlanks = true → ∀ v, Kp' J (rawSet dest f.name v)) :
    Kp' J (transformField env ops c dest soft kvs f) := by
  have hd : c.cfg.fillBlanks = true → Kp' J (fillDefault env ops c dest f) :=
    fun h => kp_fillDefault C (fun _ _ _ _ => ht _ rfl rfl) (hw (.inr h))
  unfold transformField
  split
  · rename_i hp
    unfold presentField
    refine Kp.read'.bind' (fun cur => ?_)
    split
    · refine Kp.get.bind (fun w _ => Kp.read'.bind' (fun ek => ?_))
      have h0 : ∀ v k fid, Kp' J ((ops f).transform (c.nextvo v k ek fid dest)) := fun _ _ _ => ht _ rfl rfl
      exact (h0 _ _ _).bind' (fun t => Kp.when (fun _ => kp_setAttr C (hw (.inl hp) _)))
    · split
      · rename_i hc
        exact hd (by simp only [Bool.and_eq_true] at hc; exact hc.1)
      · exact Kp.pure' ()
  · unfold absentField
    have hk : ∀ k, Kp' J (setRefKey env dest f.refName kvs k) := by
      intro k
      unfold setRefKey
      split
      · exact Kp.pure' ()
      · exact kp_setAttr C (Kp.rawRel C (relName_ref hf))
    split
    · split
      · exact (hk _).bind' (fun _ => hk _)
      · exact Kp.pure' ()
    · split
      · rename_i hc
        exact hd (by simp only [Bool.and_eq_true] at hc; exact hc.1.1)
      · exact Kp.pure' ()

theorem nonnullRefLists_rel {fs : List Field} {kvs : List (String × Val)} {m cls : String} (hfs : ∀ f ∈ fs, f ∈ (env.cls cls).fields)
    (hm : m ∈ nonnullRefLists kvs fs) : RelName env m := by
  simp only [nonnullRefLists, List.mem_map, List.mem_filter, Bool.and_eq_true] at hm
  obtain ⟨f, ⟨hf, h1⟩, rfl⟩ := hm
  exact ⟨cls, f, hfs f hf, Or.inl ⟨h1.1.1.2, rfl⟩⟩

theorem kp_applyDict_free (C : LinkClosed env J) {ops : Field → Ops World} {cls : String} {strict : Option Bool} {c : Ctx} {dest : Nat}
    {soft : Bool} {kvs : List (String × Val)}
    (ht : ∀ cls', ∀ f ∈ (env.cls cls').fields, ∀ c', c'.original = none → c'.cfg = c.cfg → Kp' J ((ops f).transform c'))
    (hw : ∀ w, J w → ∀ f ∈ (w.cdef env dest).fields, hasFieldValue f kvs = true ∨ c.cfg.fillBlanks = true →
      ∀ v, Kp' J (rawSet dest f.name v)) : Kp' J (applyDict env ops cls strict c dest soft kvs) := by
  unfold applyDict
  refine Kp.get.bind (fun w hJ => ?_)
  refine (Kp.when (fun _ => Kp.read')).bind' (fun _ => ?_)
  refine (kp_transformFields ops c dest soft kvs _ (fun f hf => ?_)).bind'
    (fun _ => kp_fillRefLists C _ (fun n hn v => Kp.rawRel C (nonnullRefLists_rel (fun _ h => h) hn)))
  exact kp_transformField_free C hf (ht _ f hf) (hw w hJ f hf)

theorem kp_newObj {n₀ : Nat} (C : InClosed env n₀ I) {vis : Visitor} {cls : String} {kvs : List (String × Val)}
    (ht : ∀ cls st c, NewOriginal n₀ c → Kp' (WithNew n₀ I) ((vis cls st).transform c)) :
    Kp (WithNew n₀ I) (newObj env vis cls kvs) (fun i => n₀ ≤ i) := by
  have L := withNew_link C
  unfold newObj
  split
  · exact Kp.raise _
  · have ha : Kp (WithNew n₀ I) (alloc env cls) (fun i => n₀ ≤ i) := by
      intro w hw
      refine ⟨⟨C.alloc w cls hw.1, hw.2⟩, fun a ha => ?_⟩
      simp only [JC.alloc, Except.ok.injEq] at ha
      subst ha
      exact C.next w hw.1
    refine ha.bind (fun i hi => ?_)
    refine Kp.bind' ?_ (fun _ => (kp_graphPutSelf L i).bind' (fun _ => Kp.pure hi))
    unfold setDict
    refine Kp.get.bind (fun w _ => ?_)
    refine (withNew_fresh C (ht _ _ _ ?_)).bind' (fun _ => Kp.pure' ())
    intro o ho
    cases ho
    exact hi

theorem kp_markModify {n₀ : Nat} (C : InClosed env n₀ I) {g : World → World} {i : Nat}
    (hg : ∀ w, ∃ k, g w = { w with marks := (k, i) :: w.marks }) (hi : n₀ ≤ i) :
    Kp' (WithNew n₀ I) (Py.modify g) := by
  intro w hw
  refine ⟨?_, fun _ _ => trivial⟩
  simp only [Py.modify_run]
  obtain ⟨k, hk⟩ := hg w
  rw [hk]
  refine ⟨C.marks w _ hw.1, ?_⟩
  intro e he
  rcases List.mem_cons.1 he with rfl | h'
  · exact hi
  · exact hw.2 e h'

theorem markPut_cons (env : Env) (i : Nat) (w : World) : ∃ k, w.markPut env i = { w with marks := (k, i) :: w.marks } := by
  unfold World.markPut
  simp only []
  split <;> exact ⟨_, rfl⟩

theorem markPutp_cons (env : Env) (pk : Val) (i : Nat) (w : World) : ∃ k, w.markPutp env pk i = { w with marks := (k, i) :: w.marks } :=
  ⟨_, rfl⟩

theorem mLookup_mem {k : String × MarkKey} {l : List ((String × MarkKey) × Nat)} {o : Nat} (h : mLookup k l = some o) :
    ∃ e ∈ l, e.2 = o := by
  induction l with
  | nil => cases h
  | cons e l ih =>
    obtain ⟨k', o'⟩ := e
    unfold mLookup at h
    split at h
    · cases h; exact ⟨_, List.mem_cons_self, rfl⟩
    · obtain ⟨e, h1, h2⟩ := ih h
      exact ⟨e, by simp [h1], h2⟩

/-- the object found for a nested dict is new -/
theorem kp_findDest {n₀ : Nat} (C : InClosed env n₀ I) {vis : Visitor} {cls : String} {c : Ctx} {kvs : List (String × Val)}
    (ht : ∀ cls st c, NewOriginal n₀ c → Kp' (WithNew n₀ I) ((vis cls st).transform c)) (hc : NewOriginal n₀ c) :
    Kp (WithNew n₀ I) (findDest env vis cls c kvs) (fun d => n₀ ≤ d.1) := by
  unfold findDest
  simp only []
  cases ho : c.original with
  | some o =>
    have hi := hc o ho
    exact (Kp.when (fun _ => kp_markModify C (markPutp_cons env _ o) hi)).bind' (fun _ => Kp.pure hi)
  | none =>
    simp only []
    split
    · exact (kp_newObj C ht).bind (fun i hi => (kp_markModify C (markPut_cons env i) hi).bind' (fun _ => Kp.pure hi))
    · refine Kp.get.bind (fun w hw => ?_)
      cases hm : mLookup (cls, .pk (env.pystr (inputPk env cls kvs))) w.marks with
      | some o =>
        obtain ⟨e, h1, h2⟩ := mLookup_mem hm
        exact Kp.pure (by simp only []; rw [← h2]; exact hw.2 e h1)
      | none => exact (kp_newObj C ht).bind (fun i hi => (kp_markModify C (markPutp_cons env _ i) hi).bind' (fun _ => Kp.pure hi))

theorem newOriginal_visKp {n₀ : Nat} (C : InClosed env n₀ I) {n : Nat}
    (ht : ∀ cls st c, NewOriginal n₀ c → Kp' (WithNew n₀ I) ((instOps env n cls st).transform c)) :
    VisKp env (WithNew n₀ I) (NewOriginal n₀) (fun _ => False) (instOps env n) where
  link := withNew_link C
  noMarks := instOps_noMarks env n
  nval := fun _ _ h => h
  colval := fun _ _ _ _ o ho => by cases ho
  alter := fun _ h => h
  transform := ht
  validate := fun _ _ _ h => h.elim

/-- **Nested input only writes to objects it creates** (and to relations). -/
theorem kp_instTransform_new {n₀ : Nat} (C : InClosed env n₀ I) (hE : EagerSafe env) : ∀ (n : Nat) (cls : String) (st : Option Bool) (c : Ctx),
    NewOriginal n₀ c → Kp' (WithNew n₀ I) ((instOps env n cls st).transform c) := by
  intro n
  induction n with
  | zero => intro cls st c _; exact Kp.raise _
  | succ n ih =>
    intro cls st c hc
    have L := withNew_link C
    have hv := newOriginal_visKp C ih
    simp only [instOps, instTransform]
    split
    · exact Kp.pure' _
    · refine (kp_findDest C ih hc).bind (fun d hd => ?_)
      refine Kp.bind' (kp_applyDict_free L ?_ ?_) (fun _ => Kp.pure' _)
      · intro cls' f hf c' ho _
        exact kp_field_transform hv (hE cls' f hf) (by intro o h; rw [ho] at h; cases h)
      · intro _ _ f _ _ v w hw
        exact ⟨⟨C.new w d.1 _ v hd hw.1, hw.2⟩, fun _ _ => trivial⟩
    · exact Kp.pure' _


/-! ### Writing to objects that exist -/

theorem kp_freshMarks_new {n₀ : Nat} (C : InClosed env n₀ I) {m : Py World α} (h : Kp' (WithNew n₀ I) m) :
    Kp' I (withFreshMarks m) := by
  intro w hw
  have := (h { w with marks := [] } ⟨C.marks w [] hw, by intro e he; cases he⟩).1
  refine ⟨?_, fun _ _ => trivial⟩
  unfold withFreshMarks
  rcases hr : m { w with marks := [] } with ⟨r, w'⟩
  rw [hr] at this
  exact C.marks w' _ this.1

theorem kp_freshMarks {n₀ : Nat} (C : InClosed env n₀ I) {m : Py World α} (h : Kp' I m) : Kp' I (withFreshMarks m) := by
  intro w hw
  have := (h { w with marks := [] } (C.marks w [] hw)).1
  refine ⟨?_, fun _ _ => trivial⟩
  unfold withFreshMarks
  rcases hr : m { w with marks := [] } with ⟨r, w'⟩
  rw [hr] at this
  exact C.marks w' _ this

/-- creating an object for a nested dict -/
theorem kp_newObj_fresh {n₀ : Nat} (C : InClosed env n₀ I) (hE : EagerSafe env) (n : Nat) (cls : String) (kvs : List (String × Val)) :
    Kp' I (newObj env (instOps env n) cls kvs) := by
  have ht := kp_instTransform_new C hE n
  have L := C.toLinkClosed
  unfold newObj
  split
  · exact Kp.raise _
  · have ha : Kp I (alloc env cls) (fun i => n₀ ≤ i) := by
      intro w hw
      refine ⟨C.alloc w cls hw, fun a ha => ?_⟩
      simp only [JC.alloc, Except.ok.injEq] at ha
      subst ha
      exact C.next w hw
    refine ha.bind (fun i hi => ?_)
    refine Kp.bind' ?_ (fun _ => (kp_graphPutSelf L i).bind' (fun _ => Kp.pure' _))
    unfold setDict
    refine Kp.get.bind (fun w _ => ?_)
    exact (kp_freshMarks_new C (ht _ _ _ (by intro o ho; cases ho; exact hi))).bind' (fun _ => Kp.pure' ())

/-- what a guarded write may store in a field: the result of the field's own transform of the
value given -/
def TransformOf (env : Env) (f : Field) (new t : Val) : Prop :=
  ∃ n c w w', c.val = new ∧ (f.ops env (instOps env n)).transform c w = (.ok t, w')

/-- `I` is kept by the writes that the write rules allow. -/
structure WriteClosed (env : Env) (n₀ : Nat) (I : World → Prop) : Prop extends InClosed env n₀ I where
  write : ∀ w₀ w₁ w₂ dest f cur new t, I w₀ → I w₁ → I w₂ → f ∈ (w₀.cdef env dest).fields → f.store ≠ .calculated →
    (f.writeRule = .writeOnce → w₁.getattr env dest f.name = .ok cur) → allowWrite f cur new = true → TransformOf env f new t →
    I (rawSet dest f.name t w₂).2

theorem Kp.transformResult {m : Py World Val} (h : Kp' J m) : Kp J m (fun t => ∃ w w', m w = (.ok t, w')) := by
  intro w hw
  refine ⟨(h w hw).1, fun a ha => ⟨w, (m w).2, ?_⟩⟩
  rw [← ha]

theorem kp_transformField_guarded {n₀ : Nat} (C : WriteClosed env n₀ I) {n : Nat} {c : Ctx} {dest : Nat} {soft : Bool}
    {kvs : List (String × Val)} {f : Field} {w₀ : World} (hw₀ : I w₀) (hf : f ∈ (w₀.cdef env dest).fields) (hc : c.cfg.fillBlanks = false)
    (ht : ∀ c', c'.cfg = c.cfg → Kp' I ((f.ops env (instOps env n)).transform c')) :
    Kp' I (transformField env (fun f => f.ops env (instOps env n)) c dest soft kvs f) := by
  have L := C.toLinkClosed
  unfold transformField
  split
  · unfold presentField
    refine Kp.read.bind (fun cur hcur => ?_)
    split
    · rename_i hal
      refine Kp.get.bind (fun w _ => Kp.read'.bind' (fun ek => ?_))
      have h0 : ∀ v k fid, Kp' I ((f.ops env (instOps env n)).transform (c.nextvo v k ek fid dest)) := fun _ _ _ => ht _ rfl
      refine (Kp.transformResult (h0 _ _ _)).bind (fun t htr => Kp.when (fun hs => kp_setAttr L ?_))
      obtain ⟨w₁, hI₁, hc₁⟩ := hcur
      obtain ⟨wt, wt', htr⟩ := htr
      intro w₂ hI₂
      refine ⟨C.write w₀ w₁ w₂ dest f cur _ t hw₀ hI₁ hI₂ hf (by simpa using hs) ?_ hal ⟨n, _, wt, wt', rfl, htr⟩, fun _ _ => trivial⟩
      intro ho
      rw [if_pos ho] at hc₁
      exact hc₁
    · rw [hc]
      exact Kp.pure' ()
  · unfold absentField
    have hk : ∀ k, Kp' I (setRefKey env dest f.refName kvs k) := by
      intro k
      unfold setRefKey
      split
      · exact Kp.pure' ()
      · exact kp_setAttr L (Kp.rawRel L (relName_ref hf))
    split
    · split
      · exact (hk _).bind' (fun _ => hk _)
      · exact Kp.pure' ()
    · rw [hc]
      exact Kp.pure' ()

theorem kp_applyDict_guarded {n₀ : Nat} (C : WriteClosed env n₀ I) {n : Nat} {cls : String} {strict : Option Bool} {c : Ctx} {dest : Nat}
    {soft : Bool} {kvs : List (String × Val)} (hc : c.cfg.fillBlanks = false)
    (ht : ∀ cls', ∀ f ∈ (env.cls cls').fields, ∀ c', c'.cfg = c.cfg → Kp' I ((f.ops env (instOps env n)).transform c')) :
    Kp' I (applyDict env (fun f => f.ops env (instOps env n)) cls strict c dest soft kvs) := by
  have L := C.toLinkClosed
  unfold applyDict
  refine Kp.get.bind (fun w hw => ?_)
  refine (Kp.when (fun _ => Kp.read')).bind' (fun _ => ?_)
  refine (kp_transformFields _ c dest soft kvs _ (fun f hf => ?_)).bind'
    (fun _ => kp_fillRefLists L _ (fun m hm v => Kp.rawRel L (nonnullRefLists_rel (fun _ h => h) hm)))
  exact kp_transformField_guarded C hw hf hc (ht _ f hf)

theorem kp_findDest_guarded {n₀ : Nat} (C : InClosed env n₀ I) (hE : EagerSafe env) {n : Nat} {cls : String} {c : Ctx} {kvs : List (String × Val)} :
    Kp' I (findDest env (instOps env n) cls c kvs) := by
  have hmod : ∀ {g : World → World}, (∀ w, ∃ k i, g w = { w with marks := (k, i) :: w.marks }) → Kp' I (Py.modify g) := by
    intro g hg w hw
    refine ⟨?_, fun _ _ => trivial⟩
    simp only [Py.modify_run]
    obtain ⟨k, i, hk⟩ := hg w
    rw [hk]
    exact C.marks w _ hw
  have h1 : ∀ pk i, Kp' I (Py.modify (fun w => w.markPutp env pk i)) := fun pk i => hmod (fun w => ⟨_, _, rfl⟩)
  have h2 : ∀ i, Kp' I (Py.modify (fun w => w.markPut env i)) := fun i => hmod (fun w => ⟨_, _, (markPut_cons env i w).choose_spec⟩)
  unfold findDest
  simp only []
  cases c.original with
  | some o => exact (Kp.when (fun _ => h1 _ _)).bind' (fun _ => Kp.pure' _)
  | none =>
    simp only []
    split
    · exact (kp_newObj_fresh C hE n cls []).bind' (fun i => (h2 i).bind' (fun _ => Kp.pure' _))
    · refine Kp.get.bind (fun w hw => ?_)
      cases mLookup (cls, .pk (env.pystr (inputPk env cls kvs))) w.marks with
      | some o => exact Kp.pure' _
      | none => exact (kp_newObj_fresh C hE n cls []).bind' (fun i => (h1 _ i).bind' (fun _ => Kp.pure' _))

/-- **Input given to existing objects only makes writes that the write rules allow.** -/
theorem kp_instTransform_guarded {n₀ : Nat} (C : WriteClosed env n₀ I) (hE : EagerSafe env) : ∀ (n : Nat) (cls : String) (st : Option Bool)
    (c : Ctx), c.cfg.fillBlanks = false → Kp' I ((instOps env n cls st).transform c) := by
  intro n
  induction n with
  | zero => intro cls st c _; exact Kp.raise _
  | succ n ih =>
    intro cls st c hc
    have hv : VisKp env I (fun c => c.cfg.fillBlanks = false) (fun _ => False) (instOps env n) :=
      { link := C.toLinkClosed, noMarks := instOps_noMarks env n, nval := fun _ _ h => h, colval := fun _ _ _ h => h,
        alter := fun _ h => h, transform := ih, validate := fun _ _ _ h => h.elim }
    simp only [instOps, instTransform]
    split
    · exact Kp.pure' _
    · refine (kp_findDest_guarded C.toInClosed hE).bind' (fun d => ?_)
      refine Kp.bind' (kp_applyDict_guarded C hc ?_) (fun _ => Kp.pure' _)
      intro cls' f hf c' ho
      exact kp_field_transform hv (hE cls' f hf) (by simpa [ho] using hc)
    · exact Kp.pure' _

/-- `set` on any object keeps `I`. -/
theorem kp_apiSet {n₀ : Nat} (C : WriteClosed env n₀ I) (hE : EagerSafe env) (n i : Nat) (kvs : List (String × Val)) :
    Kp' I (apiSet env n i kvs) := by
  unfold apiSet setDict
  refine Kp.get.bind (fun w _ => ?_)
  exact (kp_freshMarks C.toInClosed (kp_instTransform_guarded C hE n _ _ _ rfl)).bind' (fun _ => Kp.pure' ())

/-- Creating an object keeps `I`. -/
theorem kp_apiNew {n₀ : Nat} (C : InClosed env n₀ I) (hE : EagerSafe env) (n : Nat) (cls : String) (kvs : List (String × Val)) :
    Kp' I (apiNew env n cls kvs) := kp_newObj_fresh C hE n cls kvs

end JC
