import Verif.Props.TrackInput

/-
What holds for inputs because it holds for their primitive steps. A `Walk` is a property of
computations that is closed under sequencing, holds for what leaves the objects alone, for
assignments, for the allocation of an object and for changes of reference ids; then it holds for
constructors, `set` and `update`.
-/
namespace JC
variable {env : Env}

/-- A property of computations that sequences have when their steps have it. -/
structure Walk (env : Env) where
  P : {α : Type} → Py World α → Prop
  bind : ∀ {α β : Type} {m : Py World α} {k : α → Py World β}, P m → (∀ a, P (k a)) → P (m >>= k)
  same : ∀ {α : Type} {m : Py World α}, (∀ w, (m w).2.heap = w.heap ∧ (m w).2.next = w.next) → P m
  fresh : ∀ {α : Type} {m : Py World α}, P m → P (withFreshMarks m)
  alloc : ∀ cls, P (alloc env cls)
  setAttr : ∀ i n v, P (setAttr env i n v)
  linkLocalKeys : ∀ b i n k, P (linkLocalKeys env b i n k)
  addLinkKey : ∀ b i n k, P (addLinkKey b i n k)

/-- the property -/
def Wk (W : Walk env) {α : Type} (m : Py World α) : Prop := W.P m

variable {W : Walk env}

section
variable {α β : Type}

theorem Wk.bind {m : Py World α} {k : α → Py World β} (hm : Wk W m) (hk : ∀ a, Wk W (k a)) : Wk W (m >>= k) := W.bind hm hk
theorem Wk.same {m : Py World α} (h : ∀ w, (m w).2.heap = w.heap ∧ (m w).2.next = w.next) : Wk W m := W.same h
theorem Wk.pure (a : α) : Wk W (Pure.pure a : Py World α) := W.same (fun _ => ⟨rfl, rfl⟩)
theorem Wk.raise (e : Exc) : Wk W (Py.raise e : Py World α) := W.same (fun _ => ⟨rfl, rfl⟩)
theorem Wk.get : Wk W (Py.get : Py World World) := W.same (fun _ => ⟨rfl, rfl⟩)
theorem Wk.read (f : World → Except Exc α) : Wk W (readW f) := W.same (fun _ => ⟨rfl, rfl⟩)
theorem Wk.modify {g : World → World} (h : ∀ w, (g w).heap = w.heap ∧ (g w).next = w.next) : Wk W (Py.modify g) := W.same h
theorem Wk.fresh {m : Py World α} (h : Wk W m) : Wk W (withFreshMarks m) := W.fresh h

theorem Wk.when {b : Bool} {m : Py World Unit} (h : Wk W m) : Wk W (pyWhen b m) := by
  unfold pyWhen
  cases b with
  | true => exact h
  | false => exact Wk.pure ()

/-- what changes no state -/
theorem Wk.still {m : Py World α} (h : ∀ u, Kp' (fun w => w = u) m) : Wk W m :=
  Wk.same (fun w => by have := (h w w rfl).1; simp only [] at this; rw [this]; exact ⟨rfl, rfl⟩)

end

theorem Wk.alloc (cls : String) : Wk W (alloc env cls) := W.alloc cls
theorem Wk.setAttr (i : Nat) (n : String) (v : Val) : Wk W (setAttr env i n v) := W.setAttr i n v

theorem wk_validate (n : Nat) (m : Mod) (c : Ctx) : Wk W ((m.den env (instOps env n)).validate c) :=
  Wk.same (fun w => by
    have := (sim_den_validate (simV_once (env := env) w n) m (Mod.all_of_forall (leafOnce w) m) c trivial w w (KOnce.self w)).2.2.2.1
    exact ⟨this.1, this.2.1⟩)

theorem wk_specialHandle (sp : Special) (c : Ctx) (kvs : List (String × Val)) : Wk W (specialHandle env sp c kvs) := by
  unfold specialHandle
  have hgo : ∀ (b : Bool) (o : Nat) (n : String) (k : Val),
      Wk W (if sp = .localKeys then linkLocalKeys env b o n k else addLinkKey b o n k) := by
    intro b o n k
    split
    · exact W.linkLocalKeys b o n k
    · exact W.addLinkKey b o n k
  split
  · rename_i o fname _ _
    simp only []
    cases dictGet kvs "_add" with
    | some k => exact hgo true o fname k
    | none =>
      simp only []
      cases dictGet kvs "_del" with
      | some k => exact hgo false o fname k
      | none => exact Wk.pure ()
  · exact Wk.raise _

theorem wk_special (sp : Special) (c : Ctx) (k : Key) (v : Val) (act : Py World Unit)
    (h : (colEnv env sp).special c k v = some act) : Wk W act := by
  simp only [colEnv] at h
  cases v with
  | dict kvs =>
    simp only [] at h
    split at h
    · cases h; exact wk_specialHandle sp c kvs
    · cases h
  | _ => cases h

theorem wk_ownerConf (sp : Special) (c : Ctx) : Wk W ((colEnv env sp).ownerConf c) := by
  simp only [colEnv]
  cases c.owner with
  | none => exact Wk.raise _
  | some o => exact Wk.pure ()

theorem wk_colMapLoop {ce : ColEnv World} {b : Bool} {f : Ctx → Py World Val} {c : Ctx} (hs : ∀ k v act, ce.special c k v = some act → Wk W act)
    (hc : Wk W (ce.ownerConf c)) (hf : ∀ v k, Wk W (f (c.colval v k))) (es : List (Key × Val)) : Wk W (colMapLoop ce b f c es) := by
  induction es with
  | nil => exact Wk.pure _
  | cons e es ih =>
    obtain ⟨k, v⟩ := e
    unfold colMapLoop
    cases b with
    | true =>
      simp only [if_true]
      cases hsp : ce.special c k v with
      | some act => exact (hs k v act hsp).bind (fun _ => ih)
      | none => exact (hf v k).bind (fun x => hc.bind (fun _ => ih.bind (fun xs => Wk.pure _)))
    | false =>
      simp only [Bool.false_eq_true, if_false]
      exact (hf v k).bind (fun x => hc.bind (fun _ => ih.bind (fun xs => Wk.pure _)))

theorem wk_reduceM {f : Ops World → Val → Py World Val} (ms : List (Ops World)) (h : ∀ m ∈ ms, ∀ v, Wk W (f m v)) :
    ∀ v, Wk W (reduceM f ms v) := by
  induction ms with
  | nil => intro v; exact Wk.pure v
  | cons m ms ih => intro v; exact (h m (by simp) v).bind (fun v' => ih (fun m' h' => h m' (by simp [h'])) v')

mutual
theorem wk_den {n : Nat} (hv : ∀ cls st c, Wk W ((instOps env n cls st).transform c)) :
    ∀ (m : Mod), m.PlainUnion → ∀ c, Wk W ((m.den env (instOps env n)).transform c)
  | .eager, _, c => Wk.pure c.val
  | .pre, _, c => Wk.pure c.val
  | .leaf l, _, c => Wk.read _
  | .listOf nn sp item, h, c => by
    have hi := fun v k => wk_chain hv item h (c.colval v k)
    simp only [Mod.den, listOps]
    cases c.val with
    | none => cases nn <;> exact Wk.pure _
    | list xs => exact (wk_colMapLoop (fun k v act ha => wk_special sp c k v act ha) (wk_ownerConf sp c) hi _).bind (fun r => Wk.pure _)
    | _ => exact Wk.pure _
  | .dictOf nn item, h, c => by
    have hi := fun v k => wk_chain hv item h (c.colval v k)
    simp only [Mod.den, dictOps]
    cases c.val with
    | none => cases nn <;> exact Wk.pure _
    | dict xs =>
      exact (wk_colMapLoop (ce := { colEnv env .no with special := fun _ _ _ => Option.none }) (fun k v act ha => by cases ha)
        (wk_ownerConf (env := env) .no c) hi _).bind (fun r => Wk.pure _)
    | _ => exact Wk.pure _
  | .instOf cls st, _, c => hv cls st c
  | .union alts, h, c => by
    simp only [Mod.den, unionOps]
    split
    · exact Wk.pure _
    · exact Wk.still (fun u => still_union_transform (instOps_noMarks env n) alts h c.alterfdef)
theorem wk_chain {n : Nat} (hv : ∀ cls st c, Wk W ((instOps env n cls st).transform c)) :
    ∀ (ms : List Mod), Mod.PlainUnionL ms → ∀ c, Wk W ((chainOps (setParent env) (denL env (instOps env n) ms)).transform c)
  | ms, h, c => by
    simp only [chainOps, chainTransform]
    refine Wk.bind (wk_reduceM _ ?_ _) (fun v => wk_reduceM _ ?_ _)
    · rw [tvs_denL env _ (instOps_noMarks env n)]
      intro m hm v
      obtain ⟨m', h1, rfl⟩ := List.mem_map.1 hm
      unfold vt
      exact (wk_mem hv ms h m' (mem_tvsM h1) _).bind (fun r => (wk_validate n m' _).bind (fun _ => Wk.pure _))
    · rw [nvs_denL env _ (instOps_noMarks env n)]
      intro m hm v
      obtain ⟨m', h1, rfl⟩ := List.mem_map.1 hm
      exact wk_mem hv ms h m' (mem_nvsM h1) _
theorem wk_mem {n : Nat} (hv : ∀ cls st c, Wk W ((instOps env n cls st).transform c)) :
    ∀ (ms : List Mod), Mod.PlainUnionL ms → ∀ m ∈ ms, ∀ c, Wk W ((m.den env (instOps env n)).transform c)
  | m' :: ms, h, m, hm, c => by
    by_cases he : m = m'
    · rw [he]
      exact wk_den hv m' h.1 c
    · refine wk_mem hv ms h.2 m ?_ c
      rcases List.mem_cons.1 hm with h' | h'
      · exact absurd h' he
      · exact h'
end

theorem wk_graphPutSelf (i : Nat) : Wk W (graphPutSelf env i) := by
  apply Wk.modify
  intro w
  split <;> exact ⟨rfl, rfl⟩

theorem wk_setDict {vis : Visitor} (hv : ∀ cls st c, Wk W ((vis cls st).transform c)) (i : Nat) (kvs : List (String × Val)) (b : Bool) :
    Wk W (setDict vis i kvs b) :=
  Wk.get.bind (fun _ => (hv _ _ _).fresh.bind (fun _ => Wk.pure ()))

theorem wk_newObj {vis : Visitor} (hv : ∀ cls st c, Wk W ((vis cls st).transform c)) (cls : String) (kvs : List (String × Val)) :
    Wk W (newObj env vis cls kvs) := by
  unfold newObj
  split
  · exact Wk.raise _
  · exact (Wk.alloc cls).bind (fun i => (wk_setDict hv i kvs true).bind (fun _ => (wk_graphPutSelf i).bind (fun _ => Wk.pure i)))

theorem wk_findDest {vis : Visitor} (hv : ∀ cls st c, Wk W ((vis cls st).transform c)) (cls : String) (c : Ctx) (kvs : List (String × Val)) :
    Wk W (findDest env vis cls c kvs) := by
  have hp : ∀ pk o, Wk W (Py.modify (fun w => w.markPutp env pk o)) := fun pk o => Wk.modify (fun w => ⟨rfl, rfl⟩)
  unfold findDest
  simp only []
  split
  · exact (hp _ _).when.bind (fun _ => Wk.pure _)
  · split
    · refine (wk_newObj hv cls []).bind (fun i => (Wk.modify (g := fun w => w.markPut env i) (fun w => ?_)).bind (fun _ => Wk.pure _))
      unfold World.markPut
      split <;> exact ⟨rfl, rfl⟩
    · refine Wk.get.bind (fun w => ?_)
      split
      · exact Wk.pure _
      · exact (wk_newObj hv cls []).bind (fun i => (hp _ i).bind (fun _ => Wk.pure _))

theorem wk_fillDefault {ops : Field → Ops World} {f : Field} (hv : ∀ c, Wk W ((ops f).transform c)) (c : Ctx)
    (dest : Nat) : Wk W (fillDefault env ops c dest f) := by
  unfold fillDefault
  split
  · exact Wk.setAttr _ _ _
  · exact Wk.get.bind (fun _ => (Wk.read _).bind (fun _ => (hv _).bind (fun _ => Wk.setAttr _ _ _)))

theorem wk_setRefKey (dest : Nat) (r : String) (kvs : List (String × Val)) (k : String) :
    Wk W (setRefKey env dest r kvs k) := by
  unfold setRefKey
  split
  · exact Wk.pure ()
  · exact Wk.setAttr _ _ _

theorem wk_transformField {ops : Field → Ops World} {f : Field} (hv : ∀ c, Wk W ((ops f).transform c)) (c : Ctx)
    (dest : Nat) (soft : Bool) (kvs : List (String × Val)) : Wk W (transformField env ops c dest soft kvs f) := by
  unfold transformField
  split
  · unfold presentField
    refine (Wk.read _).bind (fun cur => ?_)
    split
    · exact Wk.get.bind (fun _ => (Wk.read _).bind (fun _ => (hv _).bind (fun _ => (Wk.setAttr _ _ _).when)))
    · split
      · exact wk_fillDefault hv c dest
      · exact Wk.pure ()
  · unfold absentField
    split
    · split
      · exact (wk_setRefKey _ _ _ _).bind (fun _ => wk_setRefKey _ _ _ _)
      · exact Wk.pure ()
    · split
      · exact wk_fillDefault hv c dest
      · exact Wk.pure ()

theorem wk_transformFields {ops : Field → Ops World} (c : Ctx) (dest : Nat) (soft : Bool) (kvs : List (String × Val))
    (fs : List Field) (hv : ∀ f ∈ fs, ∀ c, Wk W ((ops f).transform c)) : Wk W (transformFields env ops c dest soft kvs fs) := by
  induction fs with
  | nil => exact Wk.pure ()
  | cons f fs ih => exact (wk_transformField (hv f (by simp)) c dest soft kvs).bind (fun _ => ih (fun g hg => hv g (by simp [hg])))

theorem wk_fillRefLists (dest : Nat) (ns : List String) : Wk W (fillRefLists env dest ns) := by
  induction ns with
  | nil => exact Wk.pure ()
  | cons n ns ih => exact (Wk.read _).bind (fun _ => (Wk.setAttr _ _ _).when.bind (fun _ => ih))

theorem wk_applyDict {ops : Field → Ops World} (hv : ∀ cls, ∀ f ∈ (env.cls cls).fields, ∀ c, Wk W ((ops f).transform c))
    (cls : String) (st : Option Bool) (c : Ctx) (dest : Nat) (soft : Bool) (kvs : List (String × Val)) :
    Wk W (applyDict env ops cls st c dest soft kvs) := by
  unfold applyDict
  exact Wk.get.bind (fun w => (Wk.read _).when.bind (fun _ => (wk_transformFields c dest soft kvs _ (hv _)).bind
    (fun _ => wk_fillRefLists dest _)))

theorem wk_instOps (hu : PlainUnions env) (n : Nat) : ∀ cls st c, Wk W ((instOps env n cls st).transform c) := by
  induction n with
  | zero => exact fun _ _ _ => Wk.raise _
  | succ n ih =>
    intro cls st c
    simp only [instOps, instTransform]
    cases c.val with
    | none => exact Wk.pure _
    | dict kvs =>
      exact (wk_findDest ih cls c kvs).bind (fun d => (wk_applyDict (fun cls f hf c => wk_chain ih f.chain (hu cls f hf) c) cls st c d.1 d.2 kvs).bind
        (fun _ => Wk.pure _))
    | _ => exact Wk.pure _

theorem wk_setAll (i : Nat) (kvs : List (String × Val)) : Wk W (setAll env i kvs) := by
  induction kvs with
  | nil => exact Wk.pure ()
  | cons kv kvs ih => exact (Wk.setAttr _ _ _).bind (fun _ => ih)

end JC
