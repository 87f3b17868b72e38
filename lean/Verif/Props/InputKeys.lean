import Verif.Props.Input
import Verif.Props.OwnedDict

/-
Input keys (C22): strict input rejects unknown keys before anything is written; otherwise
unknown keys have no effect.
-/
namespace JC
variable {env : Env}

/-! ### Specification -/

/-- The keys a class knows: names and JSON names of its fields, and the reference names (and
their JSON forms) of its local key relations. -/
def KnowsKey (cd : ClassDef) (k : String) : Prop :=
  ∃ f ∈ cd.fields, k = f.name ∨ k = f.jsonName ∨
    (f.store = .localKey ∧ (f.ftype = .inst ∨ f.ftype = .list) ∧ (k = f.refName ∨ k = f.jrefName))

instance (cd : ClassDef) (k : String) : Decidable (KnowsKey cd k) := by unfold KnowsKey; infer_instance

/-- the input without the keys the class does not know -/
def knownPart (cd : ClassDef) (kvs : List (String × Val)) : List (String × Val) := kvs.filter (fun kv => decide (KnowsKey cd kv.1))

/-- A class definition as produced by the decorator: the primary key is a field, and local
key relations are objects or lists. -/
structure Declared (cd : ClassDef) : Prop where
  primary : ∀ p, cd.primary = some p → ∃ f ∈ cd.fields, f.name = p
  localKey : ∀ f ∈ cd.fields, f.store = .localKey → f.ftype = .inst ∨ f.ftype = .list

theorem mem_availableNames (cd : ClassDef) (k : String) : k ∈ cd.availableNames ↔ KnowsKey cd k := by
  simp only [ClassDef.availableNames, Field.hasRefName, KnowsKey, List.mem_append, List.mem_map, List.mem_filter, Bool.and_eq_true,
    Bool.or_eq_true, decide_eq_true_eq]
  constructor
  · rintro (((⟨f, h, rfl⟩ | ⟨f, h, rfl⟩) | ⟨f, ⟨h, h1⟩, rfl⟩) | ⟨f, ⟨h, h1⟩, rfl⟩)
    · exact ⟨f, h, .inl rfl⟩
    · exact ⟨f, h, .inr (.inl rfl)⟩
    · exact ⟨f, h, .inr (.inr ⟨h1.1, h1.2, .inl rfl⟩)⟩
    · exact ⟨f, h, .inr (.inr ⟨h1.1, h1.2, .inr rfl⟩)⟩
  · rintro ⟨f, h, rfl | rfl | ⟨h1, h2, rfl | rfl⟩⟩
    · exact .inl (.inl (.inl ⟨f, h, rfl⟩))
    · exact .inl (.inl (.inr ⟨f, h, rfl⟩))
    · exact .inl (.inr ⟨f, ⟨h, h1, h2⟩, rfl⟩)
    · exact .inr ⟨f, ⟨h, h1, h2⟩, rfl⟩

/-! ### Strict input -/

theorem strictCheck_unknown {c : Ctx} {names : List String} {pre post : List (String × Val)} {k : String} {v : Val}
    (hpre : ∀ e ∈ pre, e.1 ∈ names) (hk : k ∉ names) :
    strictCheck c names (pre ++ (k, v) :: post) =
      .error (.validation [(concatKeypath [.s (dotJoin (c.keypathr.map Key.str)), .s k], "key is not allowed")]) := by
  induction pre with
  | nil => simp [strictCheck, hk]
  | cons e pre ih =>
    obtain ⟨k', v'⟩ := e
    simp only [List.cons_append, strictCheck]
    rw [if_pos (hpre (k', v') (by simp))]
    exact ih (fun e he => hpre e (by simp [he]))

theorem concat_empty (k : String) : concatKeypath [.s "", .s k] = k := by
  by_cases h : k.toList.length > 0
  · simp [concatKeypath, Key.str, h, dotJoin, joinL]
  · have : k = "" := by
      have h' : k.toList = [] := by
        cases hk : k.toList with
        | nil => rfl
        | cons a b => rw [hk] at h; simp at h
      have := congrArg String.ofList h'
      simpa using this
    subst this
    rfl

/-- **C22, strict**: if the input of `set()` has an unknown key, the call raises a validation
error whose only entry names the first unknown key, and no object changes at all. -/
theorem strict_rejects {w : World} {i : Nat} {pre post : List (String × Val)} {k : String} {v : Val}
    (hs : (w.cdef env i).strictInput = true) (hpre : ∀ e ∈ pre, KnowsKey (w.cdef env i) e.1) (hk : ¬ KnowsKey (w.cdef env i) k) (n : Nat) :
    apiSet env (n + 1) i (pre ++ (k, v) :: post) w = (.error (.validation [(k, "key is not allowed")]), w) := by
  have hcheck : ∀ c : Ctx, c.keypathr = [] → strictCheck c (w.cdef env i).availableNames (pre ++ (k, v) :: post) =
      .error (.validation [(k, "key is not allowed")]) := by
    intro c hc
    rw [strictCheck_unknown (fun e he => (mem_availableNames _ _).2 (hpre e he)) (fun h => hk ((mem_availableNames _ _).1 h)), hc]
    have : dotJoin (([] : List Key).map Key.str) = "" := rfl
    rw [this, concat_empty]
  generalize hkvs : pre ++ (k, v) :: post = kvs at *
  unfold apiSet setDict
  rw [Py.bind_run, Py.get_run]
  simp only []
  rw [Py.bind_run]
  unfold withFreshMarks
  rw [root_transform]
  have happ : ∀ w', w'.heap = w.heap → applyDict env (Field.ops env (instOps env n)) (w.heap i).cls none
      (rootCtx w i { fillBlanks := false, allFields := some false } (.dict kvs)) i false kvs w' =
        (.error (.validation [(k, "key is not allowed")]), w') := by
    intro w' hw'
    have hcd : w'.cdef env i = w.cdef env i := by unfold World.cdef; rw [hw']
    unfold applyDict
    rw [Py.bind_run, Py.get_run]
    simp only [hcd]
    have hs' : (none : Option Bool).getD (env.cls (w.heap i).cls).strictInput = true := hs
    rw [Py.bind_run, hs']
    simp only [pyWhen, if_true, readW]
    rw [hcheck _ rfl]
  rw [Py.bind_run]
  have hmark : ∀ pk, ∃ w', (pyWhen (!pk.isNone) (Py.modify (fun w => w.markPutp env pk i))) { w with marks := [] } = (.ok (), w') ∧
      { w' with marks := w.marks } = w ∧ w'.heap = w.heap := by
    intro pk
    unfold pyWhen
    split
    · exact ⟨_, rfl, rfl, rfl⟩
    · exact ⟨_, rfl, rfl, rfl⟩
  obtain ⟨w', h1, h2, h3⟩ := hmark (inputPk env (w.heap i).cls kvs)
  rw [h1]
  simp only []
  rw [Py.bind_run, happ w' h3]
  simp only []
  rw [h2]

/-! ### Unknown keys otherwise -/

/-- the two inputs agree on the keys that are read for the field -/
def ReadsSame (f : Field) (kvs kvs' : List (String × Val)) : Prop :=
  dictGet kvs f.jsonName = dictGet kvs' f.jsonName ∧ dictGet kvs f.name = dictGet kvs' f.name ∧
    (f.store = .localKey → dictGet kvs f.refName = dictGet kvs' f.refName ∧ dictGet kvs f.jrefName = dictGet kvs' f.jrefName)

theorem hasFieldValue_congr {f : Field} {kvs kvs' : List (String × Val)} (h : ReadsSame f kvs kvs') :
    hasFieldValue f kvs = hasFieldValue f kvs' := by
  unfold hasFieldValue; rw [h.1, h.2.1]

theorem transformField_congr {ops : Field → Ops World} {c : Ctx} {v : Val} {dest : Nat} {soft : Bool} {kvs kvs' : List (String × Val)} {f : Field}
    (h : ReadsSame f kvs kvs') : transformField env ops c dest soft kvs f = transformField env ops (c.nval v) dest soft kvs' f := by
  have hv : getFieldValue f kvs = getFieldValue f kvs' := by
    unfold getFieldValue getD; rw [h.1, h.2.1]
  have hd : fillDefault env ops (c.nval v) dest f = fillDefault env ops c dest f := rfl
  unfold transformField
  rw [hasFieldValue_congr h]
  split
  · unfold presentField
    rw [hv, hd]
    rfl
  · unfold absentField
    split
    · split
      · rename_i hl
        obtain ⟨h1, h2⟩ := h.2.2 hl
        unfold setRefKey getD
        rw [h1, h2]
      · rfl
    · rw [hd]
      rfl

theorem transformFields_congr {ops : Field → Ops World} {c : Ctx} {v : Val} {dest : Nat} {soft : Bool} {kvs kvs' : List (String × Val)}
    {fs : List Field} (h : ∀ f ∈ fs, ReadsSame f kvs kvs') :
    transformFields env ops c dest soft kvs fs = transformFields env ops (c.nval v) dest soft kvs' fs := by
  induction fs with
  | nil => rfl
  | cons f fs ih =>
    unfold transformFields
    rw [transformField_congr (v := v) (h f (by simp)), ih (fun f' h' => h f' (by simp [h']))]

theorem nonnullRefLists_congr {kvs kvs' : List (String × Val)} {fs : List Field} (h : ∀ f ∈ fs, ReadsSame f kvs kvs') :
    nonnullRefLists kvs fs = nonnullRefLists kvs' fs := by
  unfold nonnullRefLists
  congr 1
  refine List.filter_congr (fun f hf => ?_)
  rw [hasFieldValue_congr (h f hf)]

theorem applyDict_congr {ops : Field → Ops World} {cls : String} {st : Option Bool} {c : Ctx} {v : Val} {dest : Nat} {soft : Bool}
    {kvs kvs' : List (String × Val)} {w : World} (hs : st.getD (env.cls cls).strictInput = false)
    (h : ∀ f ∈ (w.cdef env dest).fields, ReadsSame f kvs kvs') :
    applyDict env ops cls st c dest soft kvs w = applyDict env ops cls st (c.nval v) dest soft kvs' w := by
  unfold applyDict
  rw [Py.bind_run, Py.bind_run, Py.get_run]
  simp only []
  rw [Py.bind_run, Py.bind_run, hs]
  simp only [pyWhen, Bool.false_eq_true, if_false, Py.pure_run]
  rw [transformFields_congr (v := v) h, nonnullRefLists_congr h]

theorem knownPart_reads {cd : ClassDef} (hd : Declared cd) (kvs : List (String × Val)) : ∀ f ∈ cd.fields, ReadsSame f kvs (knownPart cd kvs) := by
  have key : ∀ k, KnowsKey cd k → dictGet kvs k = dictGet (knownPart cd kvs) k := by
    intro k hk
    unfold knownPart
    rw [dictGet_filter (fun k => decide (KnowsKey cd k)), if_pos (by simpa using hk)]
  intro f hf
  refine ⟨key _ ⟨f, hf, .inr (.inl rfl)⟩, key _ ⟨f, hf, .inl rfl⟩, fun hl => ?_⟩
  have := hd.localKey f hf hl
  exact ⟨key _ ⟨f, hf, .inr (.inr ⟨hl, this, .inl rfl⟩)⟩, key _ ⟨f, hf, .inr (.inr ⟨hl, this, .inr rfl⟩)⟩⟩

theorem inputPk_known {cls : String} (hd : Declared (env.cls cls)) (kvs : List (String × Val)) :
    inputPk env cls kvs = inputPk env cls (knownPart (env.cls cls) kvs) := by
  unfold inputPk
  cases hp : (env.cls cls).primary with
  | none => rfl
  | some p =>
    obtain ⟨f, hf, rfl⟩ := hd.primary p hp
    simp only [getD]
    rw [(knownPart_reads hd kvs f hf).2.1]

/-- a dict given to a fixed object, with and without its unknown keys -/
theorem setDict_known {w : World} {i n : Nat} {kvs : List (String × Val)} {fill : Bool} (hd : Declared (w.cdef env i))
    (hs : (w.cdef env i).strictInput = false) :
    setDict (instOps env n) i kvs fill w = setDict (instOps env n) i (knownPart (w.cdef env i) kvs) fill w := by
  unfold setDict
  rw [Py.bind_run, Py.bind_run, Py.get_run]
  simp only []
  cases n with
  | zero => rfl
  | succ n =>
    rw [Py.bind_run, Py.bind_run]
    unfold withFreshMarks
    rw [root_transform, root_transform, inputPk_known (env := env) (cls := (w.heap i).cls) hd kvs]
    have happ : ∀ w', w'.heap = w.heap → applyDict env (Field.ops env (instOps env n)) (w.heap i).cls none
        (rootCtx w i { fillBlanks := fill, allFields := some false } (.dict kvs)) i false kvs w' =
          applyDict env (Field.ops env (instOps env n)) (w.heap i).cls none
        (rootCtx w i { fillBlanks := fill, allFields := some false } (.dict (knownPart (w.cdef env i) kvs))) i false (knownPart (w.cdef env i) kvs) w' := by
      intro w' hw'
      have hcd : w'.cdef env i = w.cdef env i := by unfold World.cdef; rw [hw']
      exact applyDict_congr (v := .dict (knownPart (w.cdef env i) kvs)) hs (by rw [hcd]; exact knownPart_reads hd kvs)
    rw [Py.bind_run, Py.bind_run]
    have hcd : w.cdef env i = env.cls (w.heap i).cls := rfl
    rw [← hcd]
    have hmark : ∀ pk, ∃ w', (pyWhen (!pk.isNone) (Py.modify (fun w => w.markPutp env pk i))) { w with marks := [] } = (.ok (), w') ∧
        w'.heap = w.heap := by
      intro pk
      unfold pyWhen
      split
      · exact ⟨_, rfl, rfl⟩
      · exact ⟨_, rfl, rfl⟩
    obtain ⟨w', h1, h3⟩ := hmark (inputPk env (w.heap i).cls (knownPart (w.cdef env i) kvs))
    rw [h1]
    simp only []
    rw [Py.bind_run, Py.bind_run, happ w' h3]

/-- **C22, not strict**: unknown keys have no effect at all on `set()`: the result and all
objects afterwards are those of the same call without them. -/
theorem unknown_keys_ignored {w : World} {i : Nat} (hd : Declared (w.cdef env i)) (hs : (w.cdef env i).strictInput = false) (n : Nat)
    (kvs : List (String × Val)) : apiSet env n i kvs w = apiSet env n i (knownPart (w.cdef env i) kvs) w := setDict_known hd hs

/-- The same for the constructor. -/
theorem unknown_keys_ignored_new {w : World} {cls : String} (hd : Declared (env.cls cls)) (hs : (env.cls cls).strictInput = false) (n : Nat)
    (kvs : List (String × Val)) : apiNew env n cls kvs w = apiNew env n cls (knownPart (env.cls cls) kvs) w := by
  unfold apiNew newObj
  split
  · rfl
  · rw [Py.bind_run, Py.bind_run]
    have hc : ((alloc env cls w).2.cdef env w.next) = env.cls cls := by simp [World.cdef, alloc, freshObj]
    have hr : (alloc env cls w).1 = .ok w.next := rfl
    rcases ha : alloc env cls w with ⟨r, w'⟩
    rw [ha] at hc hr
    simp only at hc hr
    subst hr
    simp only []
    rw [Py.bind_run, Py.bind_run, setDict_known (by rw [hc]; exact hd) (by rw [hc]; exact hs), hc]

/-! ### Nested dicts -/

theorem clsInv_in {i : Nat} {cls : String} : InClosed env 0 (fun w => i < w.next ∧ (w.heap i).cls = cls) where
  quiet := fun w w' h hq => ⟨by rw [hq.1]; exact h.1, by rw [(hq.2.2 i).1]; exact h.2⟩
  rel := fun w j n v _ h => ⟨h.1, by rw [rawSet_cls]; exact h.2⟩
  marks := fun w ms h => h
  new := fun w j n v _ h => ⟨h.1, by rw [rawSet_cls]; exact h.2⟩
  alloc := fun w c h => ⟨Nat.lt_succ_of_lt h.1, by rw [alloc_heap (Nat.ne_of_lt h.1)]; exact h.2⟩
  next := fun w h => Nat.zero_le _

theorem newObj_cls (hE : EagerSafe env) {n i : Nat} {cls : String} {kvs : List (String × Val)} {w w' : World}
    (h : newObj env (instOps env n) cls kvs w = (.ok i, w')) : (w'.heap i).cls = cls := by
  unfold newObj at h
  split at h
  · cases h
  · rw [Py.bind_run] at h
    have hi : (alloc env cls w).2.next = w.next + 1 ∧ ((alloc env cls w).2.heap w.next).cls = cls := by
      constructor
      · rfl
      · simp [alloc, freshObj]
    have hr : (alloc env cls w).1 = .ok w.next := rfl
    rcases ha : alloc env cls w with ⟨r, wa⟩
    rw [ha] at hi hr h
    simp only at hi hr
    subst hr
    simp only at h
    have C : InClosed env 0 (fun w' => w.next < w'.next ∧ (w'.heap w.next).cls = cls) := clsInv_in
    have hk : Kp' (fun w' : World => w.next < w'.next ∧ (w'.heap w.next).cls = cls)
        (setDict (instOps env n) w.next kvs true >>= fun _ => graphPutSelf env w.next >>= fun _ => (pure w.next : Py World Nat)) := by
      refine Kp.bind' ?_ (fun _ => (kp_graphPutSelf C.toLinkClosed _).bind' (fun _ => Kp.pure' _))
      unfold setDict
      refine Kp.get.bind (fun w' _ => ?_)
      exact (kp_freshMarks_new C (kp_instTransform_new C hE n _ _ _ (fun o _ => Nat.zero_le o))).bind' (fun _ => Kp.pure' ())
    have := (hk wa ⟨by rw [hi.1]; omega, hi.2⟩).1
    rw [h] at this
    have hidx : i = w.next := by
      rw [Py.bind_run] at h
      split at h
      · rw [Py.bind_run] at h
        split at h
        · simp only [Py.pure_run, Prod.mk.injEq, Except.ok.injEq] at h
          exact h.1.symm
        · cases h
      · cases h
    rw [hidx]
    exact this.2

/-- **C22 for nested dicts**: where a dict stands for an object of a class that is not
strict, the keys unknown to that class have no effect at all. The mark graph holds objects
under their own class, as it does throughout a call (it is empty at the beginning). -/
theorem nested_unknown_keys_ignored (hE : EagerSafe env) {cls : String} {st : Option Bool} (hd : Declared (env.cls cls))
    (hs : st.getD (env.cls cls).strictInput = false) {c : Ctx} {kvs : List (String × Val)} {w : World} (ho : c.original = none)
    (hm : ∀ e ∈ w.marks, (w.heap e.2).cls = e.1.1) (n : Nat) :
    (instOps env n cls st).transform (c.nval (.dict kvs)) w =
      (instOps env n cls st).transform (c.nval (.dict (knownPart (env.cls cls) kvs))) w := by
  cases n with
  | zero => rfl
  | succ n =>
    simp only [instOps, instTransform, Ctx.nval]
    have hfd : findDest env (instOps env n) cls { c with val := .dict kvs } kvs =
        findDest env (instOps env n) cls { c with val := .dict (knownPart (env.cls cls) kvs) } (knownPart (env.cls cls) kvs) := by
      simp only [findDest, ho]
      rw [inputPk_known hd kvs]
    have ho' : ({ c with val := .dict kvs } : Ctx).original = none := ho
    rw [← hfd, Py.bind_run, Py.bind_run]
    rcases hr : findDest env (instOps env n) cls { c with val := .dict kvs } kvs w with ⟨r, w₁⟩
    cases r with
    | error e => rfl
    | ok d =>
      simp only []
      have hcls : (w₁.heap d.1).cls = cls := by
        unfold findDest at hr
        rw [ho'] at hr
        simp only [] at hr
        split at hr
        · rw [Py.bind_run] at hr
          split at hr
          · rename_i i w' hn
            rw [Py.bind_run, Py.modify_run] at hr
            simp only [Py.pure_run, Prod.mk.injEq, Except.ok.injEq] at hr
            obtain ⟨rfl, rfl⟩ := hr
            obtain ⟨k, hk⟩ := markPut_cons env i w'
            rw [hk]
            have := newObj_cls hE hn
            exact this
          · cases hr
        · rw [Py.bind_run, Py.get_run] at hr
          simp only [] at hr
          cases hl : mLookup (cls, .pk (env.pystr (inputPk env cls kvs))) w.marks with
          | some o =>
            rw [hl] at hr
            simp only [Py.pure_run, Prod.mk.injEq, Except.ok.injEq] at hr
            obtain ⟨rfl, rfl⟩ := hr
            have : ∀ l : List ((String × MarkKey) × Nat), (∀ e ∈ l, (w.heap e.2).cls = e.1.1) → ∀ k o, mLookup k l = some o → (w.heap o).cls = k.1 := by
              intro l
              induction l with
              | nil => intro _ k o h; cases h
              | cons e l ih =>
                intro hl k o h
                obtain ⟨k', o'⟩ := e
                unfold mLookup at h
                split at h
                · rename_i hk
                  cases h
                  rw [← hk]
                  exact hl (k', o) (by simp)
                · exact ih (fun e he => hl e (by simp [he])) k o h
            exact this _ hm _ _ hl
          | none =>
            rw [hl] at hr
            simp only [] at hr
            rw [Py.bind_run] at hr
            split at hr
            · rename_i i w' hn
              rw [Py.bind_run, Py.modify_run] at hr
              simp only [Py.pure_run, Prod.mk.injEq, Except.ok.injEq] at hr
              obtain ⟨rfl, rfl⟩ := hr
              have := newObj_cls hE hn
              exact this
            · cases hr
      have happ := applyDict_congr (env := env) (ops := Field.ops env (instOps env n)) (cls := cls) (st := st)
        (c := { c with val := .dict kvs }) (v := .dict (knownPart (env.cls cls) kvs)) (dest := d.1) (soft := d.2)
        (kvs := kvs) (kvs' := knownPart (env.cls cls) kvs) (w := w₁) hs
        (by unfold World.cdef; rw [hcls]; exact knownPart_reads hd kvs)
      rw [Py.bind_run, Py.bind_run, happ]
      rfl

end JC

namespace JC.InputDemo
open JC

theorem doc_declared : Declared doc := ⟨by intro p hp; cases hp; exact ⟨JC.Demo.fId, by simp [doc], rfl⟩, by decide⟩

/-- the same classes with strict input -/
def strictEnv : Env := { env with cls := fun n => { env.cls n with strictInput := true } }

example (n : Nat) : apiSet strictEnv (n + 1) 0 [("title", .str "t1"), ("maker_id", .str "u9"), ("nope", .int 1), ("also", .none)] world =
    (.error (.validation [("nope", "key is not allowed")]), world) :=
  strict_rejects (pre := [("title", .str "t1"), ("maker_id", .str "u9")]) rfl (by decide) (by decide) n

/-- unknown keys next to known ones -/
example (n : Nat) : apiSet env n 0 [("nope", .int 1), ("title", .str "t1"), ("nopeId", .str "x"), ("ownerId", .str "u3")] world =
    apiSet env n 0 [("title", .str "t1"), ("ownerId", .str "u3")] world :=
  unknown_keys_ignored (env := env) (w := world) (i := 0) doc_declared rfl n _

example (n : Nat) : apiNew env n "Doc" [("nope", .int 1), ("title", .str "t1")] world = apiNew env n "Doc" [("title", .str "t1")] world :=
  unknown_keys_ignored_new (env := env) (cls := "Doc") doc_declared rfl n _

example (n : Nat) (c : Ctx) (h : c.original = none) :
    (instOps env n "Doc" none).transform (c.nval (.dict [("nope", .int 1), ("title", .str "t1")])) world =
      (instOps env n "Doc" none).transform (c.nval (.dict [("title", .str "t1")])) world :=
  nested_unknown_keys_ignored eagerSafe (cls := "Doc") doc_declared rfl h (by intro e he; cases he) n

/-- Only the keys of the call itself are checked first: an unknown key inside a nested dict is
reported after fields before it have been written. -/
theorem nested_strict_not_atomic :
    (apiSet strictEnv 4 0 [("title", .str "t1"), ("sub", .dict [("nope", .int 1)])] world).1 =
        .error (.validation [("sub.nope", "key is not allowed")]) ∧
      (apiSet strictEnv 4 0 [("title", .str "t1"), ("sub", .dict [("nope", .int 1)])] world).2.attr 0 "title" = .str "t1" ∧
      world.attr 0 "title" = .str "t" := ⟨rfl, rfl, rfl⟩

end JC.InputDemo
