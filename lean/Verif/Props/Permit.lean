import Verif.Props.SubPipe
import Verif.Props.Json
import Verif.Props.Save

/-
C58: field permissions.
-/
namespace JC
variable {env : Env}

theorem isNone_false {v : Val} (h : v ≠ .none) : v.isNone = false := by
  cases hb : v.isNone with
  | false => rfl
  | true => exact absurd ((Val.isNone_iff _).1 hb) h

/-! ### Specification -/

/-- The operation is permitted at a place: there is an operator, and the checker pipeline is
satisfied there. -/
def MayOperate (h : Heap) (c : Ctx) (ls : List Leaf) : Prop := c.operator ≠ .none ∧ Satisfied h c ls

/-! ### The modifiers -/

theorem cancuCheck_iff {h : Heap} {ls : List Leaf} (hp : Proper h ls) (c : Ctx) :
    cancuCheck (.types (plain ls)) h c = .ok () ↔ MayOperate h c ls := by
  unfold cancuCheck MayOperate
  by_cases ho : c.operator = .none
  · simp [ho, Val.isNone]
  · simp only [isNone_false ho, Bool.false_eq_true, if_false, ne_eq, ho, not_false_eq_true, true_and]
    exact tryPipe_iff hp c _

/-- C58: `cancu` accepts exactly when the operation is permitted. -/
theorem cancu_iff {h : Heap} {ls : List Leaf} (hp : Proper h ls) (c : Ctx) :
    (cancuLeaf (.types (plain ls))).validate h c = .ok () ↔ MayOperate h c ls := cancuCheck_iff hp c

/-- C58: `canc` accepts exactly when the object is not new or the operation is permitted. -/
theorem canc_iff {h : Heap} {ls : List Leaf} (hp : Proper h ls) (c : Ctx) {o : Nat} (ho : c.owner = some o) :
    (cancLeaf (.types (plain ls))).validate h c = .ok () ↔ ((h o).isNew = true → MayOperate h c ls) := by
  simp only [cancLeaf, ho]
  by_cases hn : (h o).isNew = true
  · simp only [hn, if_true, forall_const]; exact cancuCheck_iff hp c
  · simp [hn]

/-- C58: `canu` accepts exactly when the object is new or the operation is permitted. -/
theorem canu_iff {h : Heap} {ls : List Leaf} (hp : Proper h ls) (c : Ctx) {o : Nat} (ho : c.owner = some o) :
    (canuLeaf (.types (plain ls))).validate h c = .ok () ↔ ((h o).isNew = false → MayOperate h c ls) := by
  simp only [canuLeaf, ho]
  by_cases hn : (h o).isNew = true
  · simp [hn]
  · simp only [hn, Bool.false_eq_true, if_false]
    rw [cancuCheck_iff hp c]
    simp

/-- C58: what is not permitted is reported at the field, and nothing else happens. -/
theorem refused_message {h : Heap} {ls : List Leaf} (ht : Tame h ls) {c : Ctx} (hn : ¬ MayOperate h c ls) :
    ∃ m, (cancuLeaf (.types (plain ls))).validate h c = .error (.validation [(c.sfkeypathr, m)]) := by
  simp only [cancuLeaf, cancuCheck]
  by_cases ho : c.operator = .none
  · exact ⟨"operator not present", by simp [ho, Val.isNone, Ctx.vexc]⟩
  · simp only [isNone_false ho, Bool.false_eq_true, if_false]
    exact ⟨"operation is not permitted", tryPipe_refused ht (fun hs => hn ⟨ho, hs⟩) _⟩

/-- C58: `canr` shows the value when reading is permitted … -/
theorem canr_shows {h : Heap} {ls : List Leaf} (hp : Proper h ls) {c : Ctx} (hs : MayOperate h c ls) :
    (canrLeaf (.types (plain ls))).tojson h c = .ok c.val := by
  obtain ⟨ho, t, hf, hv⟩ := hs
  simp only [canrLeaf, isNone_false ho, Bool.false_eq_true, if_false]
  rw [(plain_transform_iff h c ls t).2 hf]
  simp only
  rw [(plain_validate_iff hp _).2 hv]

/-- … and null when it is not. -/
theorem canr_hides {h : Heap} {ls : List Leaf} (ht : Tame h ls) {c : Ctx} (hs : ¬ MayOperate h c ls) :
    (canrLeaf (.types (plain ls))).tojson h c = .ok .none := by
  simp only [canrLeaf]
  by_cases ho : c.operator = .none
  · simp [ho, Val.isNone]
  · simp only [isNone_false ho, Bool.false_eq_true, if_false]
    obtain ⟨t, hf⟩ := tame_flows ht c c.val
    rw [(plain_transform_iff h c ls t).2 hf]
    simp only
    rcases tame_validate ht (c.nval t) with hv | ⟨m, hv⟩
    · exact absurd ⟨ho, t, hf, (plain_validate_iff ht.proper _).1 hv⟩ hs
    · rw [hv]

/-- C58, violation: a checker given as a callable makes every guarded create, update and read
raise AttributeError as soon as there is an operator. -/
theorem callable_checker_broken (n : Nat) (f : Heap → Ctx → Except Exc Val) (h : Heap) (c : Ctx) (ho : c.operator ≠ .none) :
    (cancuLeaf (.fn n f)).validate h c = .error .attributeError ∧
    (canrLeaf (.fn n f)).tojson h c = .error .attributeError ∧
    (∀ o, c.owner = some o → (h o).isNew = true → (cancLeaf (.fn n f)).validate h c = .error .attributeError) ∧
    (∀ o, c.owner = some o → (h o).isNew = false → (canuLeaf (.fn n f)).validate h c = .error .attributeError) := by
  refine ⟨?_, ?_, ?_, ?_⟩
  · simp [cancuLeaf, cancuCheck, isNone_false ho]
  · simp [canrLeaf, isNone_false ho]
  · intro o ho' hn; simp [cancLeaf, ho', hn, cancuCheck, isNone_false ho]
  · intro o ho' hn; simp [canuLeaf, ho', hn, cancuCheck, isNone_false ho]

/-! ### End to end: writing -/

/-- The place of a field of the object on which a method is called. -/
theorem fieldCtx_root (w : World) (i : Nat) (cfg : Cfg) (f : Field) (hf : f.ftype ≠ .inst) (v : Val) :
    (fieldCtx env w (rootCtx w i cfg (.obj i)) i f v).owner = some i ∧
    (fieldCtx env w (rootCtx w i cfg (.obj i)) i f v).operator = (w.heap i).operator ∧
    (fieldCtx env w (rootCtx w i cfg (.obj i)) i f v).val = v := by
  simp [fieldCtx, hf, rootCtx, Ctx.nextvo, Ctx.nextv]

/-- Which of the three write guards a modifier is: on creation, on update. -/
inductive WriteGuard where
  | onCreate | onUpdate | onBoth

/-- the modifier -/
def WriteGuard.leaf (g : WriteGuard) (chk : Check) : Leaf :=
  match g with
  | .onCreate => cancLeaf chk
  | .onUpdate => canuLeaf chk
  | .onBoth => cancuLeaf chk

/-- the guard is about objects in this state -/
def WriteGuard.Concerns (g : WriteGuard) (o : Obj) : Prop :=
  match g with
  | .onCreate => o.isNew = true
  | .onUpdate => o.isNew = false
  | .onBoth => True

theorem writeGuard_iff (g : WriteGuard) {h : Heap} {ls : List Leaf} (hp : Proper h ls) (c : Ctx) {o : Nat} (ho : c.owner = some o) :
    (g.leaf (.types (plain ls))).validate h c = .ok () ↔ (g.Concerns (h o) → MayOperate h c ls) := by
  cases g with
  | onCreate => exact canc_iff hp c ho
  | onUpdate => exact canu_iff hp c ho
  | onBoth => simp only [WriteGuard.Concerns, forall_const]; exact cancu_iff hp c

/-- C58 (partial): when `validate()` of an object succeeds, then each guarded field that is
validated (all fields of a new object, the modified ones of a persisted object, and all
relations) was permitted: the object has an operator and the checker is satisfied at the
field, with the object as the owner. Missing: fields that hold an object, for which it is
false (`object_field_guard_bypassed`). -/
theorem guard_checked_by_validate_partial (he : SoundEnv env) (w : World) (i : Nat) (all : Option Bool) (n : Nat)
    (hv : (apiValidate env n i all w).1 = .ok ())
    {f : Field} (hf : f ∈ (w.cdef env i).fields) (hm : MustCheck (w.heap i) f) (ht : f.ftype ≠ .inst)
    (g : WriteGuard) {ls : List Leaf} (hp : Proper w.heap ls) (hc : Checked f.chain (.leaf (g.leaf (.types (plain ls)))))
    (hg : g.Concerns (w.heap i)) :
    ∃ v c, w.getattr env i f.name = .ok v ∧ c.owner = some i ∧ c.operator = (w.heap i).operator ∧ c.val = v ∧
      MayOperate w.heap c ls := by
  obtain ⟨J, hroot, hJ⟩ := validate_sound_partial he w i all n hv
  obtain ⟨j, hj, -, hok⟩ := hJ _ hroot
  have : j = i := by simpa [rootCtx] using hj.symm
  subst this
  obtain ⟨v, hgv, hacc⟩ := hok f hf hm
  obtain ⟨h1, h2, h3⟩ := fieldCtx_root (env := env) w j { allFields := all } f ht v
  refine ⟨v, _, hgv, h1, h2, h3, ?_⟩
  cases hacc _ hc with
  | leaf hl => exact (writeGuard_iff g hp _ h1).1 hl hg

/-- C58 (partial): whatever `save()` does, every object it writes was permitted: in the state
in which the object was validated directly before the write, each guarded field that is
validated had an operator satisfying the checker. -/
theorem guard_checked_by_save_partial (se : SaveEnv) (he : SoundEnv se.env) (all : Bool) (n i : Nat) (s : SState) :
    ∃ l, (saveObj se all false n i s).2.log = s.log ++ l ∧
      ∀ pre post j w', l = pre ++ .written j w' :: post → ∃ pre' w, pre = pre' ++ [.validated j w, .serialized j w'] ∧
        ∀ f ∈ (w.cdef se.env j).fields, MustCheck (w.heap j) f → f.ftype ≠ .inst →
          ∀ (g : WriteGuard) ls, Proper w.heap ls → Checked f.chain (.leaf (g.leaf (.types (plain ls)))) →
            g.Concerns (w.heap j) →
            ∃ v c, w.getattr se.env j f.name = .ok v ∧ c.owner = some j ∧ c.operator = (w.heap j).operator ∧ c.val = v ∧
              MayOperate w.heap c ls := by
  obtain ⟨l, hl, hw⟩ := save_writes_validated (se := se) all n i s
  refine ⟨l, hl, fun pre post j w' he' => ?_⟩
  obtain ⟨pre', w₁, w₂, hpre, hv, -⟩ := hw pre post j w' he'
  refine ⟨pre', w₁, hpre, fun f hf hm ht g ls hp hc hg => ?_⟩
  exact guard_checked_by_validate_partial he w₁ j (some all) se.depth (by rw [hv]) hf hm ht g hp hc hg

/-! ### End to end: reading -/

theorem reduceM_split {σ : Type} (f : Ops σ → Val → Py σ Val) (a b : List (Ops σ)) : ∀ v,
    reduceM f (a ++ b) v = (reduceM f a v >>= reduceM f b) := by
  induction a with
  | nil => intro v; funext s; rfl
  | cons m ms ih =>
    intro v
    funext s
    simp only [List.cons_append, reduceM, Py.bind_run]
    cases f m v s with
    | mk r s' =>
      cases r with
      | error e => rfl
      | ok v' => simp only [ih, Py.bind_run]

/-- A modifier whose output for null is null. -/
def KeepsNull (l : Leaf) : Prop := ∀ h c, c.val = .none → l.tojson h c = .ok .none

theorem keepsNull_tail (n : Nat) (c : Ctx) (ls : List Leaf) (hk : ∀ l ∈ ls, KeepsNull l) : ∀ w : World,
    reduceM (fun (m : Ops World) v => m.tojson (c.nval v)) (denL env (instOps env n) (ls.map .leaf)) .none w = (.ok .none, w) := by
  induction ls with
  | nil => intro w; rfl
  | cons l ls ih =>
    intro w
    simp only [List.map_cons, denL, reduceM, Py.bind_run, Mod.den, leafOps, readW]
    rw [hk l (by simp) w.heap (c.nval .none) rfl]
    exact ih (fun x hx => hk x (List.mem_cons_of_mem _ hx)) w

/-- The value converted by a chain that refuses to show it. -/
theorem refused_conversion (n : Nat) (w w₁ : World) (hsd : SameData w w₁) (c : Ctx) (A : List Mod) (B ls : List Leaf)
    (hB : ∀ l ∈ B, KeepsNull l) (ht : Tame w.heap ls) (hr : ∀ x, ¬ MayOperate w.heap (c.nval x) ls) (r : Val)
    (h : (chainTojson (denL env (instOps env n) (A ++ .leaf (canrLeaf (.types (plain ls))) :: B.map .leaf)) c w₁).1 = .ok r) :
    r = .none := by
  unfold chainTojson at h
  rw [denL_map, List.map_append, reduceM_split, Py.bind_run, ← denL_map] at h
  rcases hA : reduceM (fun (m : Ops World) v => m.tojson (c.nval v)) (denL env (instOps env n) A) c.val w₁ with ⟨ra, w₂⟩
  rw [hA] at h
  have hheap : w₂.heap = w.heap := by
    have := fieldTojson_sameData (env := env) n { chain := A } c w₁
    have h2 : ((Field.ops env (instOps env n) { chain := A }).tojson c w₁).2 = w₂ := congrArg Prod.snd hA
    rw [h2] at this
    exact this.1.trans hsd.1
  cases ra with
  | error e => cases h
  | ok x =>
    simp only [List.map_cons, reduceM, Py.bind_run, Mod.den, leafOps, readW] at h
    rw [hheap, canr_hides ht (hr x)] at h
    simp only at h
    rw [← denL_map, keepsNull_tail n c B hB w₂] at h
    injection h with h
    exact h.symm

theorem flatMap_nodup_eq {α β : Type} {l : List α} {g : α → List β} (h : (l.flatMap g).Nodup) {a b : α} (ha : a ∈ l) (hb : b ∈ l)
    {x : β} (hxa : x ∈ g a) (hxb : x ∈ g b) : a = b := by
  induction l with
  | nil => cases ha
  | cons y ys ih =>
    rw [List.flatMap_cons, List.nodup_append] at h
    obtain ⟨-, h2, h3⟩ := h
    rcases List.mem_cons.1 ha with rfl | ha' <;> rcases List.mem_cons.1 hb with rfl | hb'
    · rfl
    · exact absurd rfl (h3 x hxa x (List.mem_flatMap.2 ⟨b, hb', hxb⟩))
    · exact absurd rfl (h3 x hxb x (List.mem_flatMap.2 ⟨a, ha', hxa⟩))
    · exact ih h2 ha' hb'

theorem nodup_of_flatMap {α β : Type} {l : List α} {g : α → List β} (h : (l.flatMap g).Nodup) {a : α} (ha : a ∈ l) : (g a).Nodup := by
  induction l with
  | nil => cases ha
  | cons y ys ih =>
    rw [List.flatMap_cons, List.nodup_append] at h
    rcases List.mem_cons.1 ha with rfl | ha
    · exact h.1
    · exact ih h.2.1 ha

theorem keyPart_name {on : Bool} {o : Obj} {f : Field} {k : String} {x : Val} (h : (k, x) ∈ keyPart on o f) :
    f.store = .localKey ∧ k = f.jrefName := by
  unfold keyPart at h
  split at h
  · next hs =>
    rw [List.mem_singleton] at h
    exact ⟨hs.1, congrArg Prod.fst h⟩
  · cases h

theorem valPart_entry {on : Bool} {f : Field} {r : Val} {k : String} {x : Val} (h : (k, x) ∈ valPart on f r) :
    k = f.jsonName ∧ x = r := by
  unfold valPart at h
  split at h
  · rw [List.mem_singleton] at h
    exact ⟨congrArg Prod.fst h, congrArg Prod.snd h⟩
  · cases h

theorem entry_name_mem {on : Bool} {o : Obj} {f : Field} {r : Val} {k : String} {x : Val}
    (h : (k, x) ∈ keyPart on o f ∨ (k, x) ∈ valPart on f r) : k ∈ jsonNames f := by
  unfold jsonNames
  rcases h with h | h
  · obtain ⟨hs, rfl⟩ := keyPart_name h; simp [hs]
  · obtain ⟨rfl, -⟩ := valPart_entry h; split <;> simp

/-- C58: a field that may not be read is not shown. If `tojson()` succeeds, a field with the
chain `…, canr(checker), …` (the modifiers after it keeping null) for which reading is not
permitted, whatever the value, has no entry with a value under its name in the JSON. -/
theorem unreadable_not_shown (w : World) (n i : Nat) (ig rr : Bool) (on : Option Bool) (v : Val)
    (hnd : ((w.cdef env i).fields.flatMap jsonNames).Nodup)
    (hj : (apiTojson env (n + 1) i ig rr on w).1 = .ok v)
    {f : Field} (hf : f ∈ (w.cdef env i).fields) (A : List Mod) (B ls : List Leaf)
    (hc : f.chain = A ++ .leaf (canrLeaf (.types (plain ls))) :: B.map .leaf) (hB : ∀ l ∈ B, KeepsNull l)
    (ht : Tame w.heap ls)
    (hr : ∀ c : Ctx, c.operator = (w.heap i).operator → (f.ftype ≠ .inst → c.owner = some i) → ¬ MayOperate w.heap c ls) :
    ∃ kvs, v = .dict kvs ∧ ∀ x, (f.jsonName, x) ∈ kvs → x = .none := by
  obtain ⟨parts, hv, hp⟩ := tojson_entries w n i ig rr on v hnd hj
  refine ⟨_, hv, fun x hx => ?_⟩
  obtain ⟨p, hpp, hxp⟩ := List.mem_flatten.1 hx
  obtain ⟨g, hg, hgp⟩ := forall₂_mem hp hpp
  have hfn : f.jsonName ∈ jsonNames f := by unfold jsonNames; split <;> simp
  have hkey : ∀ {on : Bool}, (f.jsonName, x) ∈ keyPart on (w.heap i) f → False := by
    intro on hk
    obtain ⟨hs, he⟩ := keyPart_name hk
    have := nodup_of_flatMap hnd hf
    rw [jsonNames, if_pos hs, he] at this
    simp at this
  rcases hgp with ⟨-, rfl⟩ | ⟨-, r, hconv, rfl⟩
  · have : g = f := flatMap_nodup_eq hnd hg hf (entry_name_mem (r := .none) (Or.inl hxp)) hfn
    subst this
    exact (hkey hxp).elim
  · have : g = f := flatMap_nodup_eq hnd hg hf (entry_name_mem (List.mem_append.1 hxp)) hfn
    subst this
    rcases List.mem_append.1 hxp with hxp | hxp
    · exact (hkey hxp).elim
    · obtain ⟨-, rfl⟩ := valPart_entry hxp
      obtain ⟨u, ek, w₁, -, -, hsd, hrr⟩ := hconv
      have hrr' : (chainTojson (denL env (instOps env n) g.chain) (jsonCtx _ g u ek (w.heap i).cls (w.cdef env i).name) w₁).1 = .ok x := hrr
      rw [hc] at hrr'
      refine refused_conversion n w w₁ hsd _ A B ls hB ht (fun y => hr _ ?_ ?_) x hrr'
      · unfold jsonCtx; split <;> rfl
      · intro hni; simp only [jsonCtx, if_neg hni]; rfl

/-! ### The usual checker: the operator is the owner -/

/-- What the usual checker `types.getop.isobj(types.this.fval(name))` compares. -/
def ownerCheck (env : Env) (rt : RefTable) (name : String) : List Leaf :=
  [getopLeaf, isobjLeaf env rt (plain [thisLeaf, fvalLeaf env rt name])]

/-- The reference object made by `fval` of a class and a key reads back these. -/
def RefTable.Reads (rt : RefTable) (cls : String) (k : Val) : Prop := rt.get (rt.make cls k) = some (cls, k)

/-- Who the field `name` of object `o` names: the object in the field, or for a local key
field without a loaded object, the class of the relation and the stored key. -/
inductive Names (env : Env) (h : Heap) (o : Nat) (f : Field) : String → Val → Prop
  | loaded {x} : ({ heap := h } : World).getattr env o f.name = .ok (.obj x) →
      Names env h o f (h x).cls (({ heap := h } : World).id env x)
  | byKey {cls} : f.store = .localKey → ({ heap := h } : World).getattr env o f.name = .ok .none →
      instOfChain f.chain = some cls → (h o).attrs f.refName ≠ .none →
      Names env h o f cls ((h o).attrs f.refName)

theorem owner_getter (rt : RefTable) {h : Heap} {c : Ctx} {o : Nat} {f : Field} {name : String}
    (ho : c.owner = some o) (hf : (env.cls (h o).cls).field? name = some f) (hn : f.name = name)
    {cls : String} {k : Val} 
    (hrt : ({ heap := h } : World).getattr env o f.name = .ok .none → rt.Reads cls k) (hN : Names env h o f cls k) :
    ∃ that, (plain [thisLeaf, fvalLeaf env rt name]).transform h c = .ok that ∧ that.isNone = false ∧
      classAndKey env rt h that = .ok (cls, k) := by
  subst hn
  cases hN with
  | loaded hg =>
    rename_i x
    refine ⟨.obj x, (plain_transform_iff _ _ _ _).2 (.cons (v' := .obj o) (by simp [thisLeaf, ho, objVal, Ctx.nval])
      (.cons (v' := .obj x) ?_ (.nil _))), rfl, rfl⟩
    simp [fvalLeaf, Ctx.nval, hf, hg, Val.isNone]
  | byKey hs hg hi hk =>
    refine ⟨.other (rt.make cls ((h o).attrs f.refName)), (plain_transform_iff _ _ _ _).2
      (.cons (v' := .obj o) (by simp [thisLeaf, ho, objVal, Ctx.nval]) (.cons (v' := .other (rt.make cls ((h o).attrs f.refName))) ?_ (.nil _))), rfl, ?_⟩
    · have hk' := isNone_false hk
      simp only [fvalLeaf, Ctx.nval, hf, hg, hs, hi, hk']
      rfl
    · simp only [classAndKey]
      rw [show rt.get (rt.make cls ((h o).attrs f.refName)) = _ from hrt hg]

/-- C58: with the usual checker, an operator is let through exactly when it is of the class
and has the key that the field names. -/
theorem owner_only (rt : RefTable) {h : Heap} {c : Ctx} {o u : Nat} {f : Field} {name : String}
    (ho : c.owner = some o) (hu : c.operator = .obj u) (hf : (env.cls (h o).cls).field? name = some f) (hn : f.name = name)
    {cls : String} {k : Val} 
    (hrt : ({ heap := h } : World).getattr env o f.name = .ok .none → rt.Reads cls k) (hN : Names env h o f cls k) :
    MayOperate h c (ownerCheck env rt name) ↔ cls = (h u).cls ∧ pyEq k (({ heap := h } : World).id env u) = true := by
  have hflow : ∀ t, Flows h c (ownerCheck env rt name) c.val t ↔ t = .obj u := by
    intro t
    constructor
    · intro hfl
      cases hfl with
      | cons h1 h2 => cases h2 with
        | cons h3 h4 =>
          cases h4
          have e1 : Except.ok c.operator = _ := h1
          injection e1 with e1
          subst e1
          have e3 : Except.ok c.operator = _ := h3
          injection e3 with e3
          rw [← e3, hu]
    · rintro rfl
      rw [← hu]
      exact .cons rfl (.cons rfl (.nil _))
  have hval : (isobjLeaf env rt (plain [thisLeaf, fvalLeaf env rt name])).validate h (c.nval (.obj u)) = .ok () ↔
      cls = (h u).cls ∧ pyEq k (({ heap := h } : World).id env u) = true := by
    obtain ⟨that, ht, hne, hck⟩ := owner_getter rt (c := c.nval (.obj u)) ho hf hn hrt hN
    simp only [isobjLeaf, ht, hne, hck]
    have hcu : classAndKey env rt h (c.nval (.obj u)).val = .ok ((h u).cls, ({ heap := h } : World).id env u) := rfl
    have hvn : (c.nval (.obj u)).val.isNone = false := rfl
    simp only [hcu, hvn, Bool.false_eq_true, if_false]
    by_cases hb : (cls == (h u).cls && pyEq k (({ heap := h } : World).id env u)) = true
    · simp only [hb, if_true, true_iff]
      simpa using hb
    · simp only [hb]
      simp only [Bool.and_eq_true, beq_iff_eq] at hb
      simp [hb]
  unfold MayOperate Satisfied
  constructor
  · rintro ⟨-, t, hfl, hall⟩
    rw [(hflow t).1 hfl] at hall
    exact hval.1 (hall _ (by simp [ownerCheck]))
  · intro hb
    refine ⟨by rw [hu]; simp, .obj u, (hflow _).2 rfl, ?_⟩
    intro l hl
    simp only [ownerCheck, List.mem_cons, List.not_mem_nil, or_false] at hl
    rcases hl with rfl | rfl
    · rfl
    · exact hval.2 hb

/-- C58, violation: operators and owners without a key count as the same: any unsaved operator
is let through as the owner of an object owned by another unsaved object of that class. -/
theorem keyless_operator_passes (rt : RefTable) {h : Heap} {c : Ctx} {o u x : Nat} {f : Field} {name : String}
    (ho : c.owner = some o) (hu : c.operator = .obj u) (hf : (env.cls (h o).cls).field? name = some f) (hn : f.name = name)
    (hg : ({ heap := h } : World).getattr env o f.name = .ok (.obj x)) (hc : (h x).cls = (h u).cls)
    (hx : ({ heap := h } : World).id env x = .none) (hid : ({ heap := h } : World).id env u = .none) :
    MayOperate h c (ownerCheck env rt name) := by
  refine (owner_only rt ho hu hf hn (fun h0 => by rw [hg] at h0; injection h0 with h0; cases h0) (.loaded hg)).2 ⟨hc, ?_⟩
  rw [hx, hid]
  simp [pyEq]

/-- C58: `isthis` lets through exactly the object itself, and objects of the same class with an
equal key. -/
theorem isthis_iff {h : Heap} {c : Ctx} {o u : Nat} (ho : c.owner = some o) (hu : c.val = .obj u) :
    (isthisLeaf env).validate h c = .ok () ↔
      u = o ∨ ((h u).cls = (h o).cls ∧ pyEq (({ heap := h } : World).id env u) (({ heap := h } : World).id env o) = true) := by
  simp only [isthisLeaf, hu, ho]
  by_cases huo : u = o
  · simp [huo]
  · simp only [huo, if_false, false_or]
    split
    · next hb => simpa using hb
    · next hb =>
      simp only [Bool.and_eq_true, beq_iff_eq] at hb
      simp [hb]

end JC

/-! ### Concrete cases and violations -/
namespace JC.PermitDemo
open JC Demo

/-- references to user u1 -/
def rt : RefTable := { make := fun _ _ => 0, get := fun _ => some ("User", .str "u1") }

def fId : Field := { name := "id", jsonName := "id" }
def fBy : Field :=
  { name := "author", jsonName := "author", ftype := .inst, isInst := true, store := .localKey,
    refName := "author_id", jrefName := "authorId", chain := [.instOf "User" none] }
def user : ClassDef := { name := "User", fields := [fId], primary := some "id" }
/-- the part of the program that the checker reads: fields other than the guarded ones -/
def env0 : Env where
  cls := fun n =>
    if n = "User" then user
    else if n = "Post" then { name := "Post", primary := some "id", fields := [fId, fBy] }
    else {}
/-- `types.getop.isobj(types.this.fval('author'))` -/
def own : List Leaf := ownerCheck env0 rt "author"
/-- `types.str.canu(own)` and `types.str.canr(own)` -/
def fTitle : Field := { name := "title", jsonName := "title", chain := [.leaf (WriteGuard.leaf .onUpdate (.types (plain own)))] }
def fSecret : Field := { name := "secret", jsonName := "secret", chain := [.leaf (canrLeaf (.types (plain own)))] }
def post : ClassDef := { name := "Post", fields := [fId, fBy, fTitle, fSecret], primary := some "id" }

/-- `types.getop.isobjof(Admin)` -/
def admin : List Leaf := [getopLeaf, isobjofLeaf env0 "Admin"]
/-- a note whose author field is guarded itself: only an admin may change or read it -/
def fAuthor : Field := { fBy with
    chain := [.instOf "User" none, .leaf (WriteGuard.leaf .onUpdate (.types (plain admin))), .leaf (canrLeaf (.types (plain admin)))] }
def note : ClassDef := { name := "Note", fields := [fId, fAuthor], primary := some "id" }
def env : Env where
  cls := fun n => if n = "User" then user else if n = "Post" then post else if n = "Note" then note else {}

/-- user u1 wrote post 0, its title was changed; `op` is the operator -/
def world (op : Val) : World where
  heap := fun i => match i with
    | 0 => { cls := "Post", isNew := false, isModified := true, modFields := ["title"], operator := op,
             attrs := attrsOf [("id", .str "p"), ("title", .str "new"), ("secret", .str "s"), ("author_id", .str "u1")] }
    | 1 => { cls := "User", isNew := false, attrs := attrsOf [("id", .str "u1")] }
    | 2 => { cls := "User", isNew := false, attrs := attrsOf [("id", .str "u2")] }
    | _ => {}
  next := 3

/-- the author may change the title and read the secret, another user and nobody may not -/
example : (apiValidate env 5 0 none (world (.obj 1))).1 = .ok () := rfl
example : (apiValidate env 5 0 none (world (.obj 2))).1 = .error (.validation [("title", "operation is not permitted")]) := rfl
example : (apiValidate env 5 0 none (world .none)).1 = .error (.validation [("title", "operator not present")]) := rfl
example : (apiTojson env 5 0 false false none (world (.obj 1))).1 =
    .ok (.dict [("id", .str "p"), ("authorId", .str "u1"), ("title", .str "new"), ("secret", .str "s")]) := rfl
example : (apiTojson env 5 0 false false none (world (.obj 2))).1 =
    .ok (.dict [("id", .str "p"), ("authorId", .str "u1"), ("title", .str "new")]) := rfl

theorem cls_cases (cls : String) : env.cls cls = user ∨ env.cls cls = post ∨ env.cls cls = note ∨ env.cls cls = {} := by
  simp only [env]
  split
  · simp
  · split
    · simp
    · split <;> simp

theorem tryPipe_proper {p : Pipe} {h : Heap} {c : Ctx} {r : Except Exc Unit} (hr : r ≠ .error (.validation []))
    (ht : p.transform h c ≠ .error (.validation [])) : tryPipe p h c r ≠ .error (.validation []) := by
  unfold tryPipe
  cases hp : p.transform h c with
  | error e => rw [hp] at ht; exact fun he => ht (by injection he with he; rw [he])
  | ok t =>
    simp only
    cases p.validate h (c.nval t) with
    | ok u => simp
    | error e => cases e <;> simp [hr]

theorem own_transform (h : Heap) (c : Ctx) : (plain own).transform h c = .ok c.operator := rfl
theorem admin_transform (h : Heap) (c : Ctx) : (plain admin).transform h c = .ok c.operator := rfl

theorem guard_proper (ls : List Leaf) (ht : ∀ h c, (plain ls).transform h c = .ok c.operator) (h : Heap) (c : Ctx) :
    (WriteGuard.leaf .onUpdate (.types (plain ls))).validate h c ≠ .error (.validation []) := by
  simp only [WriteGuard.leaf, canuLeaf]
  split
  · simp
  · split
    · simp
    · unfold cancuCheck
      split
      · simp [Ctx.vexc]
      · exact tryPipe_proper (by simp [Ctx.vexc]) (by rw [ht]; simp)

theorem soundEnv : SoundEnv env where
  errors := by
    constructor
    · intro cls f hf
      rcases cls_cases cls with h | h | h | h <;> rw [h] at hf
      · simp only [user, List.mem_cons, List.not_mem_nil, or_false] at hf
        subst hf; simp [fId, Mod.AllL]
      · simp only [post, List.mem_cons, List.not_mem_nil, or_false] at hf
        rcases hf with rfl | rfl | rfl | rfl
        · simp [fId, Mod.AllL]
        · simp [fBy, Mod.AllL, Mod.All]
        · simp only [fTitle, Mod.AllL, Mod.All, and_true]; exact guard_proper own own_transform
        · simp only [fSecret, Mod.AllL, Mod.All, and_true]; intro _ _; simp [canrLeaf]
      · simp only [note, List.mem_cons, List.not_mem_nil, or_false] at hf
        rcases hf with rfl | rfl
        · simp [fId, Mod.AllL]
        · simp only [fAuthor, Mod.AllL, Mod.All, and_true, true_and]
          exact ⟨guard_proper admin admin_transform, fun _ _ => by simp [canrLeaf]⟩
      · cases hf
    · intro cls f hf
      rcases cls_cases cls with h | h | h | h <;> rw [h] at hf
      · simp only [user, List.mem_cons, List.not_mem_nil, or_false] at hf
        subst hf; intro _ _ _ h; cases h
      · simp only [post, List.mem_cons, List.not_mem_nil, or_false] at hf
        rcases hf with rfl | rfl | rfl | rfl <;> intro _ _ _ h <;> cases h
      · simp only [note, List.mem_cons, List.not_mem_nil, or_false] at hf
        rcases hf with rfl | rfl <;> intro _ _ _ h <;> cases h
      · cases hf
  unions := by
    intro cls f hf
    rcases cls_cases cls with h | h | h | h <;> rw [h] at hf
    · simp only [user, List.mem_cons, List.not_mem_nil, or_false] at hf
      subst hf; simp [fId, Mod.PlainUnionsL]
    · simp only [post, List.mem_cons, List.not_mem_nil, or_false] at hf
      rcases hf with rfl | rfl | rfl | rfl <;> simp [fId, fBy, fTitle, fSecret, Mod.PlainUnionsL, Mod.PlainUnions]
    · simp only [note, List.mem_cons, List.not_mem_nil, or_false] at hf
      rcases hf with rfl | rfl <;> simp [fId, fAuthor, Mod.PlainUnionsL, Mod.PlainUnions]
    · cases hf

/-- reading a field of an object raises no validation error here -/
theorem fval_errors (h : Heap) (c : Ctx) (m : List (String × String)) :
    (fvalLeaf env0 rt "author").transform h c ≠ .error (.validation m) := by
  have hg : ∀ i, ∃ v, ({ heap := h } : World).getattr env0 i "author" = .ok v := by
    intro i
    unfold World.getattr
    split
    · next f hf =>
      split
      · next hs =>
        have : f = fBy ∨ False := by
          simp only [World.cdef, env0] at hf
          split at hf
          · cases hf
          · split at hf
            · left
              have h2 : some fBy = some f := hf
              exact (Option.some.inj h2).symm
            · cases hf
        rcases this with rfl | hF
        · cases hs
        · exact hF.elim
      · exact ⟨_, rfl⟩
    · exact ⟨_, rfl⟩
  simp only [fvalLeaf]
  split
  · simp
  · next i _ =>
    split
    · simp
    · obtain ⟨v, hv⟩ := hg i
      rw [hv]
      simp only
      split
      · split
        · simp
        · split <;> simp
      · simp
  · simp

theorem getter_errors (h : Heap) (c : Ctx) (m : List (String × String)) :
    (plain [thisLeaf, fvalLeaf env0 rt "author"]).transform h c ≠ .error (.validation m) := by
  have : (plain [thisLeaf, fvalLeaf env0 rt "author"]).transform h c =
      (fvalLeaf env0 rt "author").transform h (c.nval (objVal c.owner)) := by
    unfold Pipe.transform chainTransform
    rw [(plain_staged h _).tvs_eq, (plain_staged h _).nvs_eq]
    simp only [plain, List.map_cons, List.map_nil, reduceM, LMod.ops, Py.bind_run, Py.pure_run]
    simp only [thisLeaf, Ctx.nval]
    split <;> simp_all
  rw [this]
  exact fval_errors h _ m

theorem classAndKey_errors (h : Heap) (v : Val) (m : List (String × String)) :
    classAndKey env0 rt h v ≠ .error (.validation m) := by
  cases v <;> simp [classAndKey, rt]

theorem own_tame (h : Heap) (l : Leaf) (hl : l ∈ own) : (∀ c, ∃ t, l.transform h c = .ok t) ∧
    ∀ c, l.validate h c ≠ .error (.validation []) := by
  simp only [own, ownerCheck, List.mem_cons, List.not_mem_nil, or_false] at hl
  rcases hl with rfl | rfl
  · exact ⟨fun c => ⟨_, rfl⟩, fun c => by simp [getopLeaf]⟩
  · refine ⟨fun c => ⟨_, rfl⟩, fun c => ?_⟩
    simp only [isobjLeaf]
    split
    · simp [Ctx.vexc]
    · split
      · next e he => exact fun hc => getter_errors h c [] (by rw [he]; injection hc with hc; rw [hc])
      · split
        · simp [Ctx.vexc]
        · split
          · next e he => exact fun hc => classAndKey_errors h _ [] (by rw [he]; injection hc with hc; rw [hc])
          · split
            · next e he => exact fun hc => classAndKey_errors h _ [] (by rw [he]; injection hc with hc; rw [hc])
            · split <;> simp [Ctx.vexc]

theorem own_proper (h : Heap) : Proper h own := fun l hl c => (own_tame h l hl).2 c

/-- the hypotheses of the end to end theorem hold for the changed title -/
example : ∃ v c, (world (.obj 1)).getattr env 0 "title" = .ok v ∧ c.owner = some 0 ∧ c.operator = .obj 1 ∧ c.val = v ∧
    MayOperate (world (.obj 1)).heap c own :=
  guard_checked_by_validate_partial soundEnv (world (.obj 1)) 0 none 5 rfl (f := fTitle) (by simp [World.cdef, world, env, post])
    (by intro _ _; decide) (by decide) .onUpdate (own_proper _)
    (checked_single _ rfl rfl) rfl

/-- the usual checker, by the key of an author that is not loaded -/
example : MayOperate (world (.obj 1)).heap { owner := some 0, operator := .obj 1 } own :=
  (owner_only (env := env0) rt (f := fBy) (name := "author") rfl rfl rfl rfl (fun _ => rfl)
    (.byKey (cls := "User") rfl rfl rfl (by simp [world, attrsOf, dictGet, fBy]))).2 ⟨rfl, rfl⟩
example : ¬ MayOperate (world (.obj 2)).heap { owner := some 0, operator := .obj 2 } own := by
  intro h
  have := (owner_only (env := env0) rt (f := fBy) (name := "author") rfl rfl rfl rfl (fun _ => rfl)
    (.byKey (cls := "User") rfl rfl rfl (by simp [world, attrsOf, dictGet, fBy]))).1 h
  exact absurd this.2 (by decide +kernel)

theorem admin_tame (h : Heap) : Tame h admin := by
  intro l hl
  simp only [admin, List.mem_cons, List.not_mem_nil, or_false] at hl
  rcases hl with rfl | rfl
  · exact ⟨fun c => ⟨_, rfl⟩, fun c e he => by cases he⟩
  · refine ⟨fun c => ⟨_, rfl⟩, fun c e he => ?_⟩
    simp only [isobjofLeaf] at he
    split at he
    · injection he with he; exact ⟨_, he.symm, by simp⟩
    · split at he
      · cases he
      · injection he with he; exact ⟨_, he.symm, by simp⟩
    · injection he with he; exact ⟨_, he.symm, by simp⟩

/-- note 0 was written by user 1; its author was replaced by `a`, nobody operates -/
def noteWorld (a : Val) (op : Val) : World where
  heap := fun i => match i with
    | 0 => { cls := "Note", isNew := false, isModified := true, modFields := ["author"], operator := op,
             attrs := attrsOf [("id", .str "n"), ("author", a), ("author_id", .str "u1")] }
    | 1 => { cls := "User", isNew := true, attrs := attrsOf [("id", .str "u9")] }
    | _ => {}
  next := 2

/-- C58, violation: a `canu` guard on a field that holds an object asks whether that object is
new, not the one being updated: replacing the author of a persisted note by a new user passes
validation without any operator. -/
theorem object_field_guard_bypassed :
    Checked fAuthor.chain (.leaf (WriteGuard.leaf .onUpdate (.types (plain admin)))) ∧
    ((noteWorld (.obj 1) .none).heap 0).isNew = false ∧ ((noteWorld (.obj 1) .none).heap 0).operator = .none ∧
    "author" ∈ ((noteWorld (.obj 1) .none).heap 0).modFields ∧
    (apiValidate env 5 0 none (noteWorld (.obj 1) .none)).1 = .ok () :=
  ⟨⟨[.instOf "User" none], [.leaf (canrLeaf (.types (plain admin)))], rfl, by simp [Mod.isEagerM], by simp [Mod.isPreM]⟩,
    rfl, rfl, by simp [noteWorld], rfl⟩

/-- C58, violation: with such a guard a persisted object without the relation cannot be
validated at all: AttributeError, whoever operates. -/
theorem object_field_guard_crashes (op : Val) :
    (apiValidate env 5 0 none (noteWorld .none op)).1 = .error .attributeError := rfl

/-- C58, violation: the key of a relation that may not be read is in the JSON. -/
theorem unreadable_relation_key_shown :
    (apiTojson env 5 0 false false none (noteWorld .none .none)).1 =
      .ok (.dict [("id", .str "n"), ("authorId", .str "u1")]) ∧
    ∀ c : Ctx, c.operator = .none → ¬ MayOperate (noteWorld .none .none).heap c admin :=
  ⟨rfl, fun _ ho hp => hp.1 ho⟩

/-- two unsaved users: the second one passes as the author of the first one's post -/
def unsaved : Heap := fun i => match i with
  | 0 => { cls := "Post", attrs := attrsOf [("author", .obj 1)] }
  | _ => { cls := "User" }
example : MayOperate unsaved { owner := some 0, operator := .obj 2 } own :=
  keyless_operator_passes (env := env0) rt (o := 0) (u := 2) (x := 1) (f := fBy) rfl rfl rfl rfl rfl rfl rfl rfl

/-- the hypotheses of `unreadable_not_shown` hold for the author of a note -/
example : ∃ kvs, (Val.dict [("id", .str "n"), ("authorId", .str "u1")]) = .dict kvs ∧ ∀ x, ("author", x) ∈ kvs → x = .none :=
  unreadable_not_shown (env := env) (noteWorld (.obj 1) .none) 4 0 false false none _
    (by decide +kernel) (f := fAuthor) rfl (by simp [World.cdef, noteWorld, env, note])
    [.instOf "User" none, .leaf (WriteGuard.leaf .onUpdate (.types (plain admin)))] [] admin rfl (by simp) (admin_tame _)
    (fun _ ho _ hp => hp.1 ho)

end JC.PermitDemo
