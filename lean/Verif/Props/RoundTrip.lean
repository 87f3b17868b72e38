import Verif.Props.Construct
import Verif.Props.Json
import Verif.Props.DateTime
import Verif.Props.EnumMod
import Verif.Model.Strings
import Verif.Props.Demo
import Mathlib.Tactic.Choose
import Mathlib.Data.List.Nodup
import Mathlib.Tactic.ByContra

/-
C55: an object built from the JSON of another has the same values.
-/
namespace JC
variable {env : Env}

/-! ### Specification -/

/-- a modifier that only validates -/
def Inert : Mod → Prop
  | .leaf l => ∀ h c, l.transform h c = .ok c.val ∧ l.tojson h c = .ok c.val
  | _ => False

/-- neither None, nor a list, dict or object -/
def Scalar : Val → Prop
  | .none => False
  | .list _ => False
  | .dict _ => False
  | .obj _ => False
  | _ => True

/-- the value comes back from its JSON form -/
def Survives (l : Leaf) (v : Val) : Prop :=
  ∃ j : Val, j.isNone = false ∧ (∀ h c, c.val = v → l.tojson h c = .ok j) ∧ (∀ h c, c.val = j → l.transform h c = .ok v)

/-- the type modifier of a chain treats None as None -/
def NullCore : Mod → Prop
  | .leaf l => ∀ h c, c.val = .none → l.tojson h c = .ok .none ∧ l.transform h c = .ok .none
  | .listOf nn _ _ => nn = false
  | .dictOf nn _ => nn = false
  | .instOf _ _ => True
  | _ => False

/-- a chain of validators around one type modifier, for which None is None -/
def NullOk (ch : List Mod) : Prop :=
  ∃ pre core post, ch = pre ++ core :: post ∧ (∀ m ∈ pre, Inert m) ∧ (∀ m ∈ post, Inert m) ∧ NullCore core

/-- a stored field that is input and output -/
structure DataField (f : Field) : Prop where
  store : f.store = .embedded
  writable : f.writeRule ≠ .noWrite
  readable : f.noRead = false
  null : NullOk f.chain

/-- a class of such fields with unambiguous names -/
structure DataClass (cd : ClassDef) : Prop where
  concrete : cd.isAbstract = false
  names : (cd.fields.map Field.name).Nodup
  jnames : (cd.fields.map Field.jsonName).Nodup
  nomix : ∀ f ∈ cd.fields, ∀ g ∈ cd.fields, g.jsonName = f.name → g = f
  key : ∀ p, cd.primary = some p → ∃ f ∈ cd.fields, f.name = p
  field : ∀ f ∈ cd.fields, DataField f

/-- A field of a nested object is filled with its default before the input is applied. The
default must be a scalar that can be replaced. -/
def DefaultYields (f : Field) (v : Val) : Prop :=
  ∀ d, f.default = some d → Scalar d ∧ v ≠ .none ∧ f.writeRule ≠ .writeOnce ∧ (pyEq v d = true → v = d)

/-- The value is of the type its modifiers declare, down to scalars that survive. -/
inductive FitsJson (env : Env) (h : Heap) : List Mod → Val → Prop
  | null {ch : List Mod} : NullOk ch → FitsJson env h ch .none
  | scalar {pre post : List Mod} {l : Leaf} {v : Val} : (∀ m ∈ pre, Inert m) → (∀ m ∈ post, Inert m) → Scalar v → Survives l v →
      FitsJson env h (pre ++ .leaf l :: post) v
  | list {pre post item : List Mod} {nn : Bool} {xs : List Val} : (∀ m ∈ pre, Inert m) → (∀ m ∈ post, Inert m) →
      (∀ x ∈ xs, FitsJson env h item x) → FitsJson env h (pre ++ .listOf nn .no item :: post) (.list xs)
  | dict {pre post item : List Mod} {nn : Bool} {kvs : List (String × Val)} : (∀ m ∈ pre, Inert m) → (∀ m ∈ post, Inert m) →
      (kvs.map Prod.fst).Nodup → (∀ x ∈ kvs.map Prod.snd, FitsJson env h item x) → FitsJson env h (pre ++ .dictOf nn item :: post) (.dict kvs)
  | obj {pre post : List Mod} {cls : String} {st : Option Bool} {i : Nat} : (∀ m ∈ pre, Inert m) → (∀ m ∈ post, Inert m) →
      (h i).cls = cls → (h i).picks = none → DataClass (env.cls cls) →
      (∀ f ∈ (env.cls cls).fields, FitsJson env h f.chain ((h i).attrs f.name)) →
      (∀ f ∈ (env.cls cls).fields, f.ftype = .inst → (h i).attrs f.name = .none ∨ ∃ j, (h i).attrs f.name = .obj j) →
      (∀ f ∈ (env.cls cls).fields, DefaultYields f ((h i).attrs f.name)) →
      (∀ p, (env.cls cls).primary = some p → (h i).attrs p = .none) →
      FitsJson env h (pre ++ .instOf cls st :: post) (.obj i)

/-- The same for the object at the top, which may have a primary key and any defaults. -/
structure FitsRoot (env : Env) (h : Heap) (cls : String) (i : Nat) : Prop where
  isCls : (h i).cls = cls
  whole : (h i).picks = none
  data : DataClass (env.cls cls)
  fields : ∀ f ∈ (env.cls cls).fields, FitsJson env h f.chain ((h i).attrs f.name)
  inst : ∀ f ∈ (env.cls cls).fields, f.ftype = .inst → (h i).attrs f.name = .none ∨ ∃ j, (h i).attrs f.name = .obj j
  defaults : ∀ f ∈ (env.cls cls).fields, f.default ≠ none → (h i).attrs f.name ≠ .none

/-- The same value, where objects are compared by class and field values, in two heaps. -/
inductive SameValue (env : Env) (h h' : Heap) : Val → Val → Prop
  | null : SameValue env h h' .none .none
  | scalar {v : Val} : Scalar v → SameValue env h h' v v
  | list {xs ys : List Val} : ys.length = xs.length →
      (∀ (k : Nat) (x y : Val), xs[k]? = some x → ys[k]? = some y → SameValue env h h' x y) → SameValue env h h' (.list xs) (.list ys)
  | dict {kvs ls : List (String × Val)} : ls.map Prod.fst = kvs.map Prod.fst →
      (∀ (k : Nat) (x y : Val), (kvs.map Prod.snd)[k]? = some x → (ls.map Prod.snd)[k]? = some y → SameValue env h h' x y) →
      SameValue env h h' (.dict kvs) (.dict ls)
  | obj {i j : Nat} : (h' j).cls = (h i).cls →
      (∀ f ∈ (env.cls (h i).cls).fields, SameValue env h h' ((h i).attrs f.name) ((h' j).attrs f.name)) →
      SameValue env h h' (.obj i) (.obj j)

/-! ### Chains with one type modifier -/

theorem denL_append (vis : Visitor) (a b : List Mod) : denL env vis (a ++ b) = denL env vis a ++ denL env vis b := by
  induction a with
  | nil => rfl
  | cons m ms ih => simp [denL, ih]

theorem reduceM_append (f : Ops World → Val → Py World Val) (a b : List (Ops World)) (v : Val) (w : World) :
    reduceM f (a ++ b) v w = (match reduceM f a v w with
      | (.ok x, w') => reduceM f b x w'
      | (.error e, w') => (.error e, w')) := by
  induction a generalizing v w with
  | nil => rfl
  | cons m ms ih =>
    rw [List.cons_append, reduceM, reduceM, Py.bind_run, Py.bind_run]
    rcases f m v w with ⟨_ | x, w'⟩
    · rfl
    · exact ih x w'

theorem inert_tojson {vis : Visitor} {c : Ctx} {w : World} {ms : List Mod} (h : ∀ m ∈ ms, Inert m) (x : Val) :
    reduceM (fun m v => m.tojson (c.nval v)) (denL env vis ms) x w = (.ok x, w) := by
  induction ms with
  | nil => rfl
  | cons m ms ih =>
    have hm := h m (by simp)
    cases m with
    | leaf l =>
      rw [denL, reduceM, Py.bind_run]
      simp only [Mod.den, leafOps, readW, (hm w.heap (c.nval x)).2]
      exact ih (fun m hm => h m (by simp [hm]))
    | _ => exact absurd hm (by simp [Inert])

theorem inert_transform {vis : Visitor} {c : Ctx} {w : World} {ms : List Mod} (h : ∀ m ∈ ms, Inert m) (x : Val) :
    reduceM (fun m v => m.transform (c.nval v)) (denL env vis ms) x w = (.ok x, w) := by
  induction ms with
  | nil => rfl
  | cons m ms ih =>
    have hm := h m (by simp)
    cases m with
    | leaf l =>
      rw [denL, reduceM, Py.bind_run]
      simp only [Mod.den, leafOps, readW, (hm w.heap (c.nval x)).1]
      exact ih (fun m hm => h m (by simp [hm]))
    | _ => exact absurd hm (by simp [Inert])

/-- neither eager nor preserialize marks -/
def Unmarked (ms : List (Ops World)) : Prop := ∀ m ∈ ms, m.isEager = false ∧ m.isPre = false

theorem unmarked_tvs {ms : List (Ops World)} (h : Unmarked ms) : tvs ms = [] := by
  unfold tvs
  rw [lastIdx_none _ _ (fun m hm => (h m hm).1)]

theorem unmarked_nvs {ms : List (Ops World)} (h : Unmarked ms) : nvs ms = ms := by
  unfold nvs uptoPre
  rw [lastIdx_none _ _ (fun m hm => (h m hm).1), firstIdx_none _ _ (fun m hm => (h m hm).2)]

theorem inert_unmarked {vis : Visitor} {ms : List Mod} (h : ∀ m ∈ ms, Inert m) : Unmarked (denL env vis ms) := by
  induction ms with
  | nil => intro m hm; cases hm
  | cons m ms ih =>
    intro o ho
    rcases List.mem_cons.1 ho with rfl | ho
    · have hm := h m (by simp)
      cases m with
      | leaf l => exact ⟨rfl, rfl⟩
      | _ => exact absurd hm (by simp [Inert])
    · exact ih (fun m hm => h m (by simp [hm])) o ho

/-- the type modifiers considered -/
def IsCore : Mod → Prop
  | .leaf _ => True
  | .listOf .. => True
  | .dictOf .. => True
  | .instOf .. => True
  | _ => False

theorem core_unmarked {n : Nat} {core : Mod} (h : IsCore core) :
    (Mod.den env (instOps env n) core).isEager = false ∧ (Mod.den env (instOps env n) core).isPre = false := by
  cases core with
  | eager => exact absurd h (by simp [IsCore])
  | pre => exact absurd h (by simp [IsCore])
  | union _ => exact absurd h (by simp [IsCore])
  | instOf cls st => cases n <;> exact ⟨rfl, rfl⟩
  | _ => exact ⟨rfl, rfl⟩

theorem chain_tojson_core {vis : Visitor} {pre post : List Mod} {core : Mod} {c : Ctx} {w w' : World} {r : Val}
    (h1 : ∀ m ∈ pre, Inert m) (h2 : ∀ m ∈ post, Inert m) (h : (Mod.den env vis core).tojson c w = (.ok r, w')) :
    chainTojson (denL env vis (pre ++ core :: post)) c w = (.ok r, w') := by
  unfold chainTojson
  rw [denL_append, reduceM_append, inert_tojson h1]
  simp only []
  rw [denL, reduceM, Py.bind_run]
  have e : c.nval c.val = c := rfl
  simp only [e, h]
  exact inert_tojson h2 r

theorem chain_transform_core {n : Nat} {pre post : List Mod} {core : Mod} {c : Ctx} {w w' : World} {r : Val}
    (h1 : ∀ m ∈ pre, Inert m) (h2 : ∀ m ∈ post, Inert m) (hc : IsCore core)
    (h : (Mod.den env (instOps env n) core).transform c w = (.ok r, w')) :
    chainTransform (denL env (instOps env n) (pre ++ core :: post)) c w = (.ok r, w') := by
  have hu : Unmarked (denL env (instOps env n) (pre ++ core :: post)) := by
    rw [denL_append, denL]
    intro o ho
    rcases List.mem_append.1 ho with ho | ho
    · exact inert_unmarked h1 o ho
    · rcases List.mem_cons.1 ho with rfl | ho
      · exact core_unmarked hc
      · exact inert_unmarked h2 o ho
  unfold chainTransform
  rw [unmarked_tvs hu, unmarked_nvs hu, Py.bind_run]
  simp only [reduceM, Py.pure_run]
  rw [denL_append, reduceM_append, inert_transform h1]
  simp only []
  rw [denL, reduceM, Py.bind_run]
  have e : c.nval c.val = c := rfl
  simp only [e, h]
  exact inert_transform h2 r

theorem nullCore_core {core : Mod} (h : NullCore core) : IsCore core := by
  cases core <;> simp_all [NullCore, IsCore]

theorem null_tojson {n : Nat} {ch : List Mod} {c : Ctx} {w : World} (h : NullOk ch) (hc : c.val = .none) :
    chainTojson (denL env (instOps env (n + 1)) ch) c w = (.ok .none, w) := by
  obtain ⟨pre, core, post, rfl, h1, h2, h3⟩ := h
  refine chain_tojson_core h1 h2 ?_
  cases core with
  | leaf l => simp only [Mod.den, leafOps, readW, (h3 w.heap c hc).1]
  | listOf nn sp item => simp only [Mod.den, listOps, hc]; rfl
  | dictOf nn item => simp only [Mod.den, dictOps, hc]; rfl
  | instOf cls st => simp only [Mod.den, instOps, instTojson, hc]; rfl
  | _ => exact absurd h3 (by simp [NullCore])

theorem null_transform {n : Nat} {ch : List Mod} {c : Ctx} {w : World} (h : NullOk ch) (hc : c.val = .none)
    (ho : c.original = none) : chainTransform (denL env (instOps env (n + 1)) ch) c w = (.ok .none, w) := by
  obtain ⟨pre, core, post, rfl, h1, h2, h3⟩ := h
  refine chain_transform_core h1 h2 (nullCore_core h3) ?_
  cases core with
  | leaf l => simp only [Mod.den, leafOps, readW, (h3 w.heap c hc).2]
  | listOf nn sp item => simp only [NullCore] at h3; subst h3; simp only [Mod.den, listOps, hc]; rfl
  | dictOf nn item => simp only [NullCore] at h3; subst h3; simp only [Mod.den, dictOps, hc]; rfl
  | instOf cls st => simp only [Mod.den, instOps, instTransform, hc, ho]; rfl
  | _ => exact absurd h3 (by simp [NullCore])

/-! ### Values built between two points of time -/

/-- the same value, all of whose objects lie in the given range -/
inductive SameIn (env : Env) (h h' : Heap) (lo hi : Nat) : Val → Val → Prop
  | null : SameIn env h h' lo hi .none .none
  | scalar {v : Val} : Scalar v → SameIn env h h' lo hi v v
  | list {xs ys : List Val} : ys.length = xs.length →
      (∀ (k : Nat) (x y : Val), xs[k]? = some x → ys[k]? = some y → SameIn env h h' lo hi x y) → SameIn env h h' lo hi (.list xs) (.list ys)
  | dict {kvs ls : List (String × Val)} : ls.map Prod.fst = kvs.map Prod.fst →
      (∀ (k : Nat) (x y : Val), (kvs.map Prod.snd)[k]? = some x → (ls.map Prod.snd)[k]? = some y → SameIn env h h' lo hi x y) →
      SameIn env h h' lo hi (.dict kvs) (.dict ls)
  | obj {i j : Nat} : lo ≤ j → j < hi → (h' j).cls = (h i).cls →
      (∀ f ∈ (env.cls (h i).cls).fields, SameIn env h h' lo hi ((h i).attrs f.name) ((h' j).attrs f.name)) →
      SameIn env h h' lo hi (.obj i) (.obj j)

theorem SameIn.forget {h h' : Heap} {lo hi : Nat} {v v' : Val} (hs : SameIn env h h' lo hi v v') : SameValue env h h' v v' := by
  induction hs with
  | null => exact .null
  | scalar h => exact .scalar h
  | list hl _ ih => exact .list hl ih
  | dict hl _ ih => exact .dict hl ih
  | obj _ _ hc _ ih => exact .obj hc ih

theorem SameIn.widen {h h' h'' : Heap} {lo hi lo' hi' : Nat} {v v' : Val} (hs : SameIn env h h' lo hi v v') (h1 : lo' ≤ lo) (h2 : hi ≤ hi')
    (he : ∀ j, lo ≤ j → j < hi → h'' j = h' j) : SameIn env h h'' lo' hi' v v' := by
  induction hs with
  | null => exact .null
  | scalar h => exact .scalar h
  | list hl _ ih => exact .list hl ih
  | dict hl _ ih => exact .dict hl ih
  | obj ha hb hc _ ih =>
    refine .obj (by omega) (by omega) ?_ ?_
    · rw [he _ ha hb]; exact hc
    · intro f hf
      rw [he _ ha hb]
      exact ih f hf

/-- objects are only added, and the result is the value, made of added objects -/
structure Built (env : Env) (h : Heap) (w w' : World) (v v' : Val) : Prop where
  next : w.next ≤ w'.next
  frame : ∀ j < w.next, w'.heap j = w.heap j
  same : SameIn env h w'.heap w.next w'.next v v'

/-- A value that is output as `j` and read back, from some depth limit on. -/
def RT (env : Env) (h : Heap) (on : Option Bool) (ch : List Mod) (v : Val) : Prop :=
  ∃ N j, (j.isNone = true ↔ v = .none) ∧
    (∀ n ≥ N, ∀ (c : Ctx) (w : World), w.heap = h → c.val = v → c.cfg.outputNull = on → (v ≠ .none → c.owner.isSome = true) →
      chainTojson (denL env (instOps env n) ch) c w = (.ok j, w)) ∧
    (∀ n ≥ N, ∀ (c : Ctx) (w : World), c.val = j → c.original = none → c.owner.isSome = true → c.cfg.fillBlanks = true →
      ∃ v' w', chainTransform (denL env (instOps env n) ch) c w = (.ok v', w') ∧ Built env h w w' v v')

theorem built_null {h : Heap} {w : World} : Built env h w w .none .none := ⟨Nat.le_refl _, fun _ _ => rfl, .null⟩

theorem rt_null {h : Heap} {on : Option Bool} {ch : List Mod} (hn : NullOk ch) : RT env h on ch .none := by
  refine ⟨1, .none, by simp [Val.isNone], ?_, ?_⟩
  · intro n hn' c w _ hc _ _
    obtain ⟨m, rfl⟩ : ∃ m, n = m + 1 := ⟨n - 1, by omega⟩
    exact null_tojson hn hc
  · intro n hn' c w hc ho _ _
    obtain ⟨m, rfl⟩ : ∃ m, n = m + 1 := ⟨n - 1, by omega⟩
    exact ⟨.none, w, null_transform hn hc ho, built_null⟩

theorem rt_scalar {h : Heap} {on : Option Bool} {pre post : List Mod} {l : Leaf} {v : Val} (h1 : ∀ m ∈ pre, Inert m)
    (h2 : ∀ m ∈ post, Inert m) (hv : Scalar v) (hs : Survives l v) : RT env h on (pre ++ .leaf l :: post) v := by
  obtain ⟨j, hj, hto, htr⟩ := hs
  refine ⟨0, j, ?_, ?_, ?_⟩
  · rw [hj]
    constructor
    · intro h; cases h
    · intro h; subst h; exact absurd hv (by simp [Scalar])
  · intro n _ c w _ hc _ _
    refine chain_tojson_core h1 h2 ?_
    simp only [Mod.den, leafOps, readW, hto w.heap c hc]
  · intro n _ c w hc _ _ _
    refine ⟨v, w, chain_transform_core h1 h2 trivial ?_, Nat.le_refl _, fun _ _ => rfl, .scalar hv⟩
    simp only [Mod.den, leafOps, readW, htr w.heap c hc]

/-! ### Lists and dicts -/

theorem loop_rt {h : Heap} {on : Option Bool} {item : List Mod} (xs : List Val) : (∀ x ∈ xs, RT env h on item x) →
    ∃ N js, js.length = xs.length ∧
      (∀ n ≥ N, ∀ (ce : ColEnv World) (c : Ctx) (w : World) (ks : List Key), (∀ w', ce.ownerConf c w' = (.ok (), w')) → w.heap = h →
        c.cfg.outputNull = on → c.owner.isSome = true → ks.length = xs.length →
        colMapLoop ce false (chainOps (setParent env) (denL env (instOps env n) item)).tojson c (ks.zip xs) w = (.ok (ks.zip js), w)) ∧
      (∀ n ≥ N, ∀ (ce : ColEnv World) (c : Ctx) (w : World) (ks : List Key), (∀ w', ce.ownerConf c w' = (.ok (), w')) → (∀ k v, ce.special c k v = none) →
        c.owner.isSome = true → c.cfg.fillBlanks = true → ks.length = xs.length →
        ∃ ys w', colMapLoop ce true (chainOps (setParent env) (denL env (instOps env n) item)).transform c (ks.zip js) w = (.ok (ks.zip ys), w') ∧
          ys.length = xs.length ∧ w.next ≤ w'.next ∧ (∀ j < w.next, w'.heap j = w.heap j) ∧
          ∀ (k : Nat) (x y : Val), xs[k]? = some x → ys[k]? = some y → SameIn env h w'.heap w.next w'.next x y) := by
  induction xs with
  | nil =>
    intro _
    refine ⟨0, [], rfl, ?_, ?_⟩
    · intro n _ ce c w ks _ _ _ _ hk
      simp [colMapLoop]
    · intro n _ ce c w ks _ _ _ _ hk
      refine ⟨[], w, by simp [colMapLoop], rfl, Nat.le_refl _, fun _ _ => rfl, by simp⟩
  | cons x xs ih =>
    intro hall
    obtain ⟨N1, js, hlen, hto, htr⟩ := ih (fun y hy => hall y (by simp [hy]))
    obtain ⟨N2, j, hj, hto1, htr1⟩ := hall x (by simp)
    refine ⟨max N1 N2, j :: js, by simp [hlen], ?_, ?_⟩
    · intro n hn ce c w ks hce hh hon how hk
      cases ks with
      | nil => simp at hk
      | cons k ks =>
        simp only [List.zip_cons_cons, colMapLoop, Bool.false_eq_true, if_false]
        rw [Py.bind_run]
        have e1 : (chainOps (setParent env) (denL env (instOps env n) item)).tojson (c.colval x k) w = (.ok j, w) :=
          hto1 n (by omega) (c.colval x k) w hh rfl hon (fun _ => how)
        rw [e1]
        simp only []
        rw [Py.bind_run, hce]
        simp only []
        rw [Py.bind_run, hto n (by omega) ce c w ks hce hh hon how (by simpa using hk)]
        rfl
    · intro n hn ce c w ks hce hsp how hfb hk
      cases ks with
      | nil => simp at hk
      | cons k ks =>
        simp only [List.zip_cons_cons, colMapLoop, if_true, hsp]
        obtain ⟨y, w1, e1, hb⟩ := htr1 n (by omega) (c.colval j k) w rfl rfl how hfb
        obtain ⟨ys, w2, e2, hl, hnx, hfr, hs⟩ := htr n (by omega) ce c w1 ks hce hsp how hfb (by simpa using hk)
        refine ⟨y :: ys, w2, ?_, by simp [hl], Nat.le_trans hb.next hnx, ?_, ?_⟩
        · rw [Py.bind_run]
          have e1' : (chainOps (setParent env) (denL env (instOps env n) item)).transform (c.colval j k) w = (.ok y, w1) := e1
          rw [e1']
          simp only []
          rw [Py.bind_run, hce]
          simp only []
          rw [Py.bind_run, e2]
          rfl
        · intro i hi
          rw [hfr i (Nat.lt_of_lt_of_le hi hb.next), hb.frame i hi]
        · intro p a b ha hb'
          cases p with
          | zero =>
            simp only [List.getElem?_cons_zero, Option.some.injEq] at ha hb'
            subst ha; subst hb'
            exact hb.same.widen (Nat.le_refl _) hnx (fun i _ hi => hfr i hi)
          | succ p =>
            simp only [List.getElem?_cons_succ] at ha hb'
            exact (hs p a b ha hb').widen hb.next (Nat.le_refl _) (fun _ _ _ => rfl)

/-- `enumerate` numbers by position only -/
def posKeys : Nat → Nat → List Key
  | _, 0 => []
  | k, n + 1 => .i k :: posKeys (k + 1) n

theorem posKeys_length (k n : Nat) : (posKeys k n).length = n := by
  induction n generalizing k with
  | zero => rfl
  | succ n ih => simp [posKeys, ih]

theorem enumVals_zip (k : Nat) (xs : List Val) : enumVals k xs = (posKeys k xs.length).zip xs := by
  induction xs generalizing k with
  | nil => rfl
  | cons x xs ih => simp [enumVals, posKeys, ih]

theorem keyzip_snd {ks : List Key} {xs : List Val} (h : ks.length = xs.length) : (ks.zip xs).map Prod.snd = xs :=
  List.map_snd_zip (Nat.le_of_eq h.symm)

theorem special_no (c : Ctx) (k : Key) (v : Val) : (colEnv env .no).special c k v = none := by
  simp only [colEnv]
  split <;> simp

theorem ownerConf_run {sp : Special} {c : Ctx} (h : c.owner.isSome = true) (w : World) : (colEnv env sp).ownerConf c w = (.ok (), w) := by
  obtain ⟨o, ho⟩ := Option.isSome_iff_exists.1 h
  simp only [colEnv, ho]
  rfl

theorem rt_list {h : Heap} {on : Option Bool} {pre post item : List Mod} {nn : Bool} {xs : List Val} (h1 : ∀ m ∈ pre, Inert m)
    (h2 : ∀ m ∈ post, Inert m) (hx : ∀ x ∈ xs, RT env h on item x) : RT env h on (pre ++ .listOf nn .no item :: post) (.list xs) := by
  obtain ⟨N, js, hl, hto, htr⟩ := loop_rt xs hx
  refine ⟨N, .list js, by simp [Val.isNone], ?_, ?_⟩
  · intro n hn c w hh hc hon how
    have how := how (by simp)
    refine chain_tojson_core h1 h2 ?_
    simp only [Mod.den, listOps, hc]
    rw [Py.bind_run, enumVals_zip, hto n hn _ c w _ (ownerConf_run how) hh hon how (posKeys_length _ _)]
    simp only [toListVal, keyzip_snd (show (posKeys 0 xs.length).length = js.length by rw [posKeys_length, hl])]
    rfl
  · intro n hn c w hc _ how hfb
    obtain ⟨ys, w', e, hy, hnx, hfr, hs⟩ := htr n hn (colEnv env .no) c w (posKeys 0 js.length) (ownerConf_run how) (special_no c) how hfb
      (by rw [posKeys_length, hl])
    refine ⟨.list ys, w', chain_transform_core h1 h2 trivial ?_, hnx, hfr, .list hy hs⟩
    simp only [Mod.den, listOps, hc]
    rw [Py.bind_run, enumVals_zip, e]
    simp only [toListVal, keyzip_snd (show (posKeys 0 js.length).length = ys.length by rw [posKeys_length, hl, hy])]
    rfl

theorem enumDict_zip (kvs : List (String × Val)) : enumDict kvs = (kvs.map (fun kv => Key.s kv.1)).zip (kvs.map Prod.snd) := by
  unfold enumDict
  induction kvs with
  | nil => rfl
  | cons x xs ih => simp [ih]

theorem toDictVal_zip {ks : List String} {ys : List Val} (hn : ks.Nodup) (hl : ks.length = ys.length) :
    toDictVal ((ks.map Key.s).zip ys) = .dict (ks.zip ys) := by
  unfold toDictVal
  have e : ∀ (ks : List String) (ys : List Val) (acc : List (String × Val)),
      ((ks.map Key.s).zip ys).foldl (fun d kv => dictSet kv.1.str kv.2 d) acc = (ks.zip ys).foldl (fun d kv => dictSet kv.1 kv.2 d) acc := by
    intro ks
    induction ks with
    | nil => intro ys acc; rfl
    | cons k ks ih =>
      intro ys acc
      cases ys with
      | nil => rfl
      | cons y ys => simp only [List.map_cons, List.zip_cons_cons, List.foldl_cons]; exact ih ys _
  rw [e, foldl_dictSet_nodup']
  · simp
  · simp only [List.nil_append]
    rw [List.map_fst_zip (Nat.le_of_eq hl)]
    exact hn

theorem rt_dict {h : Heap} {on : Option Bool} {pre post item : List Mod} {nn : Bool} {kvs : List (String × Val)} (h1 : ∀ m ∈ pre, Inert m)
    (h2 : ∀ m ∈ post, Inert m) (hn : (kvs.map Prod.fst).Nodup) (hx : ∀ x ∈ kvs.map Prod.snd, RT env h on item x) :
    RT env h on (pre ++ .dictOf nn item :: post) (.dict kvs) := by
  obtain ⟨N, js, hl, hto, htr⟩ := loop_rt (kvs.map Prod.snd) hx
  simp only [List.length_map] at hl
  have hks : kvs.map (fun kv => Key.s kv.1) = (kvs.map Prod.fst).map Key.s := by simp [List.map_map]
  have hkj : ((kvs.map Prod.fst).zip js).map Prod.fst = kvs.map Prod.fst := List.map_fst_zip (by simp [hl])
  have hkj2 : ((kvs.map Prod.fst).zip js).map Prod.snd = js := List.map_snd_zip (by simp [hl])
  refine ⟨N, .dict ((kvs.map Prod.fst).zip js), by simp [Val.isNone], ?_, ?_⟩
  · intro n hn' c w hh hc hon how
    have how := how (by simp)
    refine chain_tojson_core h1 h2 ?_
    simp only [Mod.den, dictOps, hc]
    rw [Py.bind_run, enumDict_zip, hto n hn' _ c w _ (ownerConf_run how) hh hon how (by simp)]
    simp only [hks, toDictVal_zip hn (show (kvs.map Prod.fst).length = js.length by simp [hl])]
    rfl
  · intro n hn' c w hc _ how hfb
    obtain ⟨ys, w', e, hy, hnx, hfr, hs⟩ := htr n hn' { colEnv env .no with special := fun _ _ _ => none } c w ((kvs.map Prod.fst).map Key.s)
      (ownerConf_run (env := env) (sp := .no) how) (fun _ _ => rfl) how hfb (by simp)
    simp only [List.length_map] at hy
    refine ⟨.dict ((kvs.map Prod.fst).zip ys), w', chain_transform_core h1 h2 trivial ?_, hnx, hfr, .dict ?_ ?_⟩
    · simp only [Mod.den, dictOps, hc]
      have e' : ((kvs.map Prod.fst).zip js).map (fun kv => Key.s kv.1) = (kvs.map Prod.fst).map Key.s := by
        have : ((kvs.map Prod.fst).zip js).map (fun kv => Key.s kv.1) = (((kvs.map Prod.fst).zip js).map Prod.fst).map Key.s := by
          simp [List.map_map]
        rw [this, hkj]
      rw [Py.bind_run, enumDict_zip, e', hkj2, e]
      simp only [toDictVal_zip hn (show (kvs.map Prod.fst).length = ys.length by simp [hy])]
      rfl
    · exact List.map_fst_zip (by simp [hy])
    · rw [List.map_snd_zip (by simp [hy])]
      exact hs

/-! ### Objects: input -/

theorem find_name {fs : List Field} (hn : (fs.map Field.name).Nodup) {f : Field} (hf : f ∈ fs) : fs.find? (fun g => g.name = f.name) = some f := by
  induction fs with
  | nil => cases hf
  | cons g fs ih =>
    rw [List.map_cons, List.nodup_cons] at hn
    rw [List.find?_cons]
    by_cases hg : g.name = f.name
    · have : g = f := by
        rcases List.mem_cons.1 hf with rfl | hf
        · rfl
        · exact absurd (hg ▸ List.mem_map_of_mem hf) hn.1
      simp [this]
    · simp only [hg, decide_false]
      rcases List.mem_cons.1 hf with rfl | hf
      · exact absurd rfl hg
      · exact ih hn.2 hf

theorem data_plain {cd : ClassDef} (hd : DataClass cd) {f : Field} (hf : f ∈ cd.fields) : PlainField cd f.name := by
  have hs := (hd.field f hf).store
  refine ⟨f, find_name hd.names hf, ?_, by simp [Field.isRef, hs], by simp [hs]⟩
  unfold ClassDef.localKey?
  rw [List.find?_eq_none]
  intro g hg
  simp [(hd.field g hg).store]

/-- storing a value that differs from the value held, or is the same -/
theorem set_blank {cls : String} {w : World} {i : Nat} {f : Field} (v : Val) (hfuel : env.fuel ≠ 0) (hd : DataClass (env.cls cls))
    (hc : (w.heap i).cls = cls) (hf : f ∈ (env.cls cls).fields) (h0 : pyEq v ((w.heap i).attrs f.name) = true → v = (w.heap i).attrs f.name) :
    ∃ w', setAttr env i f.name v w = (.ok (), w') ∧ w'.next = w.next ∧ (∀ j, j ≠ i → w'.heap j = w.heap j) ∧ (w'.heap i).cls = cls ∧
      (∀ m, m ≠ f.name → (w'.heap i).attrs m = (w.heap i).attrs m) ∧ (w'.heap i).attrs f.name = v := by
  have hp : PlainField (w.cdef env i) f.name := by
    unfold World.cdef; rw [hc]; exact data_plain hd hf
  obtain ⟨g, hg, hrun⟩ := plain_set_run (v := v) hfuel hp
  refine ⟨_, hrun, rfl, fun j hj => upd_heap_other _ _ hj, ?_, ?_, ?_⟩
  · rw [upd_heap_self, (opObj_cls _ _ _ _).1, hc]
  · intro m hm
    rw [upd_heap_self, opObj_attrs (op := .set f.name v) _ _ hp]
    simp [valueAfter, hm]
  · rw [upd_heap_self, opObj_attrs (op := .set f.name v) _ _ hp]
    simp only [valueAfter, true_and]
    split
    · rfl
    · rename_i he
      exact (h0 (by simpa using he)).symm

/-- nothing older than the new object and other than it has changed -/
structure Stored (env : Env) (h : Heap) (dest : Nat) (w w' : World) : Prop where
  next : w.next ≤ w'.next
  frame : ∀ j < w.next, j ≠ dest → w'.heap j = w.heap j
  isCls : (w'.heap dest).cls = (w.heap dest).cls

/-- what the loop needs to know about one field -/
structure ReadsBack (env : Env) (h : Heap) (ops : Field → Ops World) (kvs : List (String × Val)) (V : Field → Val) (f : Field) : Prop where
  null : ∀ (c : Ctx) (w : World), c.val = .none → c.original = none → (ops f).transform c w = (.ok .none, w)
  missing : (getFieldValue f kvs).isNone = true → V f = f.default.getD .none ∧ ∀ d, f.default = some d → Scalar d
  value : hasFieldValue f kvs = true → ∀ (c : Ctx) (w : World), c.val = getFieldValue f kvs → c.original = none → c.owner.isSome = true →
    c.cfg.fillBlanks = true → ∃ v' w', (ops f).transform c w = (.ok v', w') ∧ Built env h w w' (V f) v'

/-- the value held can be replaced -/
def CanTake (env : Env) (h : Heap) (f : Field) (V a : Val) : Prop :=
  (f.writeRule = .writeOnce → a = .none) ∧ ∀ h' lo hi v', SameIn env h h' lo hi V v' → pyEq v' a = true → v' = a

theorem canTake_none {h : Heap} {f : Field} {V : Val} : CanTake env h f V .none :=
  ⟨fun _ => rfl, fun _ _ _ _ _ he => pyEq_none he⟩

theorem fillDefault_step {h : Heap} {cls : String} {ops : Field → Ops World} {c : Ctx} {dest : Nat} {f : Field} {w : World} (hfuel : env.fuel ≠ 0)
    (hd : DataClass (env.cls cls)) (hc : (w.heap dest).cls = cls) (hf : f ∈ (env.cls cls).fields)
    (h0 : CanTake env h f (f.default.getD .none) ((w.heap dest).attrs f.name)) (hs : ∀ d, f.default = some d → Scalar d)
    (how : c.owner.isSome = true)
    (hz : ∀ (c : Ctx) (w : World), c.val = .none → c.original = none → (ops f).transform c w = (.ok .none, w)) :
    ∃ w', fillDefault env ops c dest f w = (.ok (), w') ∧ Stored env h dest w w' ∧
      (∀ m, m ≠ f.name → (w'.heap dest).attrs m = (w.heap dest).attrs m) ∧
      SameIn env h w'.heap w.next w'.next (f.default.getD .none) ((w'.heap dest).attrs f.name) := by
  have hself : ∀ h' lo hi, SameIn env h h' lo hi (f.default.getD .none) (f.default.getD .none) := by
    intro h' lo hi
    cases hdf : f.default with
    | none => exact .null
    | some d => exact .scalar (hs d hdf)
  obtain ⟨w', hrun, hn, ho, hcl, hat, hv⟩ := set_blank (w := w) (i := dest) (f.default.getD .none) hfuel hd hc hf (h0.2 w.heap 0 0 _ (hself _ _ _))
  obtain ⟨o, ho'⟩ := Option.isSome_iff_exists.1 how
  refine ⟨w', ?_, ⟨by omega, fun j _ hj => ho j hj, by rw [hcl, hc]⟩, hat, by rw [hv]; exact hself _ _ _⟩
  unfold fillDefault
  cases hdf : f.default with
  | some d =>
    rw [hdf] at hrun
    exact hrun
  | none =>
    rw [hdf] at hrun
    simp only []
    rw [Py.bind_run, Py.get_run]
    simp only []
    rw [Py.bind_run]
    simp only [readW, Ctx.ekey, ho']
    rw [Py.bind_run, hz _ _ rfl rfl]
    exact hrun

theorem field_step {h : Heap} {cls : String} {ops : Field → Ops World} {c : Ctx} {dest : Nat} {kvs : List (String × Val)} {V : Field → Val}
    {f : Field} {w : World} (hfuel : env.fuel ≠ 0) (hd : DataClass (env.cls cls)) (hlt : dest < w.next) (hc : (w.heap dest).cls = cls)
    (hf : f ∈ (env.cls cls).fields) (h0 : CanTake env h f (V f) ((w.heap dest).attrs f.name)) (how : c.owner.isSome = true)
    (hfb : c.cfg.fillBlanks = true) (hr : ReadsBack env h ops kvs V f) :
    ∃ w', transformField env ops c dest false kvs f w = (.ok (), w') ∧ Stored env h dest w w' ∧
      (∀ m, m ≠ f.name → (w'.heap dest).attrs m = (w.heap dest).attrs m) ∧ SameIn env h w'.heap w.next w'.next (V f) ((w'.heap dest).attrs f.name) := by
  have hst := (hd.field f hf).store
  have hfill : (getFieldValue f kvs).isNone = true → ∃ w', fillDefault env ops c dest f w = (.ok (), w') ∧ Stored env h dest w w' ∧
      (∀ m, m ≠ f.name → (w'.heap dest).attrs m = (w.heap dest).attrs m) ∧ SameIn env h w'.heap w.next w'.next (V f) ((w'.heap dest).attrs f.name) := by
    intro hnone
    obtain ⟨hm, hs⟩ := hr.missing hnone
    rw [hm] at h0 ⊢
    exact fillDefault_step hfuel hd hc hf h0 hs how hr.null
  obtain ⟨o, ho'⟩ := Option.isSome_iff_exists.1 how
  unfold transformField
  by_cases hv : hasFieldValue f kvs = true
  · rw [if_pos hv]
    unfold presentField
    have hcur : (readW (fun w => if f.writeRule = .writeOnce then w.getattr env dest f.name else .ok .none) : Py World Val) w = (.ok .none, w) := by
      unfold readW
      split
      · rename_i hw
        have : (w.cdef env dest).field? f.name = some f := by
          unfold World.cdef ClassDef.field?; rw [hc]; exact find_name hd.names hf
        simp [World.getattr, this, hst, World.attr, h0.1 hw]
      · rfl
    rw [Py.bind_run, hcur]
    simp only []
    by_cases ha : allowWrite f .none (getFieldValue f kvs) = true
    · rw [if_pos ha, Py.bind_run, Py.get_run]
      simp only []
      rw [Py.bind_run]
      simp only [readW, Ctx.ekey, ho']
      obtain ⟨v', w1, e1, hb⟩ := hr.value hv (c.nextvo (getFieldValue f kvs) f.name ((w.cdef env o).outKey f.name) ((w.heap dest).cls, f.name) dest) w
        rfl rfl rfl hfb
      have hfd := hb.frame dest hlt
      obtain ⟨w2, hrun, hn, hoth, hcl, hat, hvv⟩ := set_blank (w := w1) (i := dest) v' hfuel hd (by rw [hfd]; exact hc) hf
        (by rw [hfd]; exact h0.2 _ _ _ _ hb.same)
      refine ⟨w2, ?_, ⟨by rw [hn]; exact hb.next, ?_, by rw [hcl, hc]⟩, ?_, ?_⟩
      · rw [Py.bind_run, e1]
        simp only [pyWhen, hst]
        exact hrun
      · intro j hj hjd
        rw [hoth j hjd, hb.frame j hj]
      · intro m hm
        rw [hat m hm, hfd]
      · rw [hvv, hn]
        exact hb.same.widen (Nat.le_refl _) (Nat.le_refl _) (fun j hj _ => hoth j (by omega))
    · rw [if_neg ha]
      have hnone : (getFieldValue f kvs).isNone = true := by
        unfold allowWrite at ha
        cases hw : f.writeRule with
        | unlimited => simp [hw] at ha
        | noWrite => exact absurd hw (hd.field f hf).writable
        | writeOnce => simp [hw, Val.isNone] at ha
        | writeNonnull => simpa [hw] using ha
      simpa [hfb, hst] using hfill hnone
  · rw [if_neg hv]
    have hnone : (getFieldValue f kvs).isNone = true := by
      simp only [hasFieldValue, Bool.or_eq_true, not_or, Bool.not_eq_true, Option.isSome_eq_false_iff, Option.isNone_iff_eq_none] at hv
      simp [getFieldValue, getD, hv.1, hv.2, Val.isNone]
    unfold absentField
    simpa [hfb, hst, Field.isRef] using hfill hnone

theorem fields_step {h : Heap} {cls : String} {ops : Field → Ops World} {c : Ctx} {dest : Nat} {kvs : List (String × Val)} {V : Field → Val}
    (hfuel : env.fuel ≠ 0) (hd : DataClass (env.cls cls)) (how : c.owner.isSome = true) (hfb : c.cfg.fillBlanks = true) (fs : List Field) :
    ∀ (w : World), (fs.map Field.name).Nodup → (∀ f ∈ fs, f ∈ (env.cls cls).fields) → (∀ f ∈ fs, ReadsBack env h ops kvs V f) → dest < w.next →
      (w.heap dest).cls = cls → (∀ f ∈ fs, CanTake env h f (V f) ((w.heap dest).attrs f.name)) →
      ∃ w', transformFields env ops c dest false kvs fs w = (.ok (), w') ∧ Stored env h dest w w' ∧
        (∀ m, (∀ f ∈ fs, f.name ≠ m) → (w'.heap dest).attrs m = (w.heap dest).attrs m) ∧
        ∀ f ∈ fs, SameIn env h w'.heap w.next w'.next (V f) ((w'.heap dest).attrs f.name) := by
  induction fs with
  | nil =>
    intro w _ _ _ _ _ _
    exact ⟨w, rfl, ⟨Nat.le_refl _, fun _ _ _ => rfl, rfl⟩, fun _ _ => rfl, by simp⟩
  | cons f fs ih =>
    intro w hn hm hr hlt hc h0
    rw [List.map_cons, List.nodup_cons] at hn
    obtain ⟨w1, e1, s1, a1, v1⟩ := field_step (w := w) hfuel hd hlt hc (hm f (by simp)) (h0 f (by simp)) how hfb (hr f (by simp))
    have hne : ∀ g ∈ fs, g.name ≠ f.name := fun g hg he => hn.1 (he ▸ List.mem_map_of_mem hg)
    obtain ⟨w2, e2, s2, a2, v2⟩ := ih w1 hn.2 (fun g hg => hm g (by simp [hg])) (fun g hg => hr g (by simp [hg]))
      (Nat.lt_of_lt_of_le hlt s1.next) (s1.isCls.trans hc) (fun g hg => by rw [a1 _ (hne g hg)]; exact h0 g (by simp [hg]))
    refine ⟨w2, ?_, ⟨Nat.le_trans s1.next s2.next, ?_, s2.isCls.trans s1.isCls⟩, ?_, ?_⟩
    · unfold transformFields
      rw [Py.bind_run, e1]
      exact e2
    · intro j hj hjd
      rw [s2.frame j (Nat.lt_of_lt_of_le hj s1.next) hjd, s1.frame j hj hjd]
    · intro m hmm
      rw [a2 m (fun g hg => hmm g (by simp [hg])), a1 m (fun he => hmm f (by simp) he.symm)]
    · intro g hg
      rcases List.mem_cons.1 hg with rfl | hg
      · rw [a2 _ hne]
        exact v1.widen (Nat.le_refl _) s2.next (fun j hj hj' => s2.frame j hj' (by omega))
      · exact (v2 g hg).widen s1.next (Nat.le_refl _) (fun _ _ _ => rfl)

theorem strict_ok {c : Ctx} {names : List String} : ∀ {kvs : List (String × Val)}, (∀ k ∈ kvs.map Prod.fst, k ∈ names) → strictCheck c names kvs = .ok ()
  | [], _ => rfl
  | (k, v) :: r, h => by
    unfold strictCheck
    rw [if_pos (h k (by simp))]
    exact strict_ok (fun k' hk => h k' (by simp [hk]))

theorem apply_step {h : Heap} {cls : String} {ops : Field → Ops World} {st : Option Bool} {c : Ctx} {dest : Nat} {kvs : List (String × Val)} {V : Field → Val}
    {w : World} (hfuel : env.fuel ≠ 0) (hd : DataClass (env.cls cls)) (how : c.owner.isSome = true) (hfb : c.cfg.fillBlanks = true)
    (hr : ∀ f ∈ (env.cls cls).fields, ReadsBack env h ops kvs V f) (hk : ∀ k ∈ kvs.map Prod.fst, k ∈ (env.cls cls).fields.map Field.jsonName)
    (hlt : dest < w.next) (hc : (w.heap dest).cls = cls)
    (h0 : ∀ f ∈ (env.cls cls).fields, CanTake env h f (V f) ((w.heap dest).attrs f.name)) :
    ∃ w', applyDict env ops cls st c dest false kvs w = (.ok (), w') ∧ Stored env h dest w w' ∧
      ∀ f ∈ (env.cls cls).fields, SameIn env h w'.heap w.next w'.next (V f) ((w'.heap dest).attrs f.name) := by
  obtain ⟨w', e, hs, _, hv⟩ := fields_step (c := c) hfuel hd how hfb (env.cls cls).fields w hd.names (fun _ h => h) hr hlt hc h0
  refine ⟨w', ?_, hs, hv⟩
  have hcd : w.cdef env dest = env.cls cls := by unfold World.cdef; rw [hc]
  have hnr : nonnullRefLists kvs (env.cls cls).fields = [] := by
    unfold nonnullRefLists
    rw [List.map_eq_nil_iff, List.filter_eq_nil_iff]
    intro f hf
    simp [Field.isRef, (hd.field f hf).store]
  have hst : (pyWhen (st.getD (env.cls cls).strictInput) (readW (fun _ => strictCheck c (env.cls cls).availableNames kvs))) w = (.ok (), w) := by
    unfold pyWhen
    split
    · unfold readW
      rw [strict_ok]
      intro k hk'
      have := hk k hk'
      simp only [ClassDef.availableNames, List.mem_append]
      exact .inl (.inl (.inr this))
    · rfl
  unfold applyDict
  rw [Py.bind_run, Py.get_run]
  simp only [hcd, hnr]
  rw [Py.bind_run, hst]
  simp only []
  rw [Py.bind_run, e]
  rfl

/-! ### Objects: output -/

/-- the entries written for the fields -/
def entriesOf (on : Bool) (r : Field → Val) (fs : List Field) : List (String × Val) :=
  (fs.filter (fun f => on || !(r f).isNone)).map (fun f => (f.jsonName, r f))

theorem fold_entries (on : Bool) (r : Field → Val) (fs : List Field) (acc : List (String × Val)) :
    fs.foldl (fun a f => if on || !(r f).isNone then dictSet f.jsonName (r f) a else a) acc =
      (entriesOf on r fs).foldl (fun d kv => dictSet kv.1 kv.2 d) acc := by
  induction fs generalizing acc with
  | nil => rfl
  | cons f fs ih =>
    rw [List.foldl_cons, ih]
    unfold entriesOf
    rw [List.filter_cons]
    split <;> simp

theorem entries_keys {on : Bool} {r : Field → Val} {fs : List Field} : ∀ k ∈ (entriesOf on r fs).map Prod.fst, k ∈ fs.map Field.jsonName := by
  intro k hk
  simp only [entriesOf, List.map_map, List.mem_map, List.mem_filter, Function.comp] at hk
  obtain ⟨f, ⟨hf, _⟩, rfl⟩ := hk
  exact List.mem_map_of_mem hf

theorem entries_nodup {on : Bool} {r : Field → Val} {fs : List Field} (hn : (fs.map Field.jsonName).Nodup) :
    ((entriesOf on r fs).map Prod.fst).Nodup := by
  have : (entriesOf on r fs).map Prod.fst = (fs.filter (fun f => on || !(r f).isNone)).map Field.jsonName := by
    simp [entriesOf, List.map_map]
  rw [this]
  exact hn.sublist (List.filter_sublist.map _)

theorem jname_inj {fs : List Field} (hn : (fs.map Field.jsonName).Nodup) {f g : Field} (hf : f ∈ fs) (hg : g ∈ fs) (h : f.jsonName = g.jsonName) : f = g :=
  List.inj_on_of_nodup_map hn hf hg h

theorem entries_get {on : Bool} {r : Field → Val} {fs : List Field} (hn : (fs.map Field.jsonName).Nodup) {f : Field} (hf : f ∈ fs) :
    getD (entriesOf on r fs) f.jsonName = r f := by
  unfold getD
  cases hg : dictGet (entriesOf on r fs) f.jsonName with
  | some v =>
    have hm := (mem_iff_get (entries_nodup hn) _ _).2 hg
    simp only [entriesOf, List.mem_map, List.mem_filter, Prod.mk.injEq] at hm
    obtain ⟨g, ⟨hgm, _⟩, hgn, rfl⟩ := hm
    rw [jname_inj hn hgm hf hgn]
    rfl
  | none =>
    have hm := dictGet_none_iff.1 hg
    simp only [Option.getD_none]
    by_contra hne
    apply hm
    have : (f.jsonName, r f) ∈ entriesOf on r fs := by
      simp only [entriesOf, List.mem_map, List.mem_filter]
      refine ⟨f, ⟨hf, ?_⟩, rfl⟩
      have : (r f).isNone = false := by
        cases h : (r f).isNone with
        | false => rfl
        | true => exact absurd ((Val.isNone_iff _).1 h).symm hne
      simp [this]
    exact List.mem_map_of_mem (f := Prod.fst) this

theorem entries_name {on : Bool} {r : Field → Val} {cd : ClassDef} (hd : DataClass cd) {f : Field} (hf : f ∈ cd.fields)
    (hr : r f = .none) : getD (entriesOf on r cd.fields) f.name = .none := by
  by_cases hm : f.name ∈ cd.fields.map Field.jsonName
  · obtain ⟨g, hg, hgn⟩ := List.mem_map.1 hm
    have := hd.nomix f hf g hg hgn
    subst this
    rw [← hgn, entries_get hd.jnames hg, hr]
  · unfold getD
    rw [dictGet_none_iff.2 (fun h => hm (entries_keys _ h))]
    rfl

theorem entries_value {on : Bool} {r : Field → Val} {cd : ClassDef} (hd : DataClass cd) {f : Field} (hf : f ∈ cd.fields) :
    getFieldValue f (entriesOf on r cd.fields) = r f := by
  unfold getFieldValue
  rw [entries_get hd.jnames hf]
  split
  · rename_i h
    rw [(Val.isNone_iff _).1 h]
    exact entries_name hd hf ((Val.isNone_iff _).1 h)
  · rfl

theorem jsonFields_data {ops : Field → Ops World} {c : Ctx} {i : Nat} {on nk : Bool} {r : Field → Val} {w : World} (how : c.owner.isSome = true)
    (hp : (w.heap i).picks = none) (hd : DataClass (w.cdef env i))
    (hi : ∀ f ∈ (w.cdef env i).fields, f.ftype = .inst → (w.heap i).attrs f.name = .none ∨ ∃ j, (w.heap i).attrs f.name = .obj j)
    (hops : ∀ f ∈ (w.cdef env i).fields, ∀ c' : Ctx, c'.val = (w.heap i).attrs f.name → c'.cfg = c.cfg →
      ((w.heap i).attrs f.name ≠ .none → c'.owner.isSome = true) → (ops f).tojson c' w = (.ok (r f), w)) (fs : List Field) :
    ∀ acc, (∀ f ∈ fs, f ∈ (w.cdef env i).fields) → jsonFields env ops c i on nk fs acc w =
      (.ok (fs.foldl (fun a f => if on || !(r f).isNone then dictSet f.jsonName (r f) a else a) acc), w) := by
  obtain ⟨o, ho⟩ := Option.isSome_iff_exists.1 how
  induction fs with
  | nil => intro acc _; rfl
  | cons f fs ih =>
    intro acc hm
    have hf := hm f (by simp)
    have hst := (hd.field f hf).store
    have hget : w.getattr env i f.name = .ok ((w.heap i).attrs f.name) := by
      have : (w.cdef env i).field? f.name = some f := find_name hd.names hf
      simp [World.getattr, this, hst, World.attr]
    have hskip : skipJson env c (w.heap i) nk f = false := by
      simp [skipJson, Field.isRef, hst, (hd.field f hf).readable, notPicked, hp]
    unfold jsonFields
    simp only [hget, hst, reduceCtorEq, decide_false, Bool.false_and, Bool.false_eq_true, if_false, keyEntry, hskip, Ctx.ekey, ho]
    have hto : (ops f).tojson (if f.ftype = .inst then
          c.nextoc ((w.heap i).attrs f.name) f.name ((w.cdef env o).outKey f.name) ((w.heap i).cls, f.name) (w.cdef env i).name
        else c.nextvc ((w.heap i).attrs f.name) f.name ((w.cdef env o).outKey f.name) ((w.heap i).cls, f.name) (w.cdef env i).name) w =
        (.ok (r f), w) := by
      split
      · rename_i hft
        refine hops f hf _ rfl rfl (fun hne => ?_)
        rcases hi f hf hft with h | ⟨j, h⟩
        · exact absurd h hne
        · simp [Ctx.nextoc, Ctx.nexto, h, Val.idx?]
      · exact hops f hf _ rfl rfl (fun _ => by simp [Ctx.nextvc, Ctx.nextv, ho])
    rw [hto]
    simp only []
    rw [ih _ (fun g hg => hm g (by simp [hg]))]
    rfl

theorem list_bound (N : Field → Nat) (fs : List Field) : ∃ M, ∀ f ∈ fs, N f ≤ M := by
  induction fs with
  | nil => exact ⟨0, by simp⟩
  | cons f fs ih =>
    obtain ⟨M, hM⟩ := ih
    refine ⟨max (N f) M, fun g hg => ?_⟩
    rcases List.mem_cons.1 hg with rfl | hg
    · omega
    · have := hM g hg; omega

/-- an object whose field values can be read back is output as a dict that can be read back -/
theorem obj_data {h : Heap} {on : Option Bool} {i : Nat} (hp : (h i).picks = none) (hd : DataClass (env.cls (h i).cls))
    (hi : ∀ f ∈ (env.cls (h i).cls).fields, f.ftype = .inst → (h i).attrs f.name = .none ∨ ∃ j, (h i).attrs f.name = .obj j)
    (hdf : ∀ f ∈ (env.cls (h i).cls).fields, f.default ≠ none → (h i).attrs f.name ≠ .none)
    (hrt : ∀ f ∈ (env.cls (h i).cls).fields, RT env h on f.chain ((h i).attrs f.name)) :
    ∃ N K, (∀ k ∈ K.map Prod.fst, k ∈ (env.cls (h i).cls).fields.map Field.jsonName) ∧
      (∀ p, (env.cls (h i).cls).primary = some p → (h i).attrs p = .none → getD K p = .none) ∧
      (∀ n ≥ N, ∀ (c : Ctx) (w : World), w.heap = h → c.val = .obj i → c.cfg.outputNull = on → c.owner.isSome = true →
        instTojson env (Field.ops env (instOps env n)) c w = (.ok (.dict K), w)) ∧
      (∀ n ≥ N, ∀ f ∈ (env.cls (h i).cls).fields, ReadsBack env h (Field.ops env (instOps env n)) K (fun f => (h i).attrs f.name) f) := by
  have hex : ∀ f : Field, ∃ N j, f ∈ (env.cls (h i).cls).fields → (j.isNone = true ↔ (h i).attrs f.name = .none) ∧
      (∀ n ≥ N, ∀ (c : Ctx) (w : World), w.heap = h → c.val = (h i).attrs f.name → c.cfg.outputNull = on →
        ((h i).attrs f.name ≠ .none → c.owner.isSome = true) → chainTojson (denL env (instOps env n) f.chain) c w = (.ok j, w)) ∧
      (∀ n ≥ N, ∀ (c : Ctx) (w : World), c.val = j → c.original = none → c.owner.isSome = true → c.cfg.fillBlanks = true →
        ∃ v' w', chainTransform (denL env (instOps env n) f.chain) c w = (.ok v', w') ∧ Built env h w w' ((h i).attrs f.name) v') := by
    intro f
    by_cases hf : f ∈ (env.cls (h i).cls).fields
    · obtain ⟨N, j, h1⟩ := hrt f hf
      exact ⟨N, j, fun _ => h1⟩
    · exact ⟨0, .none, fun hf' => absurd hf' hf⟩
  choose N r hR using hex
  obtain ⟨M, hM⟩ := list_bound N (env.cls (h i).cls).fields
  refine ⟨M + 1, entriesOf (on.getD (env.cls (h i).cls).outputNull) r (env.cls (h i).cls).fields, entries_keys, ?_, ?_, ?_⟩
  · intro p hpk hnone
    obtain ⟨f, hf, rfl⟩ := hd.key p hpk
    exact entries_name hd hf ((Val.isNone_iff _).1 ((hR f hf).1.2 hnone))
  · intro n hn c w hh hc hon how
    subst hh
    have hK := jsonFields_data (env := env) (ops := Field.ops env (instOps env n)) (c := c) (i := i) (on := on.getD (env.cls (w.heap i).cls).outputNull)
      (nk := c.idchain.contains (w.cdef env i).name) (r := r) (w := w) how hp hd hi
      (fun f hf c' hv hcfg ho' => (hR f hf).2.1 n (Nat.le_trans (hM f hf) (by omega)) c' w rfl hv (by rw [hcfg, hon]) ho')
      (env.cls (w.heap i).cls).fields [] (fun _ h => h)
    unfold instTojson
    simp only [hc]
    rw [Py.bind_run, Py.get_run]
    simp only []
    rw [Py.bind_run, hon]
    have e : w.cdef env i = env.cls (w.heap i).cls := rfl
    rw [e] at hK ⊢
    rw [hK, fold_entries, foldl_dictSet_nodup']
    · rfl
    · simpa using entries_nodup hd.jnames
  · intro n hn f hf
    obtain ⟨m, rfl⟩ : ∃ m, n = m + 1 := ⟨n - 1, by omega⟩
    refine ⟨?_, ?_, ?_⟩
    · intro c w hc ho
      exact null_transform (hd.field f hf).null hc ho
    · intro hnone
      rw [entries_value hd hf] at hnone
      have hv := (hR f hf).1.1 hnone
      have hdn : f.default = none := by
        by_contra hne
        exact hdf f hf hne hv
      rw [hdn]
      exact ⟨hv, by simp⟩
    · intro _ c w hc ho how hfb
      rw [entries_value hd hf] at hc
      exact (hR f hf).2.2 (m + 1) (Nat.le_trans (hM f hf) (by omega)) c w hc ho how hfb

/-! ### Objects: construction -/

theorem graphPutSelf_run (i : Nat) (w : World) : ∃ gs, graphPutSelf env i w = (.ok (), { w with graphs := gs }) := by
  unfold graphPutSelf
  rw [Py.modify_run]
  split
  · exact ⟨w.graphs, rfl⟩
  · exact ⟨_, rfl⟩

/-- a constructor call whose fields can be read back -/
theorem new_step {h : Heap} {cls : String} {m : Nat} {kvs : List (String × Val)} {V : Field → Val} {w : World} (hfuel : env.fuel ≠ 0)
    (hd : DataClass (env.cls cls)) (hr : ∀ f ∈ (env.cls cls).fields, ReadsBack env h (Field.ops env (instOps env m)) kvs V f)
    (hk : ∀ k ∈ kvs.map Prod.fst, k ∈ (env.cls cls).fields.map Field.jsonName) :
    ∃ w', newObj env (instOps env (m + 1)) cls kvs w = (.ok w.next, w') ∧ w.next < w'.next ∧ (∀ j < w.next, w'.heap j = w.heap j) ∧
      (w'.heap w.next).cls = cls ∧
      ∀ f ∈ (env.cls cls).fields, SameIn env h w'.heap (w.next + 1) w'.next (V f) ((w'.heap w.next).attrs f.name) := by
  have hlk : ∀ n, (env.cls cls).localKey? n = none := by
    intro n
    unfold ClassDef.localKey?
    rw [List.find?_eq_none]
    intro g hg
    simp [(hd.field g hg).store]
  obtain ⟨w1, hw1⟩ : ∃ w1 : World, w1 = { w with heap := fun j => if j = w.next then freshObj env cls w.nextg else w.heap j, next := w.next + 1, nextg := w.nextg + 1 } :=
    ⟨_, rfl⟩
  have ha : alloc env cls w = (.ok w.next, w1) := by rw [hw1]; rfl
  have hc1 : (w1.heap w.next).cls = cls := by rw [hw1]; simp [freshObj]
  have hat1 : ∀ n, (w1.heap w.next).attrs n = .none := by intro n; rw [hw1]; simp [freshObj, hlk]
  have hn1 : w1.next = w.next + 1 := by rw [hw1]
  have ho1 : ∀ j < w.next, w1.heap j = w.heap j := by
    intro j hj
    rw [hw1]
    simp only []
    rw [if_neg (by omega)]
  obtain ⟨w2, hw2⟩ : ∃ w2 : World, w2 = ((pyWhen (!(inputPk env cls kvs).isNone)
      (Py.modify (fun w' => w'.markPutp env (inputPk env cls kvs) w.next))) { w1 with marks := [] }).2 := ⟨_, rfl⟩
  have hpk : pyWhen (!(inputPk env cls kvs).isNone) (Py.modify (fun w' => w'.markPutp env (inputPk env cls kvs) w.next)) { w1 with marks := [] } =
      (.ok (), w2) := by
    rw [hw2]; unfold pyWhen; split <;> rfl
  have hw2h : w2.heap = w1.heap ∧ w2.next = w1.next := by
    rw [hw2]; unfold pyWhen; split <;> exact ⟨rfl, rfl⟩
  obtain ⟨w3, e3, s3, v3⟩ := apply_step (h := h) (st := none) (kvs := kvs) (V := V) (w := w2) (dest := w.next)
    (c := rootCtx w1 w.next { fillBlanks := true, allFields := some false } (.dict kvs)) (ops := Field.ops env (instOps env m)) hfuel hd rfl rfl hr hk
    (by rw [hw2h.2, hn1]; omega) (by rw [hw2h.1]; exact hc1) (fun f _ => by rw [hw2h.1, hat1]; exact canTake_none)
  obtain ⟨gs, hgs⟩ := graphPutSelf_run (env := env) w.next { w3 with marks := w1.marks }
  refine ⟨{ w3 with marks := w1.marks, graphs := gs }, ?_, ?_, ?_, ?_, ?_⟩
  · unfold newObj
    rw [if_neg (by simp [hd.concrete]), Py.bind_run, ha]
    simp only []
    have hset : setDict (instOps env (m + 1)) w.next kvs true w1 = (.ok (), { w3 with marks := w1.marks }) := by
      unfold setDict
      rw [Py.bind_run, Py.get_run]
      simp only []
      rw [Py.bind_run]
      unfold withFreshMarks
      rw [hc1, root_transform, Py.bind_run, hpk]
      simp only []
      rw [Py.bind_run, e3]
      rfl
    rw [Py.bind_run, hset]
    simp only []
    rw [Py.bind_run, hgs]
    rfl
  · have := s3.next
    simp only [] at this ⊢
    rw [hw2h.2, hn1] at this
    omega
  · intro j hj
    simp only []
    rw [s3.frame j (by rw [hw2h.2, hn1]; omega) (by omega), hw2h.1, ho1 j hj]
  · simp only []
    rw [s3.isCls, hw2h.1, hc1]
  · intro f hf
    have := v3 f hf
    rw [hw2h.2, hn1] at this
    exact this

theorem blank_reads {h : Heap} {cd : ClassDef} {m : Nat} (hd : DataClass cd) {f : Field} (hf : f ∈ cd.fields) (hs : ∀ d, f.default = some d → Scalar d) :
    ReadsBack env h (Field.ops env (instOps env (m + 1))) [] (fun f => f.default.getD .none) f :=
  ⟨fun _ _ hc ho => null_transform (hd.field f hf).null hc ho, fun _ => ⟨rfl, hs⟩, fun hv => by simp [hasFieldValue, dictGet] at hv⟩

theorem sameIn_none {h h' : Heap} {lo hi : Nat} {v : Val} (hs : SameIn env h h' lo hi .none v) : v = .none := by
  cases hs with
  | null => rfl
  | scalar h => exact rfl

theorem sameIn_scalar {h h' : Heap} {lo hi : Nat} {d v : Val} (hd : Scalar d) (hs : SameIn env h h' lo hi d v) : v = d := by
  cases hs with
  | scalar _ => rfl
  | null => rfl
  | _ => exact absurd hd (by simp [Scalar])

theorem takes_value {h : Heap} {f : Field} {v : Val} (hy : DefaultYields f v) : CanTake env h f v (f.default.getD .none) := by
  cases hdf : f.default with
  | none => exact canTake_none
  | some d =>
    obtain ⟨hs, hv, hw, he⟩ := hy d hdf
    refine ⟨fun h => absurd h hw, ?_⟩
    intro h' lo hi v' hs' heq
    cases hs' with
    | null => exact absurd rfl hv
    | scalar _ => exact he heq
    | list _ _ => cases d <;> simp [Scalar, pyEq] at hs heq
    | dict _ _ => cases d <;> simp [Scalar, pyEq] at hs heq
    | obj _ _ _ _ => cases d <;> simp [Scalar, pyEq] at hs heq

theorem rt_obj {h : Heap} {on : Option Bool} {pre post : List Mod} {st : Option Bool} {i : Nat} (hfuel : env.fuel ≠ 0) (h1 : ∀ m ∈ pre, Inert m)
    (h2 : ∀ m ∈ post, Inert m) (hp : (h i).picks = none) (hd : DataClass (env.cls (h i).cls))
    (hi : ∀ f ∈ (env.cls (h i).cls).fields, f.ftype = .inst → (h i).attrs f.name = .none ∨ ∃ j, (h i).attrs f.name = .obj j)
    (hdy : ∀ f ∈ (env.cls (h i).cls).fields, DefaultYields f ((h i).attrs f.name))
    (hkey : ∀ p, (env.cls (h i).cls).primary = some p → (h i).attrs p = .none)
    (hrt : ∀ f ∈ (env.cls (h i).cls).fields, RT env h on f.chain ((h i).attrs f.name)) :
    RT env h on (pre ++ .instOf (h i).cls st :: post) (.obj i) := by
  have hdf : ∀ f ∈ (env.cls (h i).cls).fields, f.default ≠ none → (h i).attrs f.name ≠ .none := by
    intro f hf hne
    obtain ⟨d, hd'⟩ := Option.ne_none_iff_exists'.1 hne
    exact (hdy f hf d hd').2.1
  obtain ⟨N, K, hk, hpk, hto, hrb⟩ := obj_data hp hd hi hdf hrt
  refine ⟨N + 3, .dict K, by simp [Val.isNone], ?_, ?_⟩
  · intro n hn c w hh hc hon how
    obtain ⟨m, rfl⟩ : ∃ m, n = m + 1 := ⟨n - 1, by omega⟩
    refine chain_tojson_core h1 h2 ?_
    exact hto m (by omega) c w hh hc hon (how (by simp))
  · intro n hn c w hc ho how hfb
    obtain ⟨m, rfl⟩ : ∃ m, n = m + 1 + 1 + 1 := ⟨n - 3, by omega⟩
    obtain ⟨w1, e1, hlt, hfr, hcl, hv⟩ := new_step (h := h) (m := m + 1) (kvs := []) (V := fun f => f.default.getD .none) (w := w) hfuel hd
      (fun f hf => blank_reads hd hf (fun d hd' => (hdy f hf d hd').1)) (by simp)
    have hblank : ∀ f ∈ (env.cls (h i).cls).fields, (w1.heap w.next).attrs f.name = f.default.getD .none := by
      intro f hf
      have := hv f hf
      cases hdf' : f.default with
      | none => rw [hdf'] at this; exact sameIn_none this
      | some d => rw [hdf'] at this; exact sameIn_scalar (hdy f hf d hdf').1 this
    have hmk : ∃ w2 : World, w1.markPut env w.next = w2 ∧ w2.heap = w1.heap ∧ w2.next = w1.next := by
      refine ⟨_, rfl, ?_⟩
      unfold World.markPut
      split <;> exact ⟨rfl, rfl⟩
    obtain ⟨w2, hw2, hh2, hn2⟩ := hmk
    obtain ⟨w3, e3, s3, v3⟩ := apply_step (st := st) (c := c) (w := w2) (dest := w.next) hfuel hd how hfb (hrb (m + 1 + 1) (by omega)) hk
      (by rw [hn2]; exact hlt) (by rw [hh2]; exact hcl) (fun f hf => by rw [hh2, hblank f hf]; exact takes_value (hdy f hf))
    have hnx := s3.next
    rw [hn2] at hnx
    refine ⟨.obj w.next, w3, chain_transform_core h1 h2 trivial ?_, by omega, ?_, ?_⟩
    · simp only [Mod.den, instOps, instTransform, hc]
      have hpk' : inputPk env (h i).cls K = .none := by
        unfold inputPk
        cases hpp : (env.cls (h i).cls).primary with
        | none => rfl
        | some p => exact hpk p hpp (hkey p hpp)
      have hfd : findDest env (instOps env (m + 1 + 1)) (h i).cls c K w = (.ok (w.next, false), w2) := by
        unfold findDest
        simp only [ho, hpk', Val.isNone, if_true]
        rw [Py.bind_run, e1]
        simp only []
        rw [Py.bind_run, Py.modify_run, hw2]
        rfl
      rw [Py.bind_run]
      have hfd' : findDest env (instOps env (m + 1 + 1)) (h i).cls c K w = (.ok (w.next, false), w2) := hfd
      simp only [instOps] at hfd' e3
      rw [hfd']
      simp only []
      rw [Py.bind_run, e3]
      rfl
    · intro j hj
      rw [s3.frame j (by rw [hn2]; omega) (by omega), hh2, hfr j hj]
    · refine .obj (Nat.le_refl _) (by omega) ?_ ?_
      · rw [s3.isCls, hh2, hcl]
      · intro f hf
        refine (v3 f hf).widen ?_ (Nat.le_refl _) (fun _ _ _ => rfl)
        rw [hn2]; omega

theorem fits_rt {h : Heap} {on : Option Bool} {ch : List Mod} {v : Val} (hfuel : env.fuel ≠ 0) (hf : FitsJson env h ch v) : RT env h on ch v := by
  induction hf with
  | null h => exact rt_null h
  | scalar h1 h2 h3 h4 => exact rt_scalar h1 h2 h3 h4
  | list h1 h2 _ ih => exact rt_list h1 h2 ih
  | dict h1 h2 hn _ ih => exact rt_dict h1 h2 hn ih
  | obj h1 h2 hc hp hd _ hi hy hk ih =>
    subst hc
    exact rt_obj hfuel h1 h2 hp hd hi hy hk ih

/-- **C55**: take an object without relations whose fields are readable, writable and of
their declared types. Its JSON, given to the constructor of its class in any state, makes a
new object of the same class whose fields hold the same values: equal scalars, lists with
the same items in the same order, dicts with the same keys in the same order, and nested
objects that are compared in the same way. Writing the JSON changes nothing, and reading it
changes no object that was there before.

Missing from the full statement: fields with relations, and the cases where it fails: a null
field with a default (`RoundTripDemo.null_becomes_default`), nested objects with a primary
key (`RoundTripDemo.equal_keys_merge`), nested write-once fields with a default
(`RoundTripDemo.nested_writeonce_ignored`), datetimes at a whole second (C16). -/
theorem json_round_trip_partial {w : World} {cls : String} {i : Nat} (hfuel : env.fuel ≠ 0) (hf : FitsRoot env w.heap cls i)
    (ig rr : Bool) (on : Option Bool) :
    ∃ N kvs, ∀ n ≥ N, apiTojson env n i ig rr on w = (.ok (.dict kvs), w) ∧
      ∀ w₁ : World, ∃ i' w', apiNew env n cls kvs w₁ = (.ok i', w') ∧ SameValue env w.heap w'.heap (.obj i) (.obj i') ∧
        w₁.next ≤ i' ∧ ∀ j < w₁.next, w'.heap j = w₁.heap j := by
  obtain ⟨hc, hp, hd, hfs, hi, hdf⟩ := hf
  subst hc
  obtain ⟨N, K, hk, hpk, hto, hrb⟩ := obj_data (on := on) hp hd hi hdf (fun f hf => fits_rt hfuel (hfs f hf))
  refine ⟨N + 1, K, fun n hn => ?_⟩
  obtain ⟨m, rfl⟩ : ∃ m, n = m + 1 := ⟨n - 1, by omega⟩
  constructor
  · unfold apiTojson withFreshMarks
    have := hto m (by omega) (rootCtx w i { ignoreWriteonly := ig, reverseRel := rr, outputNull := on } (.obj i)) { w with marks := [] } rfl rfl rfl rfl
    simp only [instOps, this]
  · intro w₁
    obtain ⟨w', e, hlt, hfr, hcl, hv⟩ := new_step (w := w₁) hfuel hd (hrb m (by omega)) hk
    refine ⟨w₁.next, w', e, .obj hcl (fun f hf => (hv f hf).forget), Nat.le_refl _, hfr⟩

/-! ### Which values survive -/

theorem survives_self {l : Leaf} {v : Val} (h1 : ∀ h c, l.tojson h c = .ok c.val) (h2 : ∀ h c, c.val = v → l.transform h c = .ok v)
    (hv : v.isNone = false) : Survives l v :=
  ⟨v, hv, fun h c hc => by rw [h1, hc], h2⟩

theorem survives_str (s : String) : Survives strMod (.str s) := survives_self (fun _ _ => rfl) (fun _ c h => by rw [← h]; rfl) rfl
theorem survives_int (n : Int) : Survives intMod (.int n) := survives_self (fun _ _ => rfl) (fun _ c h => by rw [← h]; rfl) rfl
theorem survives_bool (b : Bool) : Survives boolMod (.bool b) := survives_self (fun _ _ => rfl) (fun _ c h => by rw [← h]; rfl) rfl
theorem survives_float (f : Flt) : Survives floatMod (.flt f) := survives_self (fun _ _ => rfl) (fun _ c h => by simp [floatMod, h]) rfl

/-- every valid date survives -/
theorem survives_date {d : PyDate} (hd : d.Valid) : Survives dateMod (.date d) := by
  refine ⟨.str (String.ofList (d.iso ++ "T00:00:00.000Z".toList)), rfl, fun h c hc => by simp [dateMod, hc], fun h c hc => ?_⟩
  obtain ⟨j, h1, h2⟩ := date_roundtrip (h := h) (c := c.nval (.date d)) rfl hd
  simp only [dateMod, Ctx.nval, Except.ok.injEq] at h1
  subst h1
  have : c = (c.nval (.date d)).nval (.str (String.ofList (d.iso ++ "T00:00:00.000Z".toList))) := by rw [← hc]; rfl
  rw [this]
  exact h2

/-- UTC datetimes of whole milliseconds survive, unless they are at a whole second -/
theorem survives_datetime {d : PyDateTime} (hd : d.Valid) (hm : d.micro ≠ 0) (hk : d.micro % 1000 = 0) (hu : d.utc = true) :
    Survives datetimeMod (.dt d) := by
  refine ⟨.str (String.ofList (d.iso.take 23 ++ ['Z'])), rfl, fun h c hc => by simp [datetimeMod, hc], fun h c hc => ?_⟩
  obtain ⟨j, h1, h2⟩ := datetime_roundtrip_partial (h := h) (c := c.nval (.dt d)) rfl hd hm
  simp only [datetimeMod, Ctx.nval, Except.ok.injEq] at h1
  subst h1
  have : c = (c.nval (.dt d)).nval (.str (String.ofList (d.iso.take 23 ++ ['Z']))) := by rw [← hc]; rfl
  rw [this, h2]
  have ht : truncMs d = d := by
    have e : d.micro / 1000 * 1000 = d.micro := by omega
    unfold truncMs
    rw [e, ← hu]
  rw [ht]

/-- members of an enum that is output and input by name survive -/
theorem survives_enum_name {up low : String → String} {e : EnumDef} {i : EnumIn} (hw : e.Wf) (hin : i.name = true) (hiv : i.value = false) {m : String}
    {x : Val} (hm : (m, x) ∈ e.members) : Survives (enumMod up low e i .name) (.enum e.name m) := by
  refine ⟨.str m, rfl, fun h c hc => by simp [enumMod, enumTojson, hc], fun h c hc => ?_⟩
  simp [enumMod, enumTransform, hc, Val.isNone, EnumDef.isMember, hiv, hin, byName_mem hm, orElseTry]

/-- validators are inert -/
theorem inert_validator (g : Heap → Ctx → Except Exc Unit) : Inert (.leaf { validate := g }) := fun _ _ => ⟨rfl, rfl⟩

theorem nullCore_of {l : Leaf} (h1 : ∀ h c, c.val = .none → l.tojson h c = .ok .none) (h2 : ∀ h c, c.val = .none → l.transform h c = .ok .none) :
    NullOk [.leaf l] := ⟨[], .leaf l, [], rfl, by simp, by simp, fun h c hc => ⟨h1 h c hc, h2 h c hc⟩⟩

end JC

/-! ### A concrete case, and what fails outside the hypotheses -/

namespace JC.RoundTripDemo
open JC Demo

def fDay : Field := { name := "day", jsonName := "eventDay", chain := [.leaf { validate := fun _ _ => .ok () }, .leaf dateMod] }
def fTags : Field := { name := "tags", jsonName := "tags", ftype := .list, chain := [.listOf false .no [.leaf strMod]] }
def fSeats : Field := { name := "seats", jsonName := "seats", default := some (.int 10), chain := [.leaf intMod] }
def fPlace : Field := { name := "place", jsonName := "place", ftype := .inst, isInst := true, chain := [.instOf "Place" none] }
def fStops : Field := { name := "stops", jsonName := "stops", ftype := .list, chain := [.listOf false .no [.instOf "Stop" none]] }
def fCode : Field := { name := "code", jsonName := "code", default := some (.str "x"), writeRule := .writeOnce, chain := [.leaf strMod] }
def fRoom : Field := { name := "room", jsonName := "room", ftype := .inst, isInst := true, chain := [.instOf "Room" none] }
def fName' : Field := { name := "name", jsonName := "name", chain := [.leaf strMod] }

/-- an event with a key, a date, a list, a default and a place -/
def event : ClassDef := { name := "Event", primary := some "name", strictInput := true, fields := [fName', fDay, fTags, fSeats, fPlace] }
def place : ClassDef := { name := "Place", fields := [fName', fSeats] }
/-- stops have a primary key -/
def stop : ClassDef := { name := "Stop", primary := some "name", fields := [fName', fSeats] }
def route : ClassDef := { name := "Route", fields := [fStops] }
/-- rooms have a write-once code with a default -/
def room : ClassDef := { name := "Room", fields := [fCode] }
def house : ClassDef := { name := "House", fields := [fRoom] }

def env : Env where
  cls := fun n => if n = "Event" then event else if n = "Place" then place else if n = "Stop" then stop else if n = "Route" then route
    else if n = "Room" then room else if n = "House" then house else {}
  pystr := fun v => match v with
    | .str s => s
    | _ => ""

def day : PyDate := ⟨2024, 2, 29⟩

def world : World where
  heap := fun i => match i with
    | 0 => { cls := "Event", attrs := attrsOf [("name", .str "e"), ("day", .date day), ("tags", .list [.str "a", .none]), ("seats", .int 3), ("place", .obj 1)] }
    | 1 => { cls := "Place", attrs := attrsOf [("seats", .int 5)] }
    | 2 => { cls := "Route", attrs := attrsOf [("stops", .list [.obj 3, .obj 4])] }
    | 3 => { cls := "Stop", attrs := attrsOf [("name", .str "s"), ("seats", .int 1)] }
    | 4 => { cls := "Stop", attrs := attrsOf [("name", .str "s"), ("seats", .int 2)] }
    | 5 => { cls := "House", attrs := attrsOf [("room", .obj 6)] }
    | 6 => { cls := "Room", attrs := attrsOf [("code", .str "y")] }
    | 7 => { cls := "Place", attrs := attrsOf [("name", .str "p")] }
    | _ => {}
  next := 8

theorem str_null : NullOk [.leaf strMod] := nullCore_of (fun _ _ h => by rw [← h]; rfl) (fun _ _ h => by rw [← h]; rfl)
theorem int_null : NullOk [.leaf intMod] := nullCore_of (fun _ _ h => by rw [← h]; rfl) (fun _ _ h => by rw [← h]; rfl)

theorem name_data : DataField fName' := ⟨rfl, by simp [fName'], rfl, str_null⟩
theorem seats_data : DataField fSeats := ⟨rfl, by simp [fSeats], rfl, int_null⟩
theorem day_data : DataField fDay :=
  ⟨rfl, by simp [fDay], rfl, [.leaf { validate := fun _ _ => .ok () }], .leaf dateMod, [], rfl, by simp [Inert], by simp,
    fun h c hc => by simp [dateMod, hc]⟩
theorem tags_data : DataField fTags := ⟨rfl, by simp [fTags], rfl, [], _, [], rfl, by simp, by simp, rfl⟩
theorem place_data : DataField fPlace := ⟨rfl, by simp [fPlace], rfl, [], _, [], rfl, by simp, by simp, trivial⟩

theorem place_class : DataClass place where
  concrete := rfl
  names := by decide
  jnames := by decide
  nomix := by simp [place, fName', fSeats]
  key := by simp [place]
  field := by
    simp only [place, List.mem_cons, List.not_mem_nil, or_false, forall_eq_or_imp, forall_eq]
    exact ⟨name_data, seats_data⟩

theorem event_class : DataClass event where
  concrete := rfl
  names := by decide
  jnames := by decide
  nomix := by simp [event, fName', fDay, fTags, fSeats, fPlace]
  key := by simp [event, fName']
  field := by
    simp only [event, List.mem_cons, List.not_mem_nil, or_false, forall_eq_or_imp, forall_eq]
    exact ⟨name_data, day_data, tags_data, seats_data, place_data⟩

theorem place_fits : FitsJson env world.heap [.instOf "Place" none] (.obj 1) := by
  refine .obj (pre := []) (post := []) (by simp) (by simp) rfl rfl place_class ?_ ?_ ?_ ?_
  · change ∀ f ∈ place.fields, _
    simp only [place, List.mem_cons, List.not_mem_nil, or_false, forall_eq_or_imp, forall_eq]
    exact ⟨.null str_null, .scalar (pre := []) (post := []) (v := .int 5) (by simp) (by simp) trivial (survives_int 5)⟩
  · change ∀ f ∈ place.fields, _
    simp [place, fName', fSeats]
  · change ∀ f ∈ place.fields, _
    simp only [place, List.mem_cons, List.not_mem_nil, or_false, forall_eq_or_imp, forall_eq]
    refine ⟨by simp [DefaultYields, fName'], ?_⟩
    intro d hd
    cases hd
    have e : (world.heap 1).attrs fSeats.name = .int 5 := rfl
    rw [e]
    exact ⟨trivial, by simp, by simp [fSeats], by simp [pyEq]⟩
  · intro p hp
    cases hp

theorem event_fits : FitsRoot env world.heap "Event" 0 where
  isCls := rfl
  whole := rfl
  data := event_class
  fields := by
    change ∀ f ∈ event.fields, _
    simp only [event, List.mem_cons, List.not_mem_nil, or_false, forall_eq_or_imp, forall_eq]
    refine ⟨.scalar (pre := []) (post := []) (v := .str "e") (by simp) (by simp) trivial (survives_str _), ?_, ?_, ?_, place_fits⟩
    · exact .scalar (pre := [.leaf { validate := fun _ _ => .ok () }]) (post := []) (v := .date day) (by simp [Inert]) (by simp) trivial
        (survives_date (by rw [PyDate.valid_iff]; decide))
    · refine .list (pre := []) (post := []) (xs := [.str "a", .none]) (by simp) (by simp) ?_
      simp only [List.mem_cons, List.not_mem_nil, or_false, forall_eq_or_imp, forall_eq]
      exact ⟨.scalar (pre := []) (post := []) (by simp) (by simp) trivial (survives_str _), .null str_null⟩
    · exact .scalar (pre := []) (post := []) (v := .int 3) (by simp) (by simp) trivial (survives_int 3)
  inst := by
    change ∀ f ∈ event.fields, _
    simp [event, fName', fDay, fTags, fSeats, fPlace, world, attrsOf, dictGet]
  defaults := by
    change ∀ f ∈ event.fields, _
    simp [event, fName', fDay, fTags, fSeats, fPlace, world, attrsOf, dictGet]

example (on : Option Bool) : ∃ N kvs, ∀ n ≥ N, apiTojson env n 0 false false on world = (.ok (.dict kvs), world) ∧
    ∀ w₁ : World, ∃ i' w', apiNew env n "Event" kvs w₁ = (.ok i', w') ∧ SameValue env world.heap w'.heap (.obj 0) (.obj i') ∧
      w₁.next ≤ i' ∧ ∀ j < w₁.next, w'.heap j = w₁.heap j :=
  json_round_trip_partial (by decide) event_fits false false on

/-- **C55** fails for a null field with a default: the copy holds the default. -/
theorem null_becomes_default : ∃ kvs, apiTojson env 4 7 false false none world = (.ok (.dict kvs), world) ∧ (world.heap 7).attrs "seats" = .none ∧
    ∃ w', apiNew env 4 "Place" kvs world = (.ok 8, w') ∧ (w'.heap 8).attrs "seats" = .int 10 :=
  ⟨_, rfl, rfl, _, rfl, rfl⟩

/-- the call returned this object -/
def returned (i : Nat) : Except Exc Nat → Bool
  | .ok j => j == i
  | .error _ => false

/-- **C55** fails for nested objects with equal keys: two different objects come back as one,
which has the values of the second. -/
theorem equal_keys_merge : ∃ kvs, apiTojson env 5 2 false false none world = (.ok (.dict kvs), world) ∧
    (world.heap 2).attrs "stops" = .list [.obj 3, .obj 4] ∧ (world.heap 3).attrs "seats" = .int 1 ∧
    returned 8 (apiNew env 5 "Route" kvs world).1 = true ∧
    pyEq ((apiNew env 5 "Route" kvs world).2.attr 8 "stops") (.list [.obj 9, .obj 9]) = true ∧
    pyEq ((apiNew env 5 "Route" kvs world).2.attr 9 "seats") (.int 2) = true :=
  ⟨[("stops", .list [.dict [("name", .str "s"), ("seats", .int 1)], .dict [("name", .str "s"), ("seats", .int 2)]])], rfl, rfl, rfl,
    by decide +kernel, by decide +kernel, by decide +kernel⟩

/-- **C55** fails for write-once fields with a default in nested objects: the default is in
place before the input is looked at, so the given value is never taken. -/
theorem nested_writeonce_ignored : ∃ kvs, apiTojson env 5 5 false false none world = (.ok (.dict kvs), world) ∧ (world.heap 6).attrs "code" = .str "y" ∧
    ∃ w', apiNew env 5 "House" kvs world = (.ok 8, w') ∧ (w'.heap 8).attrs "room" = .obj 9 ∧ (w'.heap 9).attrs "code" = .str "x" :=
  ⟨_, rfl, rfl, _, rfl, rfl, rfl⟩

end JC.RoundTripDemo
