import Verif.Props.Repeat
import Verif.Props.RoundTrip
import Verif.Props.BuildKeys

/-
Writing the JSON of an object back to it (C92): `obj.set(**obj.tojson())` changes nothing.
-/
namespace JC
variable {env : Env}

/-! ### Specification -/

/-- the pipeline reads the input `j` as `t`, without any effect -/
def ReadAs (env : Env) (m : Nat) (f : Field) (j t : Val) : Prop :=
  ∀ c w, SetCtx c → c.original = none → c.val = j → (f.ops env (instOps env m)).transform c w = (.ok t, w)

/-- The field's value equals what is made of its JSON form when that comes in as input. (Of a
calculated field the input is read, but nothing is assigned.) -/
def ComesBack (env : Env) (n m : Nat) (w : World) (i : Nat) (f : Field) : Prop :=
  ∀ v c w₁ j, w.getattr env i f.name = .ok v → c.val = v → SameData w w₁ → (f.ftype ≠ .inst → c.owner.isSome = true) →
    ((f.ops env (instOps env n)).tojson c w₁).1 = .ok j → ∃ t, ReadAs env m f j t ∧ (f.store ≠ .calculated → pyEq t v = true)

/-- input for the field is not ignored -/
def TakesInput (env : Env) (w : World) (i : Nat) (f : Field) : Prop :=
  f.writeRule ≠ .noWrite ∧ (f.writeRule = .writeOnce → w.getattr env i f.name = .ok .none)

/-- The names of fields and ids are distinct, and the JSON name of one is not the name of
another. -/
structure ClearNames (cd : ClassDef) : Prop where
  names : (cd.fields.map Field.name).Nodup
  jnames : (cd.fields.flatMap jsonNames).Nodup
  noKey : ∀ f ∈ cd.fields, cd.localKey? f.name = none
  own : ∀ f ∈ cd.fields, ∀ g ∈ cd.fields, f.name ∈ jsonNames g → f.name = f.jsonName
  keyOf : ∀ f ∈ cd.fields, f.store = .localKey → cd.localKey? f.refName = some f ∧ (f.ftype = .inst ∨ f.ftype = .list)
  ownKey : ∀ f ∈ cd.fields, f.store = .localKey → ∀ g ∈ cd.fields, f.refName ∈ jsonNames g → f.refName = f.jrefName

/-- What is output of the object and accepted as input comes back; the ids are equal to
themselves; lists of a relation that must not be None are not None. -/
structure Returns (env : Env) (n m : Nat) (w : World) (i : Nat) (ig : Bool) : Prop where
  names : ClearNames (w.cdef env i)
  value : ∀ f ∈ (w.cdef env i).fields, RootVisible ig (w.heap i) f → TakesInput env w i f → ComesBack env n m w i f
  key : ∀ f ∈ (w.cdef env i).fields, f.store = .localKey → pyEq (w.attr i f.refName) (w.attr i f.refName) = true
  lists : ∀ f ∈ (w.cdef env i).fields, f.isRef = true → f.ftype = .list → f.collNonnull = true →
    ∃ v, w.getattr env i f.name = .ok v ∧ v ≠ .none

/-! ### Proof -/

theorem flat_inj {fs : List Field} (hn : (fs.flatMap jsonNames).Nodup) {f g : Field} (hf : f ∈ fs) (hg : g ∈ fs) {x : String}
    (h1 : x ∈ jsonNames f) (h2 : x ∈ jsonNames g) : f = g := by
  induction fs with
  | nil => cases hf
  | cons a fs ih =>
    rw [List.flatMap_cons, List.nodup_append] at hn
    rcases List.mem_cons.1 hf with e1 | hf' <;> rcases List.mem_cons.1 hg with e2 | hg'
    · rw [e1, e2]
    · exact absurd rfl (hn.2.2 x (e1 ▸ h1) x (List.mem_flatMap.2 ⟨g, hg', h2⟩))
    · exact absurd rfl (hn.2.2 x (e2 ▸ h2) x (List.mem_flatMap.2 ⟨f, hf', h1⟩))
    · exact ih hn.2.1 hf' hg'

theorem flat_self {fs : List Field} (hn : (fs.flatMap jsonNames).Nodup) {f : Field} (hf : f ∈ fs) : (jsonNames f).Nodup := by
  induction fs with
  | nil => cases hf
  | cons a fs ih =>
    rw [List.flatMap_cons, List.nodup_append] at hn
    rcases List.mem_cons.1 hf with rfl | hf
    · exact hn.1
    · exact ih hn.2.1 hf

theorem jsonName_mem (f : Field) : f.jsonName ∈ jsonNames f := by
  unfold jsonNames; split <;> simp

/-- an equal value is not assigned -/
theorem setAttr_equal {w : World} {i : Nat} {f : Field} {t : Val} (hfuel : env.fuel ≠ 0) (hn : ClearNames (w.cdef env i)) (hf : f ∈ (w.cdef env i).fields)
    (hc : f.store ≠ .calculated) (h : pyEq t (w.attr i f.name) = true) : setAttr env i f.name t w = (.ok (), w) := by
  obtain ⟨k, hk⟩ : ∃ k, env.fuel = k + 1 := ⟨env.fuel - 1, by omega⟩
  have hfd : (w.cdef env i).field? f.name = some f := find_named hn.names hf
  unfold setAttr
  rw [Py.bind_run, Py.get_run]
  simp only [hn.noKey f hf]
  simp only [setField, hk, runL, setBody, Py.bind_run, Py.get_run, hfd, if_neg hc, if_pos h]
  rfl

theorem setKey_equal {w : World} {i : Nat} {f : Field} {t : Val} (hl : (w.cdef env i).localKey? f.refName = some f)
    (h : pyEq t (w.attr i f.refName) = true) : setAttr env i f.refName t w = (.ok (), w) := by
  unfold setAttr
  rw [Py.bind_run, Py.get_run]
  simp only [hl, setLocalKey, Py.bind_run, Py.get_run, if_pos h]
  rfl

/-- Where the entries of the JSON come from. -/
structure Entries (env : Env) (n : Nat) (w : World) (i : Nat) (ig : Bool) (K : List (String × Val)) : Prop where
  keys : ∀ k ∈ K.map Prod.fst, ∃ g ∈ (w.cdef env i).fields, k ∈ jsonNames g
  value : ∀ f ∈ (w.cdef env i).fields, ∀ j, dictGet K f.jsonName = some j → RootVisible ig (w.heap i) f ∧
    ∃ v c w₁, w.getattr env i f.name = .ok v ∧ c.val = v ∧ SameData w w₁ ∧ (f.ftype ≠ .inst → c.owner.isSome = true) ∧
      ((f.ops env (instOps env n)).tojson c w₁).1 = .ok j
  key : ∀ f ∈ (w.cdef env i).fields, f.store = .localKey → ∀ j, dictGet K f.jrefName = some j → j = w.attr i f.refName

theorem tojson_origin {n i : Nat} {w w' : World} {ig rr : Bool} {on : Option Bool} {J : Val} (hnd : ((w.cdef env i).fields.flatMap jsonNames).Nodup)
    (h : apiTojson env (n + 1) i ig rr on w = (.ok J, w')) : ∃ K, J = .dict K ∧ Entries env n w i ig K := by
  obtain ⟨parts, rfl, hp⟩ := tojson_entries w n i ig rr on J hnd (by rw [h])
  have horg : ∀ e ∈ parts.flatten, ∃ g ∈ (w.cdef env i).fields, ∃ p, e ∈ p ∧
      ((¬ RootVisible ig (w.heap i) g ∧ p = keyPart (on.getD (w.cdef env i).outputNull) (w.heap i) g) ∨
        (RootVisible ig (w.heap i) g ∧ ∃ r, Converted env n
            (rootCtx w i { ignoreWriteonly := ig, reverseRel := rr, outputNull := on } (.obj i)) w i g r ∧
          p = keyPart (on.getD (w.cdef env i).outputNull) (w.heap i) g
            ++ valPart (on.getD (w.cdef env i).outputNull) g r)) := by
    intro e he
    obtain ⟨p, hpm, hep⟩ := List.mem_flatten.1 he
    obtain ⟨g, hg, hr⟩ := forall₂_mem hp hpm
    exact ⟨g, hg, p, hep, hr⟩
  have hkp : ∀ {on : Bool} {g : Field} {e : String × Val}, e ∈ keyPart on (w.heap i) g → g.store = .localKey ∧ e = (g.jrefName, w.attr i g.refName) := by
    intro on g e he
    unfold keyPart at he
    split at he
    · next h => exact ⟨h.1, by simpa [World.attr] using he⟩
    · cases he
  have hvp : ∀ {on : Bool} {g : Field} {r : Val} {e : String × Val}, e ∈ valPart on g r → e = (g.jsonName, r) := by
    intro on g r e he
    unfold valPart at he
    split at he
    · simpa using he
    · cases he
  -- the two names of a field with an id are different
  have hne : ∀ f ∈ (w.cdef env i).fields, f.store = .localKey → f.jrefName ≠ f.jsonName := by
    intro f hf hs
    have := flat_self hnd hf
    unfold jsonNames at this
    rw [if_pos hs] at this
    simpa using this
  have hjr : ∀ {f : Field}, f.store = .localKey → f.jrefName ∈ jsonNames f := by
    intro f hs; unfold jsonNames; rw [if_pos hs]; simp
  refine ⟨_, rfl, ?_, ?_, ?_⟩
  · intro k hk
    obtain ⟨e, he, rfl⟩ := List.mem_map.1 hk
    obtain ⟨g, hg, p, hep, hr⟩ := horg e he
    refine ⟨g, hg, ?_⟩
    rcases hr with ⟨_, rfl⟩ | ⟨_, r, _, rfl⟩
    · obtain ⟨hs, rfl⟩ := hkp hep; exact hjr hs
    · rcases List.mem_append.1 hep with hep | hep
      · obtain ⟨hs, rfl⟩ := hkp hep; exact hjr hs
      · rw [hvp hep]; exact jsonName_mem g
  · intro f hf j hj
    obtain ⟨g, hg, p, hep, hr⟩ := horg _ (dictGet_mem hj)
    have hfg : ∀ {e : String × Val}, e ∈ keyPart (on.getD (w.cdef env i).outputNull) (w.heap i) g → e ≠ (f.jsonName, j) := by
      rintro e he rfl
      obtain ⟨hs, h1⟩ := hkp he
      simp only [Prod.mk.injEq] at h1
      have := flat_inj hnd hf hg (jsonName_mem f) (h1.1 ▸ hjr hs)
      subst this
      exact hne f hf hs h1.1.symm
    rcases hr with ⟨_, rfl⟩ | ⟨hv, r, ⟨v, ek, w₁, h1, h2, h3, h4⟩, rfl⟩
    · exact absurd rfl (hfg hep)
    · rcases List.mem_append.1 hep with hep | hep
      · exact absurd rfl (hfg hep)
      · have h5 := hvp hep
        simp only [Prod.mk.injEq] at h5
        have := flat_inj hnd hf hg (jsonName_mem f) (h5.1 ▸ jsonName_mem g)
        subst this
        rw [h5.2]
        refine ⟨hv, v, _, w₁, h1, ?_, h3, ?_, h4⟩
        · unfold jsonCtx; split <;> rfl
        · intro hni; unfold jsonCtx; rw [if_neg hni]; rfl
  · intro f hf hs j hj
    obtain ⟨g, hg, p, hep, hr⟩ := horg _ (dictGet_mem hj)
    have hk : ∀ {e : String × Val}, e ∈ keyPart (on.getD (w.cdef env i).outputNull) (w.heap i) g → e = (f.jrefName, j) → j = w.attr i f.refName := by
      rintro e he rfl
      obtain ⟨hs', h1⟩ := hkp he
      simp only [Prod.mk.injEq] at h1
      have := flat_inj hnd hf hg (hjr hs) (h1.1 ▸ hjr hs')
      subst this
      exact h1.2
    rcases hr with ⟨_, rfl⟩ | ⟨hv, r, _, rfl⟩
    · exact hk hep rfl
    · rcases List.mem_append.1 hep with hep | hep
      · exact hk hep rfl
      · have h5 := hvp hep
        simp only [Prod.mk.injEq] at h5
        have := flat_inj hnd hf hg (hjr hs) (h5.1 ▸ jsonName_mem g)
        subst this
        exact absurd h5.1 (hne f hf hs)

theorem field_still {n m i : Nat} {w w₂ : World} {ig : Bool} {K : List (String × Val)} {c : Ctx} (hfuel : env.fuel ≠ 0) (hr : Returns env n m w i ig)
    (he : Entries env n w i ig K) (hh : w₂.heap = w.heap) (hc : SetCtx c) (hfb : c.cfg.fillBlanks = false) {f : Field} (hf : f ∈ (w.cdef env i).fields) :
    transformField env (Field.ops env (instOps env m)) c i false K f w₂ = (.ok (), w₂) := by
  have hcd : w₂.cdef env i = w.cdef env i := by simp only [World.cdef, hh]
  have hat : ∀ a, w₂.attr i a = w.attr i a := fun a => by simp only [World.attr, hh]
  have hga : ∀ a, w₂.getattr env i a = w.getattr env i a := fun a => getattr_congr hh i a
  have hn := hr.names
  -- a name of a field that is a key of the JSON is its JSON name
  have hown : ∀ j, dictGet K f.name = some j → f.name = f.jsonName := by
    intro j hj
    obtain ⟨g, hg, hm⟩ := he.keys f.name (List.mem_map_of_mem (f := Prod.fst) (dictGet_mem hj))
    exact hn.own f hf g hg hm
  unfold transformField
  cases hg : dictGet K f.jsonName with
  | none =>
    have hg2 : dictGet K f.name = none := by
      cases h : dictGet K f.name with
      | none => rfl
      | some j => rw [hown j h, hg] at h; cases h
    have hgv : hasFieldValue f K = false := by simp [hasFieldValue, hg, hg2]
    simp only [hgv, absentField, hfb, Bool.false_and, Bool.false_eq_true, if_false]
    split
    · split
      · next hs =>
        have hkey := hr.key f hf hs
        have hset : ∀ k, (∀ j, dictGet K k = some j → j = w.attr i f.refName) → setRefKey env i f.refName K k w₂ = (.ok (), w₂) := by
          intro k hk
          unfold setRefKey getD
          cases h : dictGet K k with
          | none => rfl
          | some j =>
            rw [hk j h]
            simp only [Option.getD_some]
            split
            · rfl
            · exact setKey_equal (by rw [hcd]; exact (hn.keyOf f hf hs).1) (by rw [hat]; exact hkey)
        rw [Py.bind_run, hset f.refName]
        · exact hset _ (he.key f hf hs)
        · intro j hj
          obtain ⟨g, hg, hm⟩ := he.keys f.refName (List.mem_map_of_mem (f := Prod.fst) (dictGet_mem hj))
          rw [hn.ownKey f hf hs g hg hm] at hj
          exact he.key f hf hs j hj
      · rfl
    · rfl
  | some j =>
    obtain ⟨hvis, v, cj, w₁, hv, hcv, hsd, hco, hto⟩ := he.value f hf j hg
    have hval : getFieldValue f K = j := by
      unfold getFieldValue getD
      rw [hg]
      simp only [Option.getD_some]
      split
      · next h =>
        rw [(Val.isNone_iff _).1 h] at hg ⊢
        cases h' : dictGet K f.name with
        | none => rfl
        | some x => rw [hown x h', hg] at h'; simpa using h'.symm
      · rfl
    have hgv : hasFieldValue f K = true := by simp [hasFieldValue, hg]
    simp only [hgv, if_true, presentField]
    obtain ⟨cur, hcur, hcur2⟩ : ∃ cur, (if f.writeRule = .writeOnce then w₂.getattr env i f.name else .ok .none) = .ok cur ∧
        (f.writeRule = .writeOnce → cur = v) := by
      by_cases h : f.writeRule = .writeOnce
      · exact ⟨v, by rw [if_pos h, hga, hv], fun _ => rfl⟩
      · exact ⟨.none, by rw [if_neg h], fun h' => absurd h' h⟩
    rw [Py.bind_run]
    simp only [readW, hcur, hval]
    split
    · next hal =>
      have htk : TakesInput env w i f := by
        refine ⟨?_, ?_⟩
        · intro h; simp [allowWrite, h] at hal
        · intro h
          rw [hv, ← hcur2 h]
          simp only [allowWrite, h] at hal
          rw [(Val.isNone_iff _).1 hal]
      obtain ⟨t, hra, hpe⟩ := hr.value f hf hvis htk v cj w₁ j hv hcv hsd hco hto
      obtain ⟨o, ho⟩ := Option.isSome_iff_exists.1 hc.1
      rw [Py.bind_run, Py.get_run]
      simp only []
      rw [Py.bind_run]
      simp only [readW, Ctx.ekey, ho]
      rw [Py.bind_run, hra (c.nextvo j f.name ((w₂.cdef env o).outKey f.name) ((w₂.heap i).cls, f.name) i) w₂ ⟨rfl, hc.2⟩ rfl rfl]
      simp only [pyWhen]
      by_cases hs : f.store = .calculated
      · simp only [hs, ne_eq, not_true_eq_false, decide_false, Bool.false_eq_true, if_false]; rfl
      · simp only [ne_eq, hs, not_false_eq_true, decide_true, if_true]
        have hfd : (w.cdef env i).field? f.name = some f := find_named hn.names hf
        have : v = w.attr i f.name := by
          simp only [World.getattr, hfd, if_neg hs] at hv
          cases hv; rfl
        refine setAttr_equal hfuel (by rw [hcd]; exact hn) (by rw [hcd]; exact hf) hs ?_
        rw [hat, ← this]
        exact hpe hs
    · simp only [hfb, Bool.false_and, Bool.false_eq_true, if_false]
      rfl

/-- **C92**: the JSON of an object whose values come back, written to the object later, when
the objects are as they were, is accepted and changes nothing: no value, no flag, no
modified field, no previous value, of no object. -/
theorem put_back {n m i : Nat} {w w' w₂ : World} {ig rr : Bool} {on : Option Bool} {J : Val} (hfuel : env.fuel ≠ 0) (hr : Returns env n m w i ig)
    (h : apiTojson env (n + 1) i ig rr on w = (.ok J, w')) (hh : w₂.heap = w.heap) :
    ∃ K, J = .dict K ∧ apiSet env (m + 1) i K w₂ = (.ok (), w₂) := by
  obtain ⟨K, rfl, he⟩ := tojson_origin hr.names.jnames h
  refine ⟨K, rfl, ?_⟩
  let ms := if (inputPk env (w₂.heap i).cls K).isNone then [] else (({ w₂ with marks := [] } : World).markPutp env (inputPk env (w₂.heap i).cls K) i).marks
  let wm : World := { w₂ with marks := ms }
  have hmark : pyWhen (!(inputPk env (w₂.heap i).cls K).isNone) (Py.modify (fun w' => w'.markPutp env (inputPk env (w₂.heap i).cls K) i)) { w₂ with marks := [] } = (.ok (), wm) := by
    unfold pyWhen
    by_cases h : (inputPk env (w₂.heap i).cls K).isNone = true
    · simp only [h, Bool.not_true, Bool.false_eq_true, if_false, wm, ms, if_true]
      rfl
    · simp only [h, Bool.not_false, if_true, wm, ms, Py.modify_run]
      rfl
  let c := rootCtx w₂ i { fillBlanks := false, allFields := some false } (.dict K)
  have hc : SetCtx c := ⟨rfl, rfl⟩
  have hhm : wm.heap = w.heap := hh
  have hcd : wm.cdef env i = w.cdef env i := by simp only [World.cdef, hhm]
  have hloop : ∀ fs : List Field, (∀ f ∈ fs, f ∈ (w.cdef env i).fields) →
      transformFields env (Field.ops env (instOps env m)) c i false K fs wm = (.ok (), wm) := by
    intro fs
    induction fs with
    | nil => intro _; rfl
    | cons f fs ih =>
      intro hm
      rw [transformFields, Py.bind_run, field_still hfuel hr he hhm hc rfl (hm f (by simp))]
      exact ih (fun g hg => hm g (by simp [hg]))
  have hfill : ∀ ns : List String, (∀ a ∈ ns, ∃ v, w.getattr env i a = .ok v ∧ v ≠ .none) → fillRefLists env i ns wm = (.ok (), wm) := by
    intro ns
    induction ns with
    | nil => intro _; rfl
    | cons a ns ih =>
      intro hm
      obtain ⟨v, hv, hvn⟩ := hm a (by simp)
      have : v.isNone = false := by
        cases h : v.isNone with
        | false => rfl
        | true => exact absurd ((Val.isNone_iff _).1 h) hvn
      rw [fillRefLists, Py.bind_run]
      simp only [readW, getattr_congr hhm, hv, pyWhen, this, Bool.false_eq_true, if_false]
      exact ih (fun b hb => hm b (by simp [hb]))
  have hap : applyDict env (Field.ops env (instOps env m)) (w₂.heap i).cls none c i false K wm = (.ok (), wm) := by
    unfold applyDict
    rw [Py.bind_run, Py.get_run]
    simp only [Option.getD_none]
    rw [hcd, Py.bind_run]
    have hst : pyWhen (env.cls (w₂.heap i).cls).strictInput (readW (fun _ => strictCheck c (w.cdef env i).availableNames K)) wm = (.ok (), wm) := by
      unfold pyWhen
      split
      · simp only [readW]
        rw [strict_ok]
        intro k hk
        obtain ⟨g, hg, hm⟩ := he.keys k hk
        unfold ClassDef.availableNames
        unfold jsonNames at hm
        split at hm
        · next hs =>
          rcases List.mem_cons.1 hm with rfl | hm
          · refine List.mem_append_right _ (List.mem_map_of_mem (f := Field.jrefName) (List.mem_filter.2 ⟨hg, ?_⟩))
            simp only [Field.hasRefName, hs, decide_true, Bool.true_and, Bool.or_eq_true, decide_eq_true_eq]
            exact (hr.names.keyOf g hg hs).2
          · simp only [List.mem_singleton] at hm
            subst hm
            exact List.mem_append_left _ (List.mem_append_left _ (List.mem_append_right _ (List.mem_map_of_mem hg)))
        · simp only [List.mem_singleton] at hm
          subst hm
          exact List.mem_append_left _ (List.mem_append_left _ (List.mem_append_right _ (List.mem_map_of_mem hg)))
      · rfl
    rw [hst]
    simp only []
    rw [Py.bind_run, hloop _ (fun _ h => h)]
    simp only []
    refine hfill _ ?_
    intro a ha
    simp only [nonnullRefLists, List.mem_map, List.mem_filter, Bool.and_eq_true, decide_eq_true_eq] at ha
    obtain ⟨f, ⟨hf, ⟨⟨_, h2⟩, h3⟩, h4⟩, rfl⟩ := ha
    exact hr.lists f hf h2 h3 h4
  unfold apiSet setDict
  rw [Py.bind_run, Py.get_run]
  simp only []
  rw [Py.bind_run]
  unfold withFreshMarks
  rw [root_transform, Py.bind_run, hmark]
  simp only []
  rw [Py.bind_run]
  simp only [c] at hap
  rw [hap]
  rfl

/-! ### Values that come back -/

/-- None, a scalar that survives its modifiers, or a list or dict of such values -/
inductive FlatJson : List Mod → Val → Prop
  | null {ch : List Mod} : NullOk ch → FlatJson ch .none
  | scalar {pre post : List Mod} {l : Leaf} {v : Val} : (∀ m ∈ pre, Inert m) → (∀ m ∈ post, Inert m) → Survives l v →
      FlatJson (pre ++ .leaf l :: post) v
  | list {pre post item : List Mod} {nn : Bool} {xs : List Val} : (∀ m ∈ pre, Inert m) → (∀ m ∈ post, Inert m) →
      (∀ x ∈ xs, FlatJson item x) → FlatJson (pre ++ .listOf nn .no item :: post) (.list xs)
  | dict {pre post item : List Mod} {nn : Bool} {kvs : List (String × Val)} : (∀ m ∈ pre, Inert m) → (∀ m ∈ post, Inert m) →
      (kvs.map Prod.fst).Nodup → (∀ x ∈ kvs.map Prod.snd, FlatJson item x) → FlatJson (pre ++ .dictOf nn item :: post) (.dict kvs)

/-- output as `j` and read back -/
def FlatRT (env : Env) (ch : List Mod) (v : Val) : Prop :=
  ∃ j, (∀ (n : Nat) (c : Ctx) (w : World), c.val = v → (v ≠ .none → c.owner.isSome = true) →
      chainTojson (denL env (instOps env (n + 1)) ch) c w = (.ok j, w)) ∧
    (∀ (n : Nat) (c : Ctx) (w : World), c.val = j → c.original = none → c.owner.isSome = true →
      chainTransform (denL env (instOps env (n + 1)) ch) c w = (.ok v, w))

theorem zip_self (kvs : List (String × Val)) : (kvs.map Prod.fst).zip (kvs.map Prod.snd) = kvs := by
  induction kvs with
  | nil => rfl
  | cons x xs ih => simp [ih]

theorem loop_flat {item : List Mod} (xs : List Val) : (∀ x ∈ xs, FlatRT env item x) →
    ∃ js, js.length = xs.length ∧
      (∀ (n : Nat) (ce : ColEnv World) (c : Ctx) (w : World) (ks : List Key), (∀ w', ce.ownerConf c w' = (.ok (), w')) →
        c.owner.isSome = true → ks.length = xs.length →
        colMapLoop ce false (chainOps (setParent env) (denL env (instOps env (n + 1)) item)).tojson c (ks.zip xs) w = (.ok (ks.zip js), w)) ∧
      (∀ (n : Nat) (ce : ColEnv World) (c : Ctx) (w : World) (ks : List Key), (∀ w', ce.ownerConf c w' = (.ok (), w')) → (∀ k v, ce.special c k v = none) →
        c.owner.isSome = true → ks.length = xs.length →
        colMapLoop ce true (chainOps (setParent env) (denL env (instOps env (n + 1)) item)).transform c (ks.zip js) w = (.ok (ks.zip xs), w)) := by
  induction xs with
  | nil =>
    intro _
    refine ⟨[], rfl, ?_, ?_⟩
    · intro n ce c w ks _ _ hk
      simp [colMapLoop]
    · intro n ce c w ks _ _ _ hk
      simp [colMapLoop]
  | cons x xs ih =>
    intro hall
    obtain ⟨js, hlen, hto, htr⟩ := ih (fun y hy => hall y (by simp [hy]))
    obtain ⟨j, hto1, htr1⟩ := hall x (by simp)
    refine ⟨j :: js, by simp [hlen], ?_, ?_⟩
    · intro n ce c w ks hce how hk
      cases ks with
      | nil => simp at hk
      | cons k ks =>
        simp only [List.zip_cons_cons, colMapLoop, Bool.false_eq_true, if_false]
        rw [Py.bind_run]
        have e1 : (chainOps (setParent env) (denL env (instOps env (n + 1)) item)).tojson (c.colval x k) w = (.ok j, w) :=
          hto1 n (c.colval x k) w rfl (fun _ => how)
        rw [e1]
        simp only []
        rw [Py.bind_run, hce]
        simp only []
        rw [Py.bind_run, hto n ce c w ks hce how (by simpa using hk)]
        rfl
    · intro n ce c w ks hce hsp how hk
      cases ks with
      | nil => simp at hk
      | cons k ks =>
        simp only [List.zip_cons_cons, colMapLoop, if_true, hsp]
        rw [Py.bind_run]
        have e1 : (chainOps (setParent env) (denL env (instOps env (n + 1)) item)).transform (c.colval j k) w = (.ok x, w) :=
          htr1 n (c.colval j k) w rfl rfl how
        rw [e1]
        simp only []
        rw [Py.bind_run, hce]
        simp only []
        rw [Py.bind_run, htr n ce c w ks hce hsp how (by simpa using hk)]
        rfl

theorem flat_rt {ch : List Mod} {v : Val} (h : FlatJson ch v) : FlatRT env ch v := by
  induction h with
  | null hn => exact ⟨.none, fun n c w hc _ => null_tojson hn hc, fun n c w hc ho _ => null_transform hn hc ho⟩
  | scalar h1 h2 hs =>
    obtain ⟨j, _, hto, htr⟩ := hs
    refine ⟨j, ?_, ?_⟩
    · intro n c w hc _
      refine chain_tojson_core h1 h2 ?_
      simp only [Mod.den, leafOps, readW, hto w.heap c hc]
    · intro n c w hc _ _
      refine chain_transform_core h1 h2 trivial ?_
      simp only [Mod.den, leafOps, readW, htr w.heap c hc]
  | @list pre post item nn xs h1 h2 _ ih =>
    obtain ⟨js, hl, hto, htr⟩ := loop_flat xs ih
    refine ⟨.list js, ?_, ?_⟩
    · intro n c w hc how
      have how := how (by simp)
      refine chain_tojson_core h1 h2 ?_
      simp only [Mod.den, listOps, hc]
      rw [Py.bind_run, enumVals_zip, hto n _ c w _ (ownerConf_run how) how (posKeys_length _ _)]
      simp only [toListVal, keyzip_snd (show (posKeys 0 xs.length).length = js.length by rw [posKeys_length, hl])]
      rfl
    · intro n c w hc _ how
      refine chain_transform_core h1 h2 trivial ?_
      simp only [Mod.den, listOps, hc]
      rw [Py.bind_run, enumVals_zip, htr n (colEnv env .no) c w (posKeys 0 js.length) (ownerConf_run how) (special_no c) how
        (by rw [posKeys_length, hl])]
      simp only [toListVal, keyzip_snd (show (posKeys 0 js.length).length = xs.length by rw [posKeys_length, hl])]
      rfl
  | @dict pre post item nn kvs h1 h2 hn _ ih =>
    obtain ⟨js, hl, hto, htr⟩ := loop_flat (kvs.map Prod.snd) ih
    simp only [List.length_map] at hl
    have hks : kvs.map (fun kv => Key.s kv.1) = (kvs.map Prod.fst).map Key.s := by simp [List.map_map]
    have hkj : ((kvs.map Prod.fst).zip js).map Prod.fst = kvs.map Prod.fst := List.map_fst_zip (by simp [hl])
    have hkj2 : ((kvs.map Prod.fst).zip js).map Prod.snd = js := List.map_snd_zip (by simp [hl])
    refine ⟨.dict ((kvs.map Prod.fst).zip js), ?_, ?_⟩
    · intro n c w hc how
      have how := how (by simp)
      refine chain_tojson_core h1 h2 ?_
      simp only [Mod.den, dictOps, hc]
      rw [Py.bind_run, enumDict_zip, hto n _ c w _ (ownerConf_run how) how (by simp)]
      simp only []
      rw [hks, toDictVal_zip hn (by simp [hl])]
      rfl
    · intro n c w hc _ how
      refine chain_transform_core h1 h2 trivial ?_
      simp only [Mod.den, dictOps, hc]
      have hz : kvs.map (fun kv => Key.s kv.1) = ((kvs.map Prod.fst).zip js).map (fun kv => Key.s kv.1) := by
        rw [hks, ← hkj, List.map_map, hkj]; rfl
      rw [Py.bind_run, enumDict_zip, hkj2, ← hz, htr n { colEnv env .no with special := fun _ _ _ => none } c w _ (ownerConf_run (env := env) (sp := .no) how) (fun _ _ => rfl) how (by simp)]
      simp only []
      rw [hks, toDictVal_zip hn (by simp), zip_self kvs]
      rfl

/-- such values that are equal to themselves come back, at any depth -/
theorem flat_comes_back {n m : Nat} {w : World} {i : Nat} {f : Field} (hfl : ∀ v, w.getattr env i f.name = .ok v → FlatJson f.chain v ∧
    (f.ftype = .inst → v = .none) ∧ (f.store ≠ .calculated → pyEq v v = true)) : ComesBack env (n + 1) (m + 1) w i f := by
  intro v c w₁ j hv hc _ how hto
  obtain ⟨hf, hi, hp⟩ := hfl v hv
  obtain ⟨j', h1, h2⟩ := flat_rt (env := env) hf
  have : (f.ops env (instOps env (n + 1))).tojson c w₁ = (.ok j', w₁) := h1 n c w₁ hc (fun hne => how (fun h => hne (hi h)))
  rw [this] at hto
  cases hto
  exact ⟨v, fun c w hsc ho hcv => h2 m c w hcv ho hsc.1, hp⟩

end JC

/-! ### A concrete object and exceptions -/

namespace JC.PutBackDemo
open JC
open JC.Demo (attrsOf)

/-- `append('!')` -/
def bang : Leaf := appendMod (fun v => match v with
  | .str s => s
  | _ => "") (fun _ _ => .ok (.str "!"))
def fName : Field := { name := "name", jsonName := "name", chain := [.leaf strMod] }
def fDay : Field := { name := "due_day", jsonName := "dueDay", chain := [.leaf { validate := fun _ _ => .ok () }, .leaf dateMod] }
def fTags : Field := { name := "tags", jsonName := "tags", ftype := .list, chain := [.listOf false .no [.leaf strMod]] }
def fCode : Field := { name := "code", jsonName := "code", writeRule := .writeOnce, chain := [.leaf strMod] }
/-- readonly and with a transform that is not undone -/
def fSeen : Field := { name := "seen", jsonName := "seen", writeRule := .noWrite, chain := [.leaf strMod, .leaf bang] }
/-- writeonly -/
def fPass : Field := { name := "password", jsonName := "password", noRead := true, chain := [.leaf strMod, .leaf bang] }
/-- a relation with the id here, whose object is not loaded -/
def fOwner : Field := { name := "owner", jsonName := "owner", store := .localKey, ftype := .inst, isInst := true, refName := "owner_id", jrefName := "ownerId",
                        chain := [.instOf "Memo" none] }
/-- a relation with the ids elsewhere, not loaded -/
def fLinks : Field := { name := "links", jsonName := "links", store := .foreignKey, ftype := .list, chain := [.listOf false .no [.instOf "Memo" none]] }

def memo : ClassDef where
  name := "Memo"
  primary := some "name"
  strictInput := true
  fields := [fName, fDay, fTags, fCode, fSeen, fPass, fOwner, fLinks]

/-- `types.str.append('!')` -/
def fCry : Field := { name := "cry", jsonName := "cry", chain := [.leaf strMod, .leaf bang] }
def shouter : ClassDef := { name := "Shouter", fields := [fCry] }
def fBox : Field := { name := "box", jsonName := "box", ftype := .inst, isInst := true, chain := [.instOf "Box" none] }
def box : ClassDef := { name := "Box", fields := [fName] }
def shelf : ClassDef := { name := "Shelf", fields := [fBox] }
/-- a required relation list -/
def fParts : Field := { name := "parts", jsonName := "parts", store := .foreignKey, ftype := .list, collNonnull := true,
                        chain := [.listOf true .no [.instOf "Box" none]] }
def crate : ClassDef := { name := "Crate", fields := [fName, fParts] }

def env : Env where
  cls := fun n => if n = "Memo" then memo else if n = "Shouter" then shouter else if n = "Box" then box else if n = "Shelf" then shelf
    else if n = "Crate" then crate else {}
  pystr := fun v => match v with
    | .str s => s
    | _ => ""

def day : PyDate := ⟨2024, 2, 29⟩

def world : World where
  heap := fun i => match i with
    | 0 => { cls := "Memo", isNew := false, attrs := attrsOf [("name", .str "m"), ("due_day", .date day), ("tags", .list [.str "a", .none]), ("code", .str "c"),
              ("seen", .str "s"), ("password", .str "p"), ("owner_id", .str "o")] }
    | 1 => { cls := "Shouter", isNew := false, attrs := attrsOf [("cry", .str "hey!")] }
    | 2 => { cls := "Shelf", isNew := false, attrs := attrsOf [("box", .obj 3)] }
    | 3 => { cls := "Box", isNew := false, attrs := attrsOf [("name", .str "b")] }
    | 4 => { cls := "Crate", isNew := false, attrs := attrsOf [("name", .str "c")] }
    | _ => {}
  next := 5

theorem fields_eq : (world.cdef env 0).fields = [fName, fDay, fTags, fCode, fSeen, fPass, fOwner, fLinks] := by
  simp [World.cdef, world, env, memo]

theorem clear : ClearNames (world.cdef env 0) where
  names := by rw [fields_eq]; decide
  jnames := by rw [fields_eq]; decide
  noKey := by
    unfold ClassDef.localKey?
    rw [fields_eq]
    simp only [List.mem_cons, List.not_mem_nil, or_false, forall_eq_or_imp, forall_eq]
    decide
  own := by rw [fields_eq]; simp [jsonNames, fName, fDay, fTags, fCode, fSeen, fPass, fOwner, fLinks]
  keyOf := by
    unfold ClassDef.localKey?
    rw [fields_eq]
    simp [fName, fDay, fTags, fCode, fSeen, fPass, fOwner, fLinks]
  ownKey := by rw [fields_eq]; simp [jsonNames, fName, fDay, fTags, fCode, fSeen, fPass, fOwner, fLinks]

theorem str_null : NullOk [.leaf strMod] := nullCore_of (fun _ _ h => by rw [← h]; rfl) (fun _ _ h => by rw [← h]; rfl)

theorem back : Returns env 3 3 world 0 false where
  names := clear
  value := by
    rw [fields_eq]
    simp only [List.mem_cons, List.not_mem_nil, or_false, forall_eq_or_imp, forall_eq]
    refine ⟨fun _ _ => flat_comes_back ?_, fun _ _ => flat_comes_back ?_, fun _ _ => flat_comes_back ?_, ?_, ?_, ?_, fun _ _ => flat_comes_back ?_, fun _ _ => flat_comes_back ?_⟩
    · intro v hv
      cases hv
      exact ⟨.scalar (pre := []) (post := []) (by simp) (by simp) (survives_str _), (fun h => by cases h), (fun _ => rfl)⟩
    · intro v hv
      cases hv
      exact ⟨.scalar (pre := [.leaf { validate := fun _ _ => .ok () }]) (post := []) (by simp [Inert]) (by simp)
        (survives_date (by rw [PyDate.valid_iff]; decide)), (fun h => by cases h), (fun _ => by decide)⟩
    · intro v hv
      cases hv
      refine ⟨.list (pre := []) (post := []) (xs := [.str "a", .none]) (by simp) (by simp) ?_, (fun h => by cases h), (fun _ => by decide)⟩
      simp only [List.mem_cons, List.not_mem_nil, or_false, forall_eq_or_imp, forall_eq]
      exact ⟨.scalar (pre := []) (post := []) (by simp) (by simp) (survives_str _), .null str_null⟩
    · intro _ h
      have := h.2 rfl
      cases this
    · intro _ h
      exact absurd rfl h.1
    · intro h
      have := h.2.2 rfl
      cases this
    · intro v hv
      cases hv
      exact ⟨.null ⟨[], _, [], rfl, by simp, by simp, trivial⟩, fun _ => rfl, fun _ => rfl⟩
    · intro v hv
      cases hv
      exact ⟨.null ⟨[], _, [], rfl, by simp, by simp, rfl⟩, fun _ => rfl, fun _ => rfl⟩
  key := by
    rw [fields_eq]
    simp [fName, fDay, fTags, fCode, fSeen, fPass, fOwner, fLinks, world, World.attr, attrsOf, dictGet, pyEq]
  lists := by
    rw [fields_eq]
    simp [fName, fDay, fTags, fCode, fSeen, fPass, fOwner, fLinks]

/-- the memo's JSON is not empty, and can be written back -/
theorem memo_json : ∃ d, apiTojson env 4 0 false false none world = (.ok (.dict [("name", .str "m"), ("dueDay", d), ("tags", .list [.str "a", .none]),
    ("code", .str "c"), ("seen", .str "s"), ("ownerId", .str "o")]), world) := ⟨_, rfl⟩

example : ∃ K, (apiTojson env 4 0 false false none world).1 = .ok (.dict K) ∧ K ≠ [] ∧ apiSet env 4 0 K world = (.ok (), world) := by
  obtain ⟨d, h⟩ := memo_json
  obtain ⟨K, hK, hs⟩ := put_back (env := env) (by decide) back h rfl
  cases hK
  exact ⟨_, (by rw [h]), (by simp), hs⟩

/-- **C92** needs values that come back: a text is appended again. -/
theorem appended_again : ∃ K, apiTojson env 4 1 false false none world = (.ok (.dict K), world) ∧
    ((apiSet env 4 1 K world).2.heap 1).attrs "cry" = .str "hey!!" ∧ ((apiSet env 4 1 K world).2.heap 1).isModified = true :=
  ⟨[("cry", .str "hey!")], rfl, rfl, rfl⟩

/-- **C92** needs that no object is nested: it is replaced by a new one. -/
theorem nested_replaced : ∃ K, apiTojson env 4 2 false false none world = (.ok (.dict K), world) ∧
    ((apiSet env 4 2 K world).2.heap 2).attrs "box" = .obj 5 ∧ ((apiSet env 4 2 K world).2.heap 2).isModified = true :=
  ⟨[("box", .dict [("name", .str "b")])], rfl, rfl, rfl⟩

/-- **C92** needs that a required relation list is there: it is made empty. -/
theorem list_emptied : ∃ K, apiTojson env 4 4 false false none world = (.ok (.dict K), world) ∧
    ((apiSet env 4 4 K world).2.heap 4).attrs "parts" = .list [] ∧ ((apiSet env 4 4 K world).2.heap 4).modFields = ["parts"] :=
  ⟨[("name", .str "c")], rfl, rfl, rfl⟩

end JC.PutBackDemo
