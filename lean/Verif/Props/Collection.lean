import Verif.Model.Collection
import Verif.Props.Chain

/-
C06 (item-wise validation), C07 (shape preservation), C18 (unions).
The item modifier, the alternatives and the state are arbitrary.
-/
namespace JC
variable {σ : Type}

/-! ### Specification -/

/-- The positions of a list with their indices, as integers. -/
def indexed (xs : List Val) : List (Key × Val) :=
  xs.zipIdx.map (fun p => (Key.i (p.2 : Int), p.1))

/-- Items are visited in order, each under its own key, and all accept. -/
inductive ItemsAccept (item : Ops σ) (c : Ctx) : List (Key × Val) → σ → σ → Prop
  | nil (s) : ItemsAccept item c [] s s
  | cons {k v r s s' s''} : item.validate (c.colval v k) s = (.ok (), s') →
      ItemsAccept item c r s' s'' → ItemsAccept item c ((k, v) :: r) s s''

/-- Items are visited in order, each under its own key; `cs` are the message maps of
the rejecting ones, in order. -/
inductive ItemsComplain (item : Ops σ) (c : Ctx) :
    List (Key × Val) → σ → List (List (String × String)) → σ → Prop
  | nil (s) : ItemsComplain item c [] s [] s
  | accept {k v r s s' s'' cs} : item.validate (c.colval v k) s = (.ok (), s') →
      ItemsComplain item c r s' cs s'' → ItemsComplain item c ((k, v) :: r) s cs s''
  | reject {k v r s s' s'' cs msgs} :
      item.validate (c.colval v k) s = (.error (.validation msgs), s') →
      ItemsComplain item c r s' cs s'' → ItemsComplain item c ((k, v) :: r) s (msgs :: cs) s''

/-- Items are converted in order by `f`, each under its own key, giving `rs`. -/
inductive Converts (f : Ctx → Py σ Val) (c : Ctx) : List (Key × Val) → σ → List Val → σ → Prop
  | nil (s) : Converts f c [] s [] s
  | cons {k v r s s' s'' x xs} : f (c.colval v k) s = (.ok x, s') →
      Converts f c r s' xs s'' → Converts f c ((k, v) :: r) s (x :: xs) s''

/-- Whether validation collects all messages: the call's `all_fields` if given, else
the owner's configuration. -/
def collectsAll (c : Ctx) (ownerDefault : Bool) : Bool := c.cfg.allFields.getD ownerDefault

/-! ### helpers -/

theorem enumVals_eq (n : Nat) (xs : List Val) :
    enumVals n xs = (xs.zipIdx n).map (fun p => (Key.i (p.2 : Int), p.1)) := by
  induction xs generalizing n with
  | nil => rfl
  | cons x xs ih => simp [enumVals, List.zipIdx_cons, ih]

theorem enumVals_indexed (xs : List Val) : enumVals 0 xs = indexed xs := enumVals_eq 0 xs

theorem indexed_snd (xs : List Val) : (indexed xs).map Prod.snd = xs := by
  rw [← enumVals_indexed]
  have : ∀ n, (enumVals n xs).map Prod.snd = xs := by
    induction xs with
    | nil => intro; rfl
    | cons x xs ih => intro n; simp [enumVals, ih]
  exact this 0

theorem colLoop_accept {item : Ops σ} {c : Ctx} {all : Bool} {es : List (Key × Val)} {s s' : σ}
    (h : ItemsAccept item c es s s') (acc) :
    colValidateLoop item c all es acc s = (.ok acc, s') := by
  induction h with
  | nil s => rfl
  | cons hv _ ih => simp only [colValidateLoop, hv]; exact ih

theorem colLoop_complain {item : Ops σ} {c : Ctx} {es : List (Key × Val)} {s s' : σ} {cs}
    (h : ItemsComplain item c es s cs s') (acc) :
    colValidateLoop item c true es acc s = (.ok (cs.foldl dictUpdate acc), s') := by
  induction h generalizing acc with
  | nil s => rfl
  | accept hv _ ih => simp only [colValidateLoop, hv]; exact ih _
  | reject hv _ ih => simp only [colValidateLoop, hv, if_true, List.foldl_cons]; exact ih _

/-- Item validators never raise a validation error with an empty message map. -/
def ItemNonEmpty (item : Ops σ) : Prop :=
  ∀ c s s' msgs, item.validate c s = (.error (.validation msgs), s') → msgs ≠ []

theorem colLoop_acc_ne {item : Ops σ} {c : Ctx} {all : Bool} {es : List (Key × Val)} {s s' : σ}
    {acc r} (hacc : acc ≠ []) (h : colValidateLoop item c all es acc s = (.ok r, s')) : r ≠ [] := by
  induction es generalizing acc s with
  | nil =>
    simp only [colValidateLoop, Py.pure_run, Prod.mk.injEq, Except.ok.injEq] at h
    exact h.1 ▸ hacc
  | cons e es ih =>
    obtain ⟨k, v⟩ := e
    simp only [colValidateLoop] at h
    split at h
    · exact ih hacc h
    · split at h
      · exact ih (dictUpdate_ne_nil _ _ (Or.inl hacc)) h
      · simp at h
    · simp at h

theorem colLoop_empty {item : Ops σ} (hne : ItemNonEmpty item) {c : Ctx} {all : Bool}
    {es : List (Key × Val)} {s s' : σ}
    (h : colValidateLoop item c all es [] s = (.ok [], s')) : ItemsAccept item c es s s' := by
  induction es generalizing s with
  | nil =>
    simp only [colValidateLoop, Py.pure_run, Prod.mk.injEq, true_and] at h
    subst h; exact .nil _
  | cons e es ih =>
    obtain ⟨k, v⟩ := e
    simp only [colValidateLoop] at h
    split at h
    · next hv => exact .cons hv (ih h)
    · next hv =>
      split at h
      · exact absurd rfl (colLoop_acc_ne (dictUpdate_ne_nil _ _ (Or.inr (hne _ _ _ _ hv))) h)
      · simp at h
    · simp at h

theorem colValidate_ok_iff {ce : ColEnv σ} {item : Ops σ} (hne : ItemNonEmpty item) {c : Ctx}
    {es : List (Key × Val)} {s₀ s s' : σ} {b : Bool} (hb : ce.ownerAllFields c s₀ = (.ok b, s)) :
    colValidate ce item c es s₀ = (.ok (), s') ↔ ItemsAccept item c es s s' := by
  unfold colValidate
  rw [Py.bind_ok hb]
  generalize c.cfg.allFields.getD b = all
  constructor
  · intro h
    rw [Py.bind_run] at h
    rcases hl : colValidateLoop item c all es [] s with ⟨_ | msgs, s₁⟩
    · rw [hl] at h; cases h
    rw [hl] at h
    cases msgs with
    | nil =>
      simp only [raiseMsgs, Py.pure_run, Prod.mk.injEq, true_and] at h
      subst h
      exact colLoop_empty hne hl
    | cons x xs => simp [raiseMsgs] at h
  · intro h
    rw [Py.bind_ok (colLoop_accept h [])]
    rfl

/-! ### C06 -/

/-- C06: a list validates exactly when each of its items validates, each at its own
index, for lists of any length. -/
theorem list_validate_ok_iff (ce : ColEnv σ) (nn : Bool) (item : Ops σ) (hne : ItemNonEmpty item)
    (c : Ctx) (xs : List Val) (hv : c.val = .list xs) {s₀ s s' : σ} {b : Bool}
    (hb : ce.ownerAllFields c s₀ = (.ok b, s)) :
    (listOps ce nn item).validate c s₀ = (.ok (), s') ↔ ItemsAccept item c (indexed xs) s s' := by
  simp only [listOps, hv]
  rw [enumVals_indexed]
  exact colValidate_ok_iff hne hb

/-- C06: a dict validates exactly when each of its values validates under its own key. -/
theorem dict_validate_ok_iff (ce : ColEnv σ) (nn : Bool) (item : Ops σ) (hne : ItemNonEmpty item)
    (c : Ctx) (kvs : List (String × Val)) (hv : c.val = .dict kvs) {s₀ s s' : σ} {b : Bool}
    (hb : ce.ownerAllFields c s₀ = (.ok b, s)) :
    (dictOps ce nn item).validate c s₀ = (.ok (), s') ↔
      ItemsAccept item c (kvs.map (fun kv => (Key.s kv.1, kv.2))) s s' := by
  simp only [dictOps, hv]
  exact colValidate_ok_iff hne hb

/-- C06, read-only item validators: the verdict is a plain "for all items". -/
theorem itemsAccept_forall (item : Ops σ) (c : Ctx) (es : List (Key × Val)) (s : σ)
    (hro : ∀ c', (item.validate c' s).2 = s) :
    ItemsAccept item c es s s ↔ ∀ kv ∈ es, item.validate (c.colval kv.2 kv.1) s = (.ok (), s) := by
  constructor
  · intro h
    generalize hs' : s = s' at h
    -- all intermediate states are `s`
    have key : ∀ {es s₁ s₂}, ItemsAccept item c es s₁ s₂ → s₁ = s →
        ∀ kv ∈ es, item.validate (c.colval kv.2 kv.1) s = (.ok (), s) := by
      intro es s₁ s₂ h
      induction h with
      | nil => intro _ kv hkv; simp at hkv
      | @cons k v r a a' a'' hv _ ih =>
        intro h1 kv hkv
        rw [h1] at hv
        have hs := hro (c.colval v k)
        rw [hv] at hs
        rcases List.mem_cons.1 hkv with rfl | hkv
        · rw [hv, show a' = s from hs]
        · exact ih hs kv hkv
    exact hs' ▸ key h hs'.symm
  · intro h
    induction es with
    | nil => exact .nil s
    | cons e es ih =>
      exact .cons (h e (by simp)) (ih (fun kv hkv => h kv (by simp [hkv])))

/-- C06: when messages are not collected, the first rejecting item's messages are
raised; they were produced for the context whose path is the collection's path
extended by that item's index or key. -/
theorem list_validate_first (ce : ColEnv σ) (nn : Bool) (item : Ops σ)
    (c : Ctx) (xs : List Val) (hv : c.val = .list xs) {s₀ s s₁ s₂ : σ} {b : Bool}
    (hb : ce.ownerAllFields c s₀ = (.ok b, s)) (hall : collectsAll c b = false)
    {X Y : List (Key × Val)} {k : Key} {v : Val} (hxs : indexed xs = X ++ (k, v) :: Y)
    (hX : ItemsAccept item c X s s₁) {msgs : List (String × String)}
    (hm : item.validate (c.colval v k) s₁ = (.error (.validation msgs), s₂)) :
    (listOps ce nn item).validate c s₀ = (.error (.validation msgs), s₂) ∧
      (c.colval v k).fkeypathr = c.fkeypathr ++ [k] := by
  refine ⟨?_, rfl⟩
  simp only [listOps, hv]
  rw [enumVals_indexed, hxs]
  unfold colValidate
  rw [Py.bind_ok hb]
  rw [show c.cfg.allFields.getD b = _ from hall]
  have key : ∀ {X : List (Key × Val)} {s s₁}, ItemsAccept item c X s s₁ →
      item.validate (c.colval v k) s₁ = (.error (.validation msgs), s₂) →
      colValidateLoop item c false (X ++ (k, v) :: Y) [] s = (.error (.validation msgs), s₂) := by
    intro X s s₁ hX hm
    induction hX with
    | nil s => simp [colValidateLoop, hm]
    | cons hv _ ih => simp only [List.cons_append, colValidateLoop, hv]; exact ih hm
  rw [Py.bind_err (key hX hm)]

/-- C06: when messages are collected, every item is validated, and the reported map
assigns to each key the last message complained for it and nothing else. -/
theorem list_validate_all (ce : ColEnv σ) (nn : Bool) (item : Ops σ)
    (c : Ctx) (xs : List Val) (hv : c.val = .list xs) {s₀ s s' : σ} {b : Bool}
    (hb : ce.ownerAllFields c s₀ = (.ok b, s)) (hall : collectsAll c b = true)
    {cs : List (List (String × String))} (hc : ItemsComplain item c (indexed xs) s cs s') :
    ((∀ x ∈ cs, x = []) ∧ (listOps ce nn item).validate c s₀ = (.ok (), s')) ∨
    (∃ msgs, (listOps ce nn item).validate c s₀ = (.error (.validation msgs), s') ∧
      ∀ k, dictGet msgs k = lastMsg cs k) := by
  simp only [listOps, hv]
  rw [enumVals_indexed]
  unfold colValidate
  rw [Py.bind_ok hb]
  rw [show c.cfg.allFields.getD b = _ from hall, Py.bind_ok (colLoop_complain hc [])]
  by_cases hn : cs.foldl dictUpdate [] = []
  · left
    rw [hn]
    exact ⟨((foldl_dictUpdate_nil cs []).1 hn).2, rfl⟩
  · right
    refine ⟨_, raiseMsgs_ne hn s', ?_⟩
    intro k
    rw [foldl_dictUpdate_get]
    simp [dictGet]

/-- C06: `None` is accepted; a value that is neither `None` nor a list is rejected
under the field's own path. -/
theorem list_validate_nonlist (ce : ColEnv σ) (nn : Bool) (item : Ops σ) (c : Ctx) (s : σ) :
    (c.val = .none → (listOps ce nn item).validate c s = (.ok (), s)) ∧
    (c.val ≠ .none → (∀ xs, c.val ≠ .list xs) →
      (listOps ce nn item).validate c s =
        (.error (.validation [(dotJoin (c.fkeypathr.map Key.str), "value is not list")]), s)) := by
  constructor
  · intro h; simp [listOps, h]
  · intro h1 h2
    simp only [listOps]
    rfl

/-- C06: the same for dicts. -/
theorem dict_validate_nondict (ce : ColEnv σ) (nn : Bool) (item : Ops σ) (c : Ctx) (s : σ) :
    (c.val = .none → (dictOps ce nn item).validate c s = (.ok (), s)) ∧
    (c.val ≠ .none → (∀ xs, c.val ≠ .dict xs) →
      (dictOps ce nn item).validate c s =
        (.error (.validation [(dotJoin (c.fkeypathr.map Key.str), "value is not dict")]), s)) := by
  constructor
  · intro h; simp [dictOps, h]
  · intro h1 h2
    simp only [dictOps]
    rfl

/-! ### C07 -/

/-- The owner's configuration is readable and reading it has no effect. -/
def OwnerOk (ce : ColEnv σ) (c : Ctx) : Prop := ∀ s, ce.ownerConf c s = (.ok (), s)

/-- No entry of the collection is an `_add`/`_del` instruction. -/
def NoSpecial (ce : ColEnv σ) (c : Ctx) (es : List (Key × Val)) : Prop :=
  ∀ kv ∈ es, (ce.special c kv.1 kv.2).isNone

theorem colMap_ok_iff (ce : ColEnv σ) (sp : Bool) (f : Ctx → Py σ Val) (c : Ctx)
    (ho : OwnerOk ce c) (es : List (Key × Val)) (hs : sp = true → NoSpecial ce c es) (s s' : σ)
    (rs : List (Key × Val)) :
    colMapLoop ce sp f c es s = (.ok rs, s') ↔
      ∃ xs, Converts f c es s xs s' ∧ rs = (es.map Prod.fst).zip xs := by
  induction es generalizing s s' rs with
  | nil =>
    simp only [colMapLoop, Py.pure_run, Prod.mk.injEq, Except.ok.injEq]
    constructor
    · rintro ⟨rfl, rfl⟩; exact ⟨[], .nil _, rfl⟩
    · rintro ⟨xs, h, rfl⟩; cases h; simp
  | cons e es ih =>
    obtain ⟨k, v⟩ := e
    have hnone : (if sp then ce.special c k v else none) = none := by
      by_cases hsp : sp = true
      · have := hs hsp (k, v) (by simp)
        simp only [hsp, if_true]
        simpa using this
      · simp [hsp]
    have ih := ih (fun h kv hkv => hs h kv (by simp [hkv]))
    simp only [colMapLoop, hnone]
    constructor
    · intro h
      rw [Py.bind_run] at h
      rcases hf : f (c.colval v k) s with ⟨_ | x, s₁⟩
      · rw [hf] at h; cases h
      rw [hf] at h
      simp only at h
      rw [Py.bind_ok (ho s₁), Py.bind_run] at h
      rcases hr : colMapLoop ce sp f c es s₁ with ⟨_ | r, s₂⟩
      · rw [hr] at h; cases h
      rw [hr] at h
      simp only [Py.pure_run, Prod.mk.injEq, Except.ok.injEq] at h
      obtain ⟨rfl, rfl⟩ := h
      obtain ⟨xs, hxs, rfl⟩ := (ih s₁ s₂ r).1 hr
      exact ⟨x :: xs, .cons hf hxs, rfl⟩
    · rintro ⟨xs, h, rfl⟩
      cases h with
      | cons hf hr =>
        rw [Py.bind_ok hf, Py.bind_ok (ho _), Py.bind_ok ((ih _ _ _).2 ⟨_, hr, rfl⟩)]
        rfl

theorem Converts.length {f : Ctx → Py σ Val} {c : Ctx} {es s xs s'}
    (h : Converts f c es s xs s') : xs.length = es.length := by
  induction h with
  | nil => rfl
  | cons _ _ ih => simp [ih]

theorem zip_snd {α β : Type} : ∀ (ks : List α) (xs : List β), xs.length = ks.length →
    (ks.zip xs).map Prod.snd = xs
  | [], [], _ => rfl
  | k :: ks, x :: xs, h => by simp [zip_snd ks xs (by simpa using h)]

theorem zip_fst {α β : Type} : ∀ (ks : List α) (xs : List β), xs.length = ks.length →
    (ks.zip xs).map Prod.fst = ks
  | [], [], _ => rfl
  | k :: ks, x :: xs, h => by simp [zip_fst ks xs (by simpa using h)]

/-- Shared core of C07 for lists. -/
theorem list_map_ok_iff (ce : ColEnv σ) (sp : Bool) (f : Ctx → Py σ Val) (c : Ctx)
    (ho : OwnerOk ce c) (xs : List Val) (hs : sp = true → NoSpecial ce c (indexed xs)) (s s' : σ)
    (w : Val) :
    (do let r ← colMapLoop ce sp f c (enumVals 0 xs); pure (toListVal r) : Py σ Val) s = (.ok w, s') ↔
      ∃ ys, w = .list ys ∧ Converts f c (indexed xs) s ys s' := by
  rw [enumVals_indexed, Py.bind_run]
  constructor
  · intro h
    rcases hr : colMapLoop ce sp f c (indexed xs) s with ⟨_ | r, s₂⟩
    · rw [hr] at h; cases h
    rw [hr] at h
    simp only [Py.pure_run, Prod.mk.injEq, Except.ok.injEq] at h
    obtain ⟨rfl, rfl⟩ := h
    obtain ⟨ys, hys, rfl⟩ := (colMap_ok_iff ce sp f c ho _ hs _ _ _).1 hr
    refine ⟨ys, ?_, hys⟩
    unfold toListVal
    rw [zip_snd]
    rw [hys.length]; simp
  · rintro ⟨ys, rfl, hys⟩
    rw [(colMap_ok_iff ce sp f c ho _ hs _ _ _).2 ⟨ys, hys, rfl⟩]
    simp only [Py.pure_run, toListVal]
    rw [zip_snd]
    rw [hys.length]; simp

/-- C07: transforming a list yields a list with one result per item, in order, each
produced by the item transform at that index (hence the same length), for every list
without `_add`/`_del` instructions. -/
theorem list_transform_iff (ce : ColEnv σ) (nn : Bool) (item : Ops σ) (c : Ctx)
    (ho : OwnerOk ce c) (xs : List Val) (hv : c.val = .list xs)
    (hs : NoSpecial ce c (indexed xs)) (s s' : σ) (w : Val) :
    (listOps ce nn item).transform c s = (.ok w, s') ↔
      ∃ ys, w = .list ys ∧ Converts item.transform c (indexed xs) s ys s' := by
  simp only [listOps, hv]
  exact list_map_ok_iff ce true item.transform c ho xs (fun _ => hs) s s' w

/-- C07: the same for JSON output. -/
theorem list_tojson_iff (ce : ColEnv σ) (nn : Bool) (item : Ops σ) (c : Ctx)
    (ho : OwnerOk ce c) (xs : List Val) (hv : c.val = .list xs) (s s' : σ) (w : Val) :
    (listOps ce nn item).tojson c s = (.ok w, s') ↔
      ∃ ys, w = .list ys ∧ Converts item.tojson c (indexed xs) s ys s' := by
  simp only [listOps, hv]
  exact list_map_ok_iff ce false item.tojson c ho xs (fun h => by cases h) s s' w

/-- C07: the same for serialization. -/
theorem list_serialize_iff (ce : ColEnv σ) (nn : Bool) (item : Ops σ) (c : Ctx)
    (ho : OwnerOk ce c) (xs : List Val) (hv : c.val = .list xs) (s s' : σ) (w : Val) :
    (listOps ce nn item).serialize c s = (.ok w, s') ↔
      ∃ ys, w = .list ys ∧ Converts item.serialize c (indexed xs) s ys s' := by
  simp only [listOps, hv]
  exact list_map_ok_iff ce false item.serialize c ho xs (fun h => by cases h) s s' w

theorem dict_map_ok_iff (ce : ColEnv σ) (sp : Bool) (f : Ctx → Py σ Val) (c : Ctx)
    (ho : OwnerOk ce c) (kvs : List (String × Val)) (hnd : (kvs.map Prod.fst).Nodup)
    (hs : sp = true → NoSpecial ce c (enumDict kvs)) (s s' : σ) (w : Val) :
    (do let r ← colMapLoop ce sp f c (enumDict kvs); pure (toDictVal r) : Py σ Val) s
        = (.ok w, s') ↔
      ∃ ys, w = .dict ((kvs.map Prod.fst).zip ys) ∧ Converts f c (enumDict kvs) s ys s' := by
  have hfst : (enumDict kvs).map Prod.fst = (kvs.map Prod.fst).map Key.s := by
    simp [enumDict, Function.comp_def]
  have hbuild : ∀ ys : List Val, ys.length = kvs.length →
      toDictVal (((enumDict kvs).map Prod.fst).zip ys) = .dict ((kvs.map Prod.fst).zip ys) := by
    intro ys hlen
    unfold toDictVal
    congr 1
    have h1 : ∀ (ks : List String) (ys : List Val) (d : List (String × Val)),
        ((ks.map Key.s).zip ys).foldl (fun d kv => dictSet kv.1.str kv.2 d) d
          = (ks.zip ys).foldl (fun d kv => dictSet kv.1 kv.2 d) d := by
      intro ks
      induction ks with
      | nil => intro ys d; rfl
      | cons k ks ih =>
        intro ys d
        cases ys with
        | nil => rfl
        | cons y ys => simp only [List.map_cons, List.zip_cons_cons, List.foldl_cons, ih]; rfl
    rw [hfst, h1]
    have h2 := dictUpdate_nil_eq ((kvs.map Prod.fst).zip ys)
      (by rw [zip_fst _ _ (by simpa using hlen)]; exact hnd)
    simpa [dictUpdate] using h2
  rw [Py.bind_run]
  constructor
  · intro h
    rcases hr : colMapLoop ce sp f c (enumDict kvs) s with ⟨_ | r, s₂⟩
    · rw [hr] at h; cases h
    rw [hr] at h
    simp only [Py.pure_run, Prod.mk.injEq, Except.ok.injEq] at h
    obtain ⟨rfl, rfl⟩ := h
    obtain ⟨ys, hys, rfl⟩ := (colMap_ok_iff ce sp f c ho _ hs _ _ _).1 hr
    exact ⟨ys, hbuild ys (by rw [hys.length]; simp [enumDict]), hys⟩
  · rintro ⟨ys, rfl, hys⟩
    rw [(colMap_ok_iff ce sp f c ho _ hs _ _ _).2 ⟨ys, hys, rfl⟩]
    simp only [Py.pure_run]
    rw [hbuild ys (by rw [hys.length]; simp [enumDict])]

/-- C07: transforming a dict keeps exactly its keys, in order, each with the result of
the item transform under that key. -/
theorem dict_transform_iff (ce : ColEnv σ) (nn : Bool) (item : Ops σ) (c : Ctx)
    (ho : OwnerOk ce c) (kvs : List (String × Val)) (hnd : (kvs.map Prod.fst).Nodup)
    (hv : c.val = .dict kvs) (s s' : σ) (w : Val) :
    (dictOps ce nn item).transform c s = (.ok w, s') ↔
      ∃ ys, w = .dict ((kvs.map Prod.fst).zip ys) ∧
        Converts item.transform c (kvs.map (fun kv => (Key.s kv.1, kv.2))) s ys s' := by
  simp only [dictOps, hv]
  exact dict_map_ok_iff { ce with special := fun _ _ _ => none } true item.transform c ho kvs hnd
    (fun _ kv _ => rfl) s s' w

/-- C07: the same for JSON output of dicts. -/
theorem dict_tojson_iff (ce : ColEnv σ) (nn : Bool) (item : Ops σ) (c : Ctx)
    (ho : OwnerOk ce c) (kvs : List (String × Val)) (hnd : (kvs.map Prod.fst).Nodup)
    (hv : c.val = .dict kvs) (s s' : σ) (w : Val) :
    (dictOps ce nn item).tojson c s = (.ok w, s') ↔
      ∃ ys, w = .dict ((kvs.map Prod.fst).zip ys) ∧
        Converts item.tojson c (kvs.map (fun kv => (Key.s kv.1, kv.2))) s ys s' := by
  simp only [dictOps, hv]
  exact dict_map_ok_iff ce false item.tojson c ho kvs hnd (fun h => by cases h) s s' w

/-- C07: the same for serialization of dicts. -/
theorem dict_serialize_iff (ce : ColEnv σ) (nn : Bool) (item : Ops σ) (c : Ctx)
    (ho : OwnerOk ce c) (kvs : List (String × Val)) (hnd : (kvs.map Prod.fst).Nodup)
    (hv : c.val = .dict kvs) (s s' : σ) (w : Val) :
    (dictOps ce nn item).serialize c s = (.ok w, s') ↔
      ∃ ys, w = .dict ((kvs.map Prod.fst).zip ys) ∧
        Converts item.serialize c (kvs.map (fun kv => (Key.s kv.1, kv.2))) s ys s' := by
  simp only [dictOps, hv]
  exact dict_map_ok_iff ce false item.serialize c ho kvs hnd (fun h => by cases h) s s' w

/-- C07: `None` collections: nonnull ones become empty on input, all others stay
`None`; JSON output and serialization keep `None`. -/
theorem collection_none (ce : ColEnv σ) (nn : Bool) (item : Ops σ) (c : Ctx) (s : σ)
    (hv : c.val = .none) :
    (listOps ce nn item).transform c s = (.ok (if nn then .list [] else .none), s) ∧
    (dictOps ce nn item).transform c s = (.ok (if nn then .dict [] else .none), s) ∧
    (listOps ce nn item).tojson c s = (.ok .none, s) ∧
    (dictOps ce nn item).tojson c s = (.ok .none, s) ∧
    (listOps ce nn item).serialize c s = (.ok .none, s) ∧
    (dictOps ce nn item).serialize c s = (.ok .none, s) := by
  cases nn <;> simp [listOps, dictOps, hv]

/-! ### C18 -/

/-- C18: a union accepts a non-`None` value exactly when some alternative accepts it
after all earlier alternatives raised validation errors (so, for alternatives that
raise nothing but validation errors, exactly when some alternative accepts). -/
theorem union_validate_ok_iff (alts : List (Ops σ)) (c : Ctx) (s s' : σ) (hv : c.val ≠ .none) :
    (unionOps alts).validate c s = (.ok (), s') ↔
      ∃ X m Y, alts = X ++ m :: Y ∧ ∃ s₁ cs, X.length = cs.length ∧
        Complaints c.alterfdef X s cs s₁ ∧ m.validate c.alterfdef s₁ = (.ok (), s') := by
  have h0 : (unionOps alts).validate c s = unionValidate c.alterfdef alts s := by
    simp only [unionOps]
  rw [h0]
  clear h0
  generalize c.alterfdef = c'
  induction alts generalizing s with
  | nil => simp [unionValidate]
  | cons m ms ih =>
    simp only [unionValidate, Py.catchV]
    rcases hm : m.validate c' s with ⟨e | u, s₁⟩
    · cases e with
      | validation msgs =>
        refine (ih s₁).trans ?_
        constructor
        · rintro ⟨X, m', Y, rfl, s₂, cs, hlen, hc, hok⟩
          exact ⟨m :: X, m', Y, rfl, s₂, msgs :: cs, by simpa using hlen, .reject hm hc, hok⟩
        · rintro ⟨X, m', Y, heq, s₂, cs, hlen, hc, hok⟩
          cases X with
          | nil =>
            simp only [List.nil_append, List.cons.injEq] at heq
            obtain ⟨rfl, rfl⟩ := heq
            cases hc
            rw [hm] at hok
            cases hok
          | cons x X =>
            simp only [List.cons_append, List.cons.injEq] at heq
            obtain ⟨rfl, rfl⟩ := heq
            cases hc with
            | accept h _ => rw [hm] at h; cases h
            | reject h hr =>
              rw [hm] at h
              cases h
              exact ⟨X, m', Y, rfl, s₂, _, by simpa using hlen, hr, hok⟩
      | _ =>
        simp only [Prod.mk.injEq, reduceCtorEq, false_and, false_iff]
        rintro ⟨X, m', Y, heq, s₂, cs, hlen, hc, hok⟩
        cases X with
        | nil =>
          simp only [List.nil_append, List.cons.injEq] at heq
          obtain ⟨rfl, rfl⟩ := heq
          cases hc
          rw [hm] at hok
          cases hok
        | cons x X =>
          simp only [List.cons_append, List.cons.injEq] at heq
          obtain ⟨rfl, rfl⟩ := heq
          cases hc with
          | accept h _ => rw [hm] at h; cases h
          | reject h _ => rw [hm] at h; cases h
    · simp only [Prod.mk.injEq, true_and]
      constructor
      · rintro rfl
        exact ⟨[], m, ms, rfl, s, [], rfl, .nil s, hm⟩
      · rintro ⟨X, m', Y, heq, s₂, cs, hlen, hc, hok⟩
        cases X with
        | nil =>
          simp only [List.nil_append, List.cons.injEq] at heq
          obtain ⟨rfl, rfl⟩ := heq
          cases hc
          rw [hm] at hok
          cases hok
          rfl
        | cons x X =>
          simp only [List.cons_append, List.cons.injEq] at heq
          obtain ⟨rfl, rfl⟩ := heq
          cases hc with
          | accept h hr =>
            -- then fewer complaints than alternatives
            exfalso
            have hle : ∀ {X : List (Ops σ)} {s cs s'}, Complaints c' X s cs s' →
                cs.length ≤ X.length := by
              intro X s cs s' h
              induction h with
              | nil => simp
              | accept _ _ ih => simp; omega
              | reject _ _ ih => simp; omega
            have := hle hr
            simp at hlen
            omega
          | reject h _ => rw [hm] at h; cases h

/-- C18 for read-only alternatives that either accept or raise a validation error (no
other exception): accepted exactly when some alternative accepts. -/
theorem union_validate_iff_exists (alts : List (Ops σ)) (c : Ctx) (s : σ) (hv : c.val ≠ .none)
    (hro : ∀ m ∈ alts, m.validate c.alterfdef s = (.ok (), s) ∨
      ∃ msgs, m.validate c.alterfdef s = (.error (.validation msgs), s)) :
    (unionOps alts).validate c s = (.ok (), s) ↔
      ∃ m ∈ alts, m.validate c.alterfdef s = (.ok (), s) := by
  have h0 : (unionOps alts).validate c s = unionValidate c.alterfdef alts s := by
    simp only [unionOps]
  rw [h0]
  clear h0
  induction alts with
  | nil => simp [unionValidate]
  | cons m ms ih =>
    have ih := ih (fun m' hm' => hro m' (by simp [hm']))
    simp only [unionValidate, Py.catchV]
    rcases hro m (by simp) with hm | ⟨msgs, hm⟩
    · simp [hm]
    · simp only [hm]
      refine ih.trans ?_
      constructor
      · rintro ⟨m', h1, h2⟩; exact ⟨m', by simp [h1], h2⟩
      · rintro ⟨m', h1, h2⟩
        rcases List.mem_cons.1 h1 with rfl | h1
        · rw [hm] at h2; cases h2
        · exact ⟨m', h1, h2⟩

/-- All alternatives of the list raise on input, one after the other. -/
inductive AllRaise (c : Ctx) : List (Ops σ) → σ → σ → Prop
  | nil (s) : AllRaise c [] s s
  | cons {m ms s s' s'' e} : m.transform c s = (.error e, s') → AllRaise c ms s' s'' →
      AllRaise c (m :: ms) s s''

/-- C18: on input, the first alternative whose transform does not raise decides the
result; when all raise, the value is kept as it is. -/
theorem union_transform_first (X Y : List (Ops σ)) (m : Ops σ) (c : Ctx) (hv : c.val ≠ .none)
    {s s₁ s₂ : σ} {r : Val} (hX : AllRaise c.alterfdef X s s₁)
    (hm : m.transform c.alterfdef s₁ = (.ok r, s₂)) :
    (unionOps (X ++ m :: Y)).transform c s = (.ok r, s₂) := by
  have h0 : (unionOps (X ++ m :: Y)).transform c s = unionTransform c.alterfdef (X ++ m :: Y) s := by
    simp only [unionOps]
  rw [h0]
  clear h0
  induction hX with
  | nil s => simp only [List.nil_append, unionTransform, Py.catchAll, hm]
  | cons h _ ih =>
    simp only [List.cons_append, unionTransform, Py.catchAll, h]
    exact ih hm

theorem union_transform_none (alts : List (Ops σ)) (c : Ctx) (hv : c.val ≠ .none)
    {s s₁ : σ} (hX : AllRaise c.alterfdef alts s s₁) :
    (unionOps alts).transform c s = (.ok c.val, s₁) := by
  have h0 : (unionOps alts).transform c s = unionTransform c.alterfdef alts s := by
    simp only [unionOps]
  rw [h0]
  clear h0
  have : c.alterfdef.val = c.val := rfl
  rw [← this]
  induction hX with
  | nil s => rfl
  | cons h _ ih => simp only [unionTransform, Py.catchAll, h]; exact ih

/-- C18: JSON output uses the first alternative that validates (and whose conversion
does not itself raise a validation error). -/
theorem union_tojson_first (X Y : List (Ops σ)) (m : Ops σ) (c : Ctx) (hv : c.val ≠ .none)
    {s s₁ s₂ s₃ : σ} {r : Val} {cs} (hlen : cs.length = X.length)
    (hX : Complaints c.alterfdef X s cs s₁)
    (hm : m.validate c.alterfdef s₁ = (.ok (), s₂))
    (hj : m.tojson c.alterfdef s₂ = (.ok r, s₃)) :
    (unionOps (X ++ m :: Y)).tojson c s = (.ok r, s₃) := by
  have h0 : (unionOps (X ++ m :: Y)).tojson c s
      = unionConv (·.tojson) c.alterfdef (X ++ m :: Y) s := by
    simp only [unionOps]
  rw [h0]
  clear h0
  have hle : ∀ {X : List (Ops σ)} {s cs s'}, Complaints c.alterfdef X s cs s' →
      cs.length ≤ X.length := by
    intro X s cs s' h
    induction h with
    | nil => simp
    | accept _ _ ih => simp; omega
    | reject _ _ ih => simp; omega
  induction hX with
  | nil s =>
    simp only [List.nil_append, unionConv, Py.catchV]
    rw [Py.bind_ok hm, hj]
  | accept _ hr _ => have := hle hr; simp at hlen; omega
  | reject h _ ih =>
    simp only [List.cons_append, unionConv, Py.catchV]
    rw [Py.bind_err h]
    exact ih (by simpa using hlen) hm

/-- C18: when every alternative rejects, JSON output is `None` (the entry is
dropped or null), not an error. -/
theorem union_tojson_none (alts : List (Ops σ)) (c : Ctx) (hv : c.val ≠ .none)
    {s s₁ : σ} {cs} (hlen : cs.length = alts.length) (hX : Complaints c.alterfdef alts s cs s₁) :
    (unionOps alts).tojson c s = (.ok .none, s₁) := by
  have h0 : (unionOps alts).tojson c s = unionConv (·.tojson) c.alterfdef alts s := by
    simp only [unionOps]
  rw [h0]
  clear h0
  have hle : ∀ {X : List (Ops σ)} {s cs s'}, Complaints c.alterfdef X s cs s' →
      cs.length ≤ X.length := by
    intro X s cs s' h
    induction h with
    | nil => simp
    | accept _ _ ih => simp; omega
    | reject _ _ ih => simp; omega
  induction hX with
  | nil s => rfl
  | accept _ hr _ => have := hle hr; simp at hlen; omega
  | reject h _ ih =>
    simp only [unionConv, Py.catchV]
    rw [Py.bind_err h]
    exact ih (by simpa using hlen)

/-! ### Non-vacuity -/
section Example

/-- item modifier that doubles ints on input and accepts positive ints -/
def exItem : Ops Unit where
  validate := fun c => match c.val with
    | .int n => if n > 0 then pure () else Py.raise (c.vexc "not positive")
    | _ => Py.raise (c.vexc "not int")
  transform := fun c => match c.val with
    | .int n => pure (.int (2 * n))
    | _ => Py.raise .typeError

example : indexed [.int 5, .int 7] = [(.i 0, .int 5), (.i 1, .int 7)] := rfl
example : ItemsAccept exItem {} (indexed [.int 5, .int 7]) () () := .cons rfl (.cons rfl (.nil _))
example : (listOps {} false exItem).validate
    { val := .list [.int 1, .int (-1)], fkeypathr := [.s "xs"] } ()
    = (.error (.validation [("xs.1", "not positive")]), ()) := by rfl
example : (listOps {} false exItem).transform { val := .list [.int 1, .int 2] } ()
    = (.ok (.list [.int 2, .int 4]), ()) := by rfl
example : Converts exItem.transform {} (indexed [.int 1, .int 2]) () [.int 2, .int 4] () :=
  .cons rfl (.cons rfl (.nil _))
example : (dictOps {} false exItem).transform { val := .dict [("a", .int 1), ("b", .int 2)] } ()
    = (.ok (.dict [("a", .int 2), ("b", .int 4)]), ()) := by rfl
example : OwnerOk (σ := Unit) {} {} := fun _ => rfl
example : ItemNonEmpty exItem := by
  intro c s s' msgs h
  cases hv : c.val <;> simp only [exItem, hv, Ctx.vexc, Py.raise_run] at h
  case int n =>
    by_cases hn : n > 0
    · simp [hn] at h
    · rw [if_neg hn] at h; cases h; simp
  all_goals (cases h; simp)
-- second alternative of a union
example : (unionOps [exItem, ({} : Ops Unit)]).validate { val := .str "x" } () = (.ok (), ()) := by rfl
example : AllRaise (σ := Unit) { val := .str "x" } [exItem] () () := .cons rfl (.nil _)
example : Complaints (σ := Unit) { val := .str "x" } [exItem] () [[("", "not int")]] () :=
  .reject rfl (.nil _)

end Example

end JC
