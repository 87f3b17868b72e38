import Verif.Model.Methods
import Verif.Props.Chain
import Verif.Props.Demo
import Verif.Props.OwnedDict
import Verif.Props.OwnedList

/-
C32, C33 and C34: assignments to plain fields, modification tracking, reset and update.
-/
namespace JC
variable {env : Env}

/-! ### Specification -/

/-- `n` is a plain field: stored, not a relation, and not the reference key of one. -/
def PlainField (cd : ClassDef) (n : String) : Prop :=
  ∃ f, cd.field? n = some f ∧ cd.localKey? n = none ∧ f.isRef = false ∧ f.store ≠ .calculated

/-- not a list or a dict -/
def NotContainer : Val → Prop
  | .list _ => False
  | .dict _ => False
  | _ => True

/-- list operations that report what they change: arguments are collections other than the
list itself, `sort` reorders and its comparison does not raise -/
def LOp.Reported {α : Type} (op : LOp α) : Prop :=
  op.Plain ∧ ∀ f e, op = .sort f e → e = none

/-- operations on plain fields; iterators and one-argument `setdefault` are left out
(`tracking_misses_failed_sort`, `odict_setdefault_unreported`) -/
def PlainOp (cd : ClassDef) : FOp → Prop
  | .set n _ => PlainField cd n
  | .lst n op => PlainField cd n ∧ op.Reported
  | .dct n op => PlainField cd n ∧ op.NoIter ∧ op.Explicit

/-- The values after one operation, on a table of values alone: an assignment of an equal
value is ignored; methods act as on a plain list or dict and do nothing on anything else. -/
def valueAfter (a : String → Val) : FOp → String → Val
  | .set n v => fun m => if m = n ∧ pyEq v (a n) = false then v else a m
  | .lst n op => fun m => if m = n then (match a n with
      | .list xs => .list (plainOp pyEq op xs).2
      | x => x) else a m
  | .dct n op => fun m => if m = n then (match a n with
      | .dict kvs => .dict (plainDOp .none op kvs).2.2
      | x => x) else a m

/-- the values after a sequence of operations -/
def valuesAfter (a : String → Val) : List FOp → String → Val
  | [] => a
  | op :: ops => valuesAfter (valueAfter a op) ops

/-- "this operation changes something": a different value is assigned, or a method of a list
or dict reports an addition, a removal or a reordering -/
def Changes (a : String → Val) : FOp → Prop
  | .set n v => pyEq v (a n) = false
  | .lst n op => ∃ xs, a n = .list xs ∧ ∃ e ∈ (ownedOp pyEq op xs).log, e.isWill = false
  | .dct n op => ∃ kvs, a n = .dict kvs ∧ ∃ e ∈ (ownedDOp .none op kvs).log, e.isWill = false

/-- field `m` was changed by some operation of the sequence -/
def EverChanged (a : String → Val) : List FOp → String → Prop
  | [], _ => False
  | op :: ops, m => (op.name = m ∧ Changes a op) ∨ EverChanged (valueAfter a op) ops m

/-! ### The effect of one operation -/

/-- `__setattr__`'s tracking on one object -/
def trackObj (cd : ClassDef) (f : Field) (o : Obj) : Obj :=
  if o.isNew then o else
    { o with
      isModified := true
      modFields := setAdd f.name o.modFields
      prev := if recordsPrev cd f && (dictGet o.prev f.name).isNone
        then o.prev ++ [(f.name, o.attrs f.name)] else o.prev }

/-- `__olist_will_change__` on one object -/
def willObj (cd : ClassDef) (f : Field) (n : String) (o : Obj) : Obj :=
  if recordsPrev cd f && !f.isRef && (dictGet o.prev n).isNone && (f.ftype = .dict || f.ftype = .list)
  then { o with prev := o.prev ++ [(n, o.attrs n)] } else o

def setVal (n : String) (v : Val) (o : Obj) : Obj := { o with attrs := fun m => if m = n then v else o.attrs m }

def markObj (n : String) (o : Obj) : Obj :=
  if o.isNew then o else { o with isModified := true, modFields := setAdd n o.modFields }

/-- the effect of a method on the value it is called on: whether it announces a change, the
new value, whether it reports a change -/
def effect (v : Val) : FOp → Option (Bool × Val × Bool)
  | .set _ _ => none
  | .lst _ op => match v with
    | .list xs => some ((ownedOp pyEq op xs).log.any LEv.isWill, .list (ownedOp pyEq op xs).items,
        (ownedOp pyEq op xs).log.any (fun e => !e.isWill))
    | _ => none
  | .dct _ op => match v with
    | .dict kvs => some ((ownedDOp .none op kvs).log.any DEv.isWill, .dict (ownedDOp .none op kvs).items,
        (ownedDOp .none op kvs).log.any (fun e => !e.isWill))
    | _ => none

def applyIf (b : Bool) (g : Obj → Obj) (o : Obj) : Obj := if b then g o else o

/-- the same on the owner -/
def inPlaceObj (cd : ClassDef) (f : Field) (n : String) (o : Obj) : Option (Bool × Val × Bool) → Obj
  | none => o
  | some (ann, v, ch) => applyIf ch (markObj n) (setVal n v (applyIf ann (willObj cd f n) o))

/-- one operation on one object -/
def opObj (cd : ClassDef) (f : Field) (o : Obj) : FOp → Obj
  | .set n v => if pyEq v (o.attrs n) then o else setVal n v (trackObj cd f o)
  | .lst n op => inPlaceObj cd f n o (effect (o.attrs n) (.lst n op))
  | .dct n op => inPlaceObj cd f n o (effect (o.attrs n) (.dct n op))

theorem upd_upd (w : World) (i : Nat) (f g : Obj → Obj) : (w.upd i f).upd i g = w.upd i (fun o => g (f o)) := by
  unfold World.upd
  simp only [World.mk.injEq, and_true]
  funext j
  by_cases h : j = i <;> simp [h]

theorem upd_id (w : World) (i : Nat) : w.upd i (fun o => o) = w := by
  unfold World.upd
  cases w
  simp only [World.mk.injEq, and_true]
  funext j
  by_cases h : j = i <;> simp [h]

theorem upd_congr (w : World) (i : Nat) {f g : Obj → Obj} (h : f (w.heap i) = g (w.heap i)) : w.upd i f = w.upd i g := by
  unfold World.upd
  simp only [h]

theorem upd_heap_self (w : World) (i : Nat) (f : Obj → Obj) : (w.upd i f).heap i = f (w.heap i) := by
  simp [World.upd]

theorem upd_heap_other (w : World) {i j : Nat} (f : Obj → Obj) (h : j ≠ i) : (w.upd i f).heap j = w.heap j := by
  simp [World.upd, h]

theorem willObj_cls (cd : ClassDef) (f : Field) (n : String) (o : Obj) : (willObj cd f n o).cls = o.cls ∧
    (willObj cd f n o).attrs = o.attrs ∧ (willObj cd f n o).isNew = o.isNew ∧ (willObj cd f n o).modFields = o.modFields ∧
    (willObj cd f n o).isModified = o.isModified := by
  unfold willObj; split <;> simp

theorem willChange_run (b : Bool) (i : Nat) (n : String) (f : Field) (w : World) (hf : (w.cdef env i).field? n = some f) :
    willChange env b i n w = (.ok (), w.upd i (willObj (w.cdef env i) f n)) := by
  unfold willChange
  simp only [hf]
  split
  · rename_i h
    congr 1
    apply upd_congr
    unfold willObj
    rw [if_pos h]
  · rename_i h
    rw [upd_congr w i (g := fun o => o) (by unfold willObj; rw [if_neg h]), upd_id]

theorem willObj_idem (cd : ClassDef) (f : Field) (n : String) (o : Obj) : willObj cd f n (willObj cd f n o) = willObj cd f n o := by
  by_cases h : (recordsPrev cd f && !f.isRef && (dictGet o.prev n).isNone && (f.ftype = .dict || f.ftype = .list)) = true
  · have h1 : willObj cd f n o = { o with prev := o.prev ++ [(n, o.attrs n)] } := by unfold willObj; rw [if_pos h]
    rw [h1]
    unfold willObj
    rw [if_neg]
    have hn : dictGet o.prev n = none := by
      simp only [Bool.and_eq_true, Option.isNone_iff_eq_none] at h; exact h.1.2
    have : dictGet (o.prev ++ [(n, o.attrs n)]) n = some (o.attrs n) := by
      rw [dictGet_append, hn]; simp [dictGet]
    simp [this]
  · have h1 : willObj cd f n o = o := by unfold willObj; rw [if_neg h]
    rw [h1, h1]

theorem markObj_idem (n : String) (o : Obj) : markObj n (markObj n o) = markObj n o := by
  unfold markObj
  by_cases h : o.isNew = true
  · simp [h]
  · simp only [h]
    by_cases hm : n ∈ o.modFields
    · simp [setAdd, hm]
    · simp [setAdd, hm]

theorem markObj_cls (n : String) (o : Obj) : (markObj n o).cls = o.cls ∧ (markObj n o).attrs = o.attrs ∧ (markObj n o).isNew = o.isNew ∧
    (markObj n o).prev = o.prev := by
  unfold markObj; split <;> simp

theorem markModified_run (i : Nat) (n : String) (w : World) : markModified i n w = (.ok (), w.upd i (markObj n)) := rfl

/-- the world after a step and a final exception -/
theorem bind_raiseOpt (m : Py World Unit) (e : Option Exc) (w : World) : ((m >>= fun _ => raiseOpt e) w).2 = (m w).2 := by
  rw [Py.bind_run]
  rcases m w with ⟨_ | _, w'⟩
  · rfl
  · cases e <;> rfl

theorem cdef_upd {w : World} {i : Nat} {g : Obj → Obj} (h : (g (w.heap i)).cls = (w.heap i).cls) : (w.upd i g).cdef env i = w.cdef env i := by
  unfold World.cdef
  rw [upd_heap_self, h]

/-- the announcements of a method -/
theorem forEvs_will {ε : Type} {run : ε → Py World Unit} {isWill : ε → Bool} {i : Nat} {n : String} {f : Field} {cd : ClassDef}
    (hrun : ∀ e w, isWill e = true → w.cdef env i = cd → run e w = (.ok (), w.upd i (willObj cd f n))) (log : List ε) :
    ∀ w : World, w.cdef env i = cd → forEvs run (log.filter isWill) w = (.ok (), w.upd i (applyIf (log.any isWill) (willObj cd f n))) := by
  induction log with
  | nil => intro w _; exact congrArg _ (upd_id w i).symm
  | cons e es ih =>
    intro w hcd
    cases he : isWill e with
    | false => rw [List.filter_cons_of_neg (by simp [he]), ih w hcd]; simp [he]
    | true =>
      rw [List.filter_cons_of_pos he, forEvs, Py.bind_run, hrun e w he hcd]
      simp only []
      rw [ih _ (by rw [← hcd]; exact cdef_upd (willObj_cls _ _ _ _).1), upd_upd]
      congr 1
      apply upd_congr
      simp only [List.any_cons, he, Bool.true_or]
      unfold applyIf
      split
      · exact willObj_idem _ _ _ _
      · rfl

/-- the reports of a method -/
theorem forEvs_mark {ε : Type} {run : ε → Py World Unit} {skip : ε → Bool} {i : Nat} {n : String} {cd : ClassDef}
    (hrun : ∀ e w, skip e = false → w.cdef env i = cd → (run e w).2 = w.upd i (markObj n)) (log : List ε) :
    ∀ w : World, w.cdef env i = cd →
      (forEvs run (log.filter (fun e => !skip e)) w).2 = w.upd i (applyIf (log.any (fun e => !skip e)) (markObj n)) := by
  induction log with
  | nil => intro w _; exact (upd_id w i).symm
  | cons e es ih =>
    intro w hcd
    cases he : skip e with
    | true => rw [List.filter_cons_of_neg (by simp [he]), ih w hcd]; simp [he]
    | false =>
      rw [List.filter_cons_of_pos (by simp [he]), forEvs, Py.bind_run]
      have h1 := hrun e w he hcd
      rcases h2 : run e w with ⟨ex | u, w'⟩
      · rw [h2] at h1
        simp only at h1
        rw [h1]
        apply upd_congr
        simp [applyIf, he]
      · rw [h2] at h1
        simp only at h1
        rw [h1]
        simp only []
        rw [ih _ (by rw [← hcd]; exact cdef_upd (markObj_cls _ _).1), upd_upd]
        apply upd_congr
        simp only [List.any_cons, he, Bool.not_false, Bool.true_or]
        unfold applyIf
        split
        · exact markObj_idem _ _
        · rfl

/-- `__olist_del__` on a plain field -/
theorem olistDel_plain {i : Nat} {n : String} {v : Val} {w : World} (hfuel : env.fuel ≠ 0) (hp : PlainField (w.cdef env i) n) :
    olistDel env i n v w = (.ok (), w.upd i (markObj n)) := by
  obtain ⟨f, hf, hl, hr, _⟩ := hp
  obtain ⟨n', hn'⟩ : ∃ n', env.fuel = n' + 1 := ⟨env.fuel - 1, by omega⟩
  unfold olistDel
  rw [hn']
  simp only [runU, delBody, Py.bind_run, Py.get_run]
  rw [hl]
  simp only [hf, delRef, hr, Bool.false_eq_true, if_false, Py.bind_run, Py.pure_run]
  rfl

/-- `__olist_add__` on a plain field: a list or dict value ends in RecursionError, any other
value returns; the field is marked in both cases -/
theorem olistAdd_plain {i : Nat} {n : String} {k : Int} {v : Val} (hfuel : env.fuel ≠ 0) (m : Nat) : ∀ {w : World},
    PlainField (w.cdef env i) n →
    (NotContainer v → runL env (m + 1) (.add i n k v) w = (.ok (), w.upd i (markObj n))) ∧
    (¬ NotContainer v → runL env (m + 1) (.add i n k v) w = (.error .recursion, w.upd i (markObj n))) := by
  induction m with
  | zero =>
    intro w hp
    have hp' := hp
    obtain ⟨f, hf, hl, hr, _⟩ := hp
    simp only [runL, addBody, Py.bind_run, Py.get_run]
    rw [hl]
    simp only [hf, addRef, hr, Bool.false_eq_true, if_false, Py.bind_run, Py.pure_run]
    constructor
    · intro hv
      cases v <;> first | rfl | exact absurd hv (by simp [NotContainer])
    · intro hv
      cases v <;> first | exact absurd trivial hv | (simp only [addTail, Py.bind_run, olistDel_plain hfuel hp']; rfl)
  | succ m ih =>
    intro w hp
    have hp' := hp
    obtain ⟨f, hf, hl, hr, _⟩ := hp
    rw [runL]
    simp only [addBody, Py.bind_run, Py.get_run]
    rw [hl]
    simp only [hf, addRef, hr, Bool.false_eq_true, if_false, Py.bind_run, Py.pure_run]
    have hcd : (w.upd i (markObj n)).cdef env i = w.cdef env i := cdef_upd (markObj_cls _ _).1
    constructor
    · intro hv
      cases v <;> first | rfl | exact absurd hv (by simp [NotContainer])
    · intro hv
      have h2 := (ih (w := w.upd i (markObj n)) (by rw [hcd]; exact hp')).2 hv
      rw [upd_upd, upd_congr w i (f := fun o => markObj n (markObj n o)) (g := markObj n) (markObj_idem _ _)] at h2
      cases v <;> first | exact absurd trivial hv | (simp only [addTail, Py.bind_run, olistDel_plain hfuel hp']; exact h2)

theorem odictAdd_plain (i : Nat) (n : String) (v : Val) (m : Nat) : ∀ w : World,
    (NotContainer v → odictAdd i n (m + 1) v w = (.ok (), w.upd i (markObj n))) ∧
    (¬ NotContainer v → odictAdd i n (m + 1) v w = (.error .recursion, w.upd i (markObj n))) := by
  induction m with
  | zero =>
    intro w
    constructor
    · intro hv
      cases v <;> first | rfl | exact absurd hv (by simp [NotContainer])
    · intro hv
      cases v <;> first | exact absurd trivial hv | rfl
  | succ m ih =>
    intro w
    constructor
    · intro hv
      cases v <;> first | rfl | exact absurd hv (by simp [NotContainer])
    · intro hv
      have h2 := (ih (w.upd i (markObj n))).2 hv
      rw [upd_upd, upd_congr w i (f := fun o => markObj n (markObj n o)) (g := markObj n) (markObj_idem _ _)] at h2
      cases v <;> first | exact absurd trivial hv | (rw [odictAdd, Py.bind_run, markModified_run]; exact h2)

/-- **The effect of an operation on a plain field**: one object changes. -/
theorem plain_run {i : Nat} {op : FOp} {w : World} (hfuel : env.fuel ≠ 0) (hp : PlainField (w.cdef env i) op.name) :
    ∃ f, (w.cdef env i).field? op.name = some f ∧ f.isRef = false ∧ f.name = op.name ∧
      (op.run env i w).2 = w.upd i (fun o => opObj (w.cdef env i) f o op) := by
  have hp' := hp
  obtain ⟨n', hn'⟩ : ∃ n', env.fuel = n' + 1 := ⟨env.fuel - 1, by omega⟩
  cases op with
  | set n v =>
    obtain ⟨f, hf, hl, hr, hc⟩ : PlainField (w.cdef env i) n := hp
    have hname : f.name = n := by
      have := List.find?_some hf; simpa [FOp.name] using this
    refine ⟨f, hf, hr, hname, ?_⟩
    simp only [FOp.run, setAttr, Py.bind_run, Py.get_run]
    rw [hl]
    simp only [setField, hn', runL, setBody, Py.bind_run, Py.get_run]
    rw [hf]
    simp only [if_neg hc]
    by_cases he : pyEq v (w.attr i n) = true
    · rw [if_pos he]
      have : opObj (w.cdef env i) f (w.heap i) (.set n v) = w.heap i := if_pos he
      rw [upd_congr w i (f := fun o => opObj (w.cdef env i) f o (.set n v)) (g := fun o => o) this, upd_id]
      rfl
    · rw [if_neg he]
      simp only [hr, Bool.false_eq_true, if_false]
      change (rawSet i n v (track env i f w).2).2 = _
      unfold rawSet updObj track Py.modify
      simp only [upd_upd]
      have : opObj (w.cdef env i) f (w.heap i) (.set n v) = setVal n v (trackObj (w.cdef env i) f (w.heap i)) := if_neg he
      rw [upd_congr w i (f := fun o => opObj (w.cdef env i) f o (.set n v)) (g := fun o => setVal n v (trackObj (w.cdef env i) f o)) this]
      rfl
  | lst n op =>
    obtain ⟨f, hf, hl, hr, hc⟩ : PlainField (w.cdef env i) n := hp
    have hname : f.name = n := by
      have := List.find?_some hf; simpa [FOp.name] using this
    refine ⟨f, hf, hr, hname, ?_⟩
    simp only [FOp.run, listOp, Py.bind_run, Py.get_run]
    unfold World.attr
    cases hx : (w.heap i).attrs n with
    | list xs =>
      simp only []
      have h1 := forEvs_will (env := env) (run := ownerLEv env i n) (isWill := LEv.isWill) (i := i) (n := n) (f := f) (cd := w.cdef env i)
        (by
          intro e w' he hcd
          cases e with
          | will => rw [← hcd]; exact willChange_run false i n f w' (by rw [hcd]; exact hf)
          | _ => cases he) (ownedOp pyEq op xs).log w rfl
      rw [Py.bind_run, h1]
      simp only []
      rw [Py.bind_run]
      change ((forEvs _ _ >>= fun _ => raiseOpt _) ((w.upd i _).upd i (setVal n _))).2 = _
      rw [bind_raiseOpt, upd_upd, forEvs_mark (env := env) (n := n) (cd := w.cdef env i) (skip := LEv.isWill), upd_upd]
      · apply upd_congr
        simp only [opObj, hx, effect, inPlaceObj]
      · intro e w' he hcd
        have hpw : PlainField (w'.cdef env i) n := by rw [hcd]; exact hp'
        cases e with
        | will => cases he
        | add k v =>
          simp only [ownerLEv, olistAdd, hn']
          by_cases hv : NotContainer v
          · rw [(olistAdd_plain hfuel n' hpw).1 hv]
          · rw [(olistAdd_plain hfuel n' hpw).2 hv]
        | del v => rw [ownerLEv, olistDel_plain hfuel hpw]
        | sor => rfl
      · apply cdef_upd
        change (applyIf _ _ _).cls = _
        unfold applyIf
        split
        · exact (willObj_cls _ _ _ _).1
        · rfl
    | _ =>
      simp only [Py.raise_run]
      rw [upd_congr w i (g := fun o => o), upd_id]
      simp only [opObj, hx, effect, inPlaceObj]
  | dct n op =>
    obtain ⟨f, hf, hl, hr, hc⟩ : PlainField (w.cdef env i) n := hp
    have hname : f.name = n := by
      have := List.find?_some hf; simpa [FOp.name] using this
    refine ⟨f, hf, hr, hname, ?_⟩
    simp only [FOp.run, dictOp, Py.bind_run, Py.get_run]
    unfold World.attr
    cases hx : (w.heap i).attrs n with
    | dict kvs =>
      simp only []
      have h1 := forEvs_will (env := env) (run := ownerDEv env i n) (isWill := DEv.isWill) (i := i) (n := n) (f := f) (cd := w.cdef env i)
        (by
          intro e w' he hcd
          cases e with
          | will => rw [← hcd]; exact willChange_run true i n f w' (by rw [hcd]; exact hf)
          | _ => cases he) (ownedDOp .none op kvs).log w rfl
      rw [Py.bind_run, h1]
      simp only []
      rw [Py.bind_run]
      change ((forEvs _ _ >>= fun _ => raiseOpt _) ((w.upd i _).upd i (setVal n _))).2 = _
      rw [bind_raiseOpt, upd_upd, forEvs_mark (env := env) (n := n) (cd := w.cdef env i) (skip := DEv.isWill), upd_upd]
      · apply upd_congr
        simp only [opObj, hx, effect, inPlaceObj]
      · intro e w' he hcd
        cases e with
        | will => cases he
        | add k v =>
          simp only [ownerDEv, hn']
          by_cases hv : NotContainer v
          · rw [(odictAdd_plain i n v n' w').1 hv]
          · rw [(odictAdd_plain i n v n' w').2 hv]
        | del v => rfl
      · apply cdef_upd
        change (applyIf _ _ _).cls = _
        unfold applyIf
        split
        · exact (willObj_cls _ _ _ _).1
        · rfl
    | _ =>
      simp only [Py.raise_run]
      rw [upd_congr w i (g := fun o => o), upd_id]
      simp only [opObj, hx, effect, inPlaceObj]

theorem inPlaceObj_core (cd : ClassDef) (f : Field) (n : String) (o : Obj) (e : Option (Bool × Val × Bool)) :
    (inPlaceObj cd f n o e).cls = o.cls ∧ (inPlaceObj cd f n o e).isNew = o.isNew ∧
    (inPlaceObj cd f n o e).attrs = fun m => if m = n then (match e with
      | some (_, v, _) => v
      | none => o.attrs n) else o.attrs m := by
  cases e with
  | none =>
    refine ⟨rfl, rfl, ?_⟩
    funext m
    by_cases hm : m = n
    · subst hm; simp [inPlaceObj]
    · simp [inPlaceObj, hm]
  | some e =>
    obtain ⟨ann, v, ch⟩ := e
    cases ann <;> cases ch <;>
      simp [inPlaceObj, applyIf, setVal, markObj_cls, willObj_cls]

theorem opObj_cls (cd : ClassDef) (f : Field) (o : Obj) (op : FOp) : (opObj cd f o op).cls = o.cls ∧ (opObj cd f o op).isNew = o.isNew := by
  have h2 : ∀ o, (trackObj cd f o).cls = o.cls ∧ (trackObj cd f o).isNew = o.isNew := by intro o; unfold trackObj; split <;> simp
  cases op with
  | set n v => simp only [opObj]; split <;> simp [setVal, h2]
  | lst n op => exact ⟨(inPlaceObj_core _ _ _ _ _).1, (inPlaceObj_core _ _ _ _ _).2.1⟩
  | dct n op => exact ⟨(inPlaceObj_core _ _ _ _ _).1, (inPlaceObj_core _ _ _ _ _).2.1⟩

theorem plain_field {cd : ClassDef} {op : FOp} (h : PlainOp cd op) : PlainField cd op.name := by
  cases op with
  | set n v => exact h
  | lst n op => exact h.1
  | dct n op => exact h.1

/-- a sequence of operations on one object -/
def opsObj (cd : ClassDef) : List FOp → Obj → Obj
  | [], o => o
  | op :: ops, o => opsObj cd ops (opObj cd ((cd.field? op.name).getD {}) o op)

theorem runOps_eq {i : Nat} (ops : List FOp) : ∀ {w : World}, env.fuel ≠ 0 → (∀ op ∈ ops, PlainOp (w.cdef env i) op) →
    runOps env i ops w = w.upd i (opsObj (w.cdef env i) ops) := by
  induction ops with
  | nil => intro w _ _; exact (upd_id w i).symm
  | cons op ops ih =>
    intro w hfuel h
    obtain ⟨f, hf, _, _, hrun⟩ := plain_run hfuel (plain_field (h op (by simp)))
    have hcd : (w.upd i (fun o => opObj (w.cdef env i) f o op)).cdef env i = w.cdef env i := by
      unfold World.cdef
      rw [upd_heap_self, (opObj_cls _ _ _ _).1]
    rw [runOps, hrun, ih hfuel (by rw [hcd]; exact fun op' h' => h op' (by simp [h'])), hcd, upd_upd]
    apply upd_congr
    simp only [opsObj, hf, Option.getD_some]

theorem mem_setAdd (n m : String) (xs : List String) : m ∈ setAdd n xs ↔ m ∈ xs ∨ n = m := by
  unfold setAdd
  split
  · rename_i h
    constructor
    · exact .inl
    · rintro (h' | rfl)
      · exact h'
      · exact h
  · simp [eq_comm]

theorem reported_contents {op : LOp Val} (h : op.Plain) (xs : List Val) : (ownedOp pyEq op xs).items = (plainOp pyEq op xs).2 := by
  rw [← olist_contents (eqv := pyEq) op _ xs]
  cases op with
  | extend a => cases a <;> first | trivial | exact h.elim
  | iadd a => cases a <;> first | trivial | exact h.elim
  | _ => trivial

theorem reported_dict {op : DOp Val} (h : op.NoIter) (kvs : List (String × Val)) :
    (ownedDOp .none op kvs).items = (plainDOp .none op kvs).2.2 := by
  rw [← odict_contents op h kvs]

theorem opObj_attrs {cd : ClassDef} (f : Field) (o : Obj) {op : FOp} (hp : PlainOp cd op) :
    (opObj cd f o op).attrs = valueAfter o.attrs op := by
  have h2 : ∀ o, (trackObj cd f o).attrs = o.attrs := by intro o; unfold trackObj; split <;> rfl
  cases op with
  | set n v =>
    funext m
    simp only [opObj]
    simp only [valueAfter]
    split
    · rename_i h; simp [h]
    · rename_i h
      simp only [setVal, h2]
      by_cases hm : m = n <;> simp [hm, h]
  | lst n op =>
    simp only [opObj]
    simp only [valueAfter]
    rw [(inPlaceObj_core _ _ _ _ _).2.2]
    funext m
    congr 1
    cases hx : o.attrs n <;> first | rfl | (simp only [effect]; rw [reported_contents hp.2.1])
  | dct n op =>
    simp only [opObj]
    simp only [valueAfter]
    rw [(inPlaceObj_core _ _ _ _ _).2.2]
    funext m
    congr 1
    cases hx : o.attrs n <;> first | rfl | (simp only [effect]; rw [reported_dict hp.2.1])

theorem inPlaceObj_mod (cd : ClassDef) (f : Field) (n : String) (o : Obj) (e : Option (Bool × Val × Bool)) (hn : o.isNew = false) :
    (∀ m, m ∈ (inPlaceObj cd f n o e).modFields ↔ m ∈ o.modFields ∨ (n = m ∧ ∃ a v, e = some (a, v, true))) ∧
    ((inPlaceObj cd f n o e).isModified = true ↔ o.isModified = true ∨ ∃ a v, e = some (a, v, true)) := by
  have hmark : ∀ n o, o.isNew = false → markObj n o = { o with isModified := true, modFields := setAdd n o.modFields } := by
    intro n o h; unfold markObj; rw [if_neg (by simp [h])]
  cases e with
  | none => simp [inPlaceObj]
  | some e =>
    obtain ⟨ann, v, ch⟩ := e
    have h3 : ∀ o' : Obj, o' = applyIf ann (willObj cd f n) o → o'.isNew = false ∧ o'.modFields = o.modFields ∧ o'.isModified = o.isModified := by
      rintro o' rfl
      unfold applyIf
      split
      · exact ⟨by rw [(willObj_cls _ _ _ _).2.2.1, hn], (willObj_cls _ _ _ _).2.2.2.1, (willObj_cls _ _ _ _).2.2.2.2⟩
      · exact ⟨hn, rfl, rfl⟩
    simp only [inPlaceObj]
    generalize ho : applyIf ann (willObj cd f n) o = o'
    obtain ⟨i1, i2, i3⟩ := h3 o' ho.symm
    cases ch with
    | false => simp [applyIf, setVal, i2, i3]
    | true =>
      simp only [applyIf, if_true]
      rw [hmark n _ (by simpa [setVal] using i1)]
      simp [setVal, mem_setAdd, i2]

theorem effect_changes (a : String → Val) (op : FOp) (h : ∀ n v, op ≠ .set n v) :
    (∃ x v, effect (a op.name) op = some (x, v, true)) ↔ Changes a op := by
  cases op with
  | set n v => exact absurd rfl (h n v)
  | lst n op =>
    simp only [effect, Changes, FOp.name]
    cases a n <;> simp
  | dct n op =>
    simp only [effect, Changes, FOp.name]
    cases a n <;> simp

/-- tracking, one operation -/
theorem opObj_mod (cd : ClassDef) (f : Field) (o : Obj) (op : FOp) (hf : f.name = op.name) (hn : o.isNew = false) :
    (∀ m, m ∈ (opObj cd f o op).modFields ↔ m ∈ o.modFields ∨ (op.name = m ∧ Changes o.attrs op)) ∧
    ((opObj cd f o op).isModified = true ↔ o.isModified = true ∨ Changes o.attrs op) := by
  cases op with
  | set n v =>
    simp only [opObj]
    simp only [Changes, FOp.name] at *
    split
    · rename_i h; simp [h]
    · rename_i h
      have ht : trackObj cd f o = { o with
        isModified := true
        modFields := setAdd f.name o.modFields
        prev := if recordsPrev cd f && (dictGet o.prev f.name).isNone
          then o.prev ++ [(f.name, o.attrs f.name)] else o.prev } := by
        unfold trackObj; rw [if_neg (by simp [hn])]
      simp only [setVal, ht, mem_setAdd, hf]
      simp [h]
  | lst n op =>
    rw [← effect_changes o.attrs (.lst n op) (by intro _ _ h; cases h)]
    exact inPlaceObj_mod cd f n o _ hn
  | dct n op =>
    rw [← effect_changes o.attrs (.dct n op) (by intro _ _ h; cases h)]
    exact inPlaceObj_mod cd f n o _ hn

theorem opsObj_attrs {cd : ClassDef} {ops : List FOp} (h : ∀ op ∈ ops, PlainOp cd op) : ∀ o, (opsObj cd ops o).attrs = valuesAfter o.attrs ops := by
  induction ops with
  | nil => intro o; rfl
  | cons op ops ih =>
    intro o
    rw [opsObj, ih (fun op' h' => h op' (by simp [h'])), opObj_attrs _ _ (h op (by simp))]; rfl

theorem plainField_name {cd : ClassDef} {n : String} (h : PlainField cd n) : ((cd.field? n).getD {}).name = n := by
  obtain ⟨f, hf, _⟩ := h
  have := List.find?_some hf
  rw [hf]; simpa using this

theorem opsObj_mod (cd : ClassDef) (ops : List FOp) : ∀ o : Obj, o.isNew = false → (∀ op ∈ ops, PlainOp cd op) →
    (∀ m, m ∈ (opsObj cd ops o).modFields ↔ m ∈ o.modFields ∨ EverChanged o.attrs ops m) ∧
    ((opsObj cd ops o).isModified = true ↔ o.isModified = true ∨ ∃ m, EverChanged o.attrs ops m) ∧ (opsObj cd ops o).isNew = false := by
  induction ops with
  | nil => intro o hn _; simp [opsObj, EverChanged, hn]
  | cons op ops ih =>
    intro o hn h
    have hf := plainField_name (plain_field (h op (by simp)))
    obtain ⟨h1, h2⟩ := opObj_mod cd ((cd.field? op.name).getD {}) o op hf hn
    obtain ⟨i1, i2, i3⟩ := ih (opObj cd ((cd.field? op.name).getD {}) o op) (by rw [(opObj_cls _ _ _ _).2]; exact hn)
      (fun op' h' => h op' (by simp [h']))
    rw [opObj_attrs _ _ (h op (by simp))] at i1 i2
    refine ⟨?_, ?_, i3⟩
    · intro m
      rw [opsObj, i1, h1, EverChanged, or_assoc]
    · rw [opsObj, i2, h2]
      simp only [EverChanged]
      constructor
      · rintro ((h' | h') | ⟨m, h'⟩)
        · exact .inl h'
        · exact .inr ⟨op.name, .inl ⟨rfl, h'⟩⟩
        · exact .inr ⟨m, .inr h'⟩
      · rintro (h' | ⟨m, ⟨_, h'⟩ | h'⟩)
        · exact .inl (.inl h')
        · exact .inl (.inr h')
        · exact .inr ⟨m, h'⟩

theorem addsFrom_nil {α : Type} {s i : Int} {vs : List α} (h : ∀ e ∈ addsFrom s i vs, e.isWill = true) : vs = [] := by
  cases vs with
  | nil => rfl
  | cons v vs => exact absurd (h (.add i v) (by simp [addsFrom])) (by simp [LEv.isWill])

theorem dels_nil {α : Type} {vs : List α} (h : ∀ e ∈ dels vs, e.isWill = true) : vs = [] := by
  cases vs with
  | nil => rfl
  | cons v vs => exact absurd (h (.del v) (by simp [dels])) (by simp [LEv.isWill])

theorem notified_same {α : Type} {xs : List α} {r : Except Exc (List α)} {evs : List α → List (LEv α)}
    (h : ∀ ys, r = .ok ys → (∀ e ∈ evs ys, e.isWill = true) → ys = xs)
    (hl : ∀ e ∈ (notified xs r evs).log, e.isWill = true) : (notified xs r evs).items = xs := by
  cases r with
  | error e => rfl
  | ok ys => exact h ys rfl (fun e he => hl e (by simp [notified, he]))

theorem idx_absurd {α : Type} {xs ys : List α} {i : Int} {f : Nat → List α} {evs : List (LEv α)} (hy : withIdx xs i f = .ok ys)
    (hl : ∀ e ∈ dels (getIdxs xs (normIdx xs.length i).toList) ++ evs, e.isWill = true) : False := by
  unfold withIdx at hy
  cases hk : normIdx xs.length i with
  | none => rw [hk] at hy; cases hy
  | some k =>
    have hlt := (normIdx_some hk).1
    have := dels_nil (vs := getIdxs xs [k]) (fun e he => hl e (by rw [hk]; exact List.mem_append_left _ he))
    rw [getIdxs_single hlt] at this
    cases this

/-- an operation that reports nothing changes nothing -/
theorem reported_same {α : Type} {eqv : α → α → Bool} {op : LOp α} (h : op.Reported) {xs : List α}
    (hl : ∀ e ∈ (ownedOp eqv op xs).log, e.isWill = true) : (ownedOp eqv op xs).items = xs := by
  have hext : ∀ a : ItArg α, a.Plain → (∀ e ∈ (ownedExtend a xs).log, e.isWill = true) → (ownedExtend a xs).items = xs := by
    intro a ha hl
    cases a with
    | seq ys =>
      have : ys = [] := addsFrom_nil (fun e he => hl e (by simp only [ownedExtend]; exact List.mem_append_right _ he))
      subst this
      simp [ownedExtend, ItArg.items]
    | iter ys => cases ha
    | self => cases ha
  cases op with
  | append v => exact absurd (hl (.add xs.length v) (by simp [ownedOp])) (by simp [LEv.isWill])
  | extend a => exact hext a h.1 hl
  | insert i v => exact absurd (hl (.add (min xs.length i) v) (by simp [ownedOp])) (by simp [LEv.isWill])
  | remove v =>
    refine notified_same (fun ys hy hl => ?_) hl
    exact absurd (hl (.del v) (by simp)) (by simp [LEv.isWill])
  | sort f e =>
    have := h.2 f e rfl
    subst this
    exact absurd (hl .sor (by simp [ownedOp])) (by simp [LEv.isWill])
  | clear => exact (dels_nil (fun e he => hl e (by simp [ownedOp, he]))).symm
  | pop i =>
    refine notified_same (fun ys hy hl => ?_) hl
    exact (idx_absurd (evs := []) hy (by simpa using hl)).elim
  | reverse => exact absurd (hl .sor (by simp [ownedOp])) (by simp [LEv.isWill])
  | iadd a => exact hext a h.1 hl
  | imul n =>
    simp only [ownedOp] at hl
    simp only [ownedOp]
    by_cases h0 : n ≤ 0
    · have : xs = [] := dels_nil (fun e he => hl e (by
        rw [if_pos h0]
        exact List.mem_append_left _ (List.mem_append_right _ he)))
      subst this
      simp [pyTimes]
    · by_cases h1 : n ≤ 1
      · have : n = 1 := by omega
        subst this
        simp [pyTimes]
      · have h2 : pyTimes xs (n - 1) = [] := addsFrom_nil (s := 1) (i := xs.length) (fun e he => hl e (by
          simp only [if_neg h1]
          exact List.mem_append_right _ he))
        rw [pyTimes_succ xs (by omega), h2, List.append_nil]
  | setIdx i v =>
    refine notified_same (fun ys hy hl => ?_) hl
    exact absurd (hl _ (List.mem_append_right _ (List.mem_singleton.2 rfl))) (by simp [LEv.isWill])
  | setSlice s a =>
    cases a with
    | iter _ => exact h.1.elim
    | self => exact h.1.elim
    | seq vs =>
      simp only [ownedOp] at hl ⊢
      split at hl
      · rename_i h0; rw [if_pos h0]
      · rename_i h0
        rw [if_neg h0]
        refine notified_same (fun ys hy hl => ?_) hl
        have h1 : getIdxs xs (s.idxs xs.length) = [] := dels_nil (fun e he => hl e (List.mem_append_left _ he))
        have h2 : vs = [] := addsFrom_nil (fun e he => hl e (List.mem_append_right _ he))
        subst h2
        have hp := (setSlice_perm hy).length_eq
        rw [h1] at hp
        simp only [List.append_nil] at hp
        change pySetSlice xs s [] = .ok ys at hy
        simp only [pySetSlice] at hy
        split at hy
        · cases hy
        · split at hy
          · cases hy
            simp only [List.append_nil, List.length_append, List.length_take, List.length_drop] at hp ⊢
            generalize hk : (s.bounds xs.length).1.toNat = k at *
            generalize hm : (max (s.bounds xs.length).1 (s.bounds xs.length).2.1).toNat = m at *
            have hkm : k ≤ m := by omega
            by_cases hkn : xs.length ≤ k
            · rw [List.take_of_length_le hkn, List.drop_of_length_le (by omega), List.append_nil]
            · have : m = k := by omega
              rw [this, List.take_append_drop]
          · by_cases hlen : (s.idxs xs.length).length = ([] : List α).length
            · rw [if_pos hlen] at hy
              cases hy
              have : s.idxs xs.length = [] := List.eq_nil_of_length_eq_zero hlen
              rw [this]; rfl
            · rw [if_neg hlen] at hy; cases hy
  | delIdx i =>
    refine notified_same (fun ys hy hl => ?_) hl
    exact (idx_absurd (evs := []) hy (by simpa using hl)).elim
  | delSlice s =>
    simp only [ownedOp] at hl ⊢
    split at hl
    · rename_i h0; rw [if_pos h0]
    · rename_i h0
      rw [if_neg h0]
      refine notified_same (fun ys hy hl => ?_) hl
      have h1 : getIdxs xs (s.idxs xs.length) = [] := dels_nil hl
      unfold pyDelSlice at hy
      split at hy
      · cases hy
      · rename_i hb
        cases hy
        have hp := (delSlice_perm (xs := xs) (idxs_lt hb) (idxs_nodup hb)).length_eq
        rw [h1, List.append_nil] at hp
        have hs : (getIdxs xs ((List.range xs.length).filter (fun i => !(s.idxs xs.length).contains i))).Sublist
            (getIdxs xs (List.range xs.length)) := List.Sublist.filterMap _ List.filter_sublist
        rw [getIdxs_range] at hs
        exact hs.eq_of_length hp

theorem dictUpdate_nil_iff {α : Type} {L : List (String × α)} (h : dictUpdate [] L = []) : L = [] := by
  cases L with
  | nil => rfl
  | cons x L =>
    exfalso
    have hk : dictGet (dictUpdate [] (x :: L)) x.1 = none := by rw [h]; rfl
    have : ∀ (L : List (String × α)) (d : List (String × α)), dictGet d x.1 ≠ none → dictGet (dictUpdate d L) x.1 ≠ none := by
      intro L
      induction L with
      | nil => intro d hd; exact hd
      | cons y L ih =>
        intro d hd
        apply ih
        by_cases hy : y.1 = x.1
        · rw [← hy, dictGet_dictSet]; simp
        · rw [dictGet_dictSet]
          split
          · simp
          · exact hd
    exact this L _ (by rw [dictGet_dictSet]; simp) hk

/-- a dict operation that reports nothing changes nothing -/
theorem reported_same_dict {op : DOp Val} (hi : op.NoIter) (he : op.Explicit) {kvs : List (String × Val)}
    (hl : ∀ e ∈ (ownedDOp .none op kvs).log, e.isWill = true) : (ownedDOp .none op kvs).items = kvs := by
  have hupd : ∀ L : List (String × Val), (∀ e ∈ updateEvents kvs (dictUpdate [] L), e.isWill = true) → dictUpdate kvs L = kvs := by
    intro L hL
    have : L = [] := by
      apply dictUpdate_nil_iff
      cases hd : dictUpdate [] L with
      | nil => rfl
      | cons x xs =>
        rw [hd] at hL
        exact absurd (hL (.add x.1 x.2) (by simp [updateEvents])) (by simp [DEv.isWill])
    subst this; rfl
  cases op with
  | clear =>
    cases kvs with
    | nil => rfl
    | cons x xs => exact absurd (hl (.del x.2) (by simp [ownedDOp])) (by simp [DEv.isWill])
  | pop k dflt =>
    simp only [ownedDOp] at hl ⊢
    cases hg : dictGet kvs k with
    | none => cases dflt <;> rfl
    | some v => rw [hg] at hl; exact absurd (hl (.del v) (by simp)) (by simp [DEv.isWill])
  | popitem =>
    simp only [ownedDOp] at hl ⊢
    cases hg : kvs.getLast? with
    | none => rfl
    | some v => rw [hg] at hl; exact absurd (hl (.del v.2) (by simp)) (by simp [DEv.isWill])
  | setdefault1 k => cases he
  | setdefault2 k v =>
    simp only [ownedDOp] at hl ⊢
    cases hg : dictGet kvs k with
    | none => rw [hg] at hl; exact absurd (hl (.add k v) (by simp)) (by simp [DEv.isWill])
    | some v => rfl
  | update a kw =>
    cases a with
    | map L => exact hupd _ hl
    | iter L => cases hi
  | setItem k v => exact absurd (hl (.add k v) (by simp [ownedDOp])) (by simp [DEv.isWill])
  | delItem k =>
    simp only [ownedDOp] at hl ⊢
    cases hg : dictGet kvs k with
    | none => rfl
    | some v => rw [hg] at hl; exact absurd (hl (.del v) (by simp)) (by simp [DEv.isWill])
  | ior a =>
    cases a with
    | map L => exact hupd _ hl
    | iter L => cases hi

theorem valueAfter_ne {cd : ClassDef} {a : String → Val} {op : FOp} {m : String} (hp : PlainOp cd op) (h : valueAfter a op m ≠ a m) :
    op.name = m ∧ Changes a op := by
  cases op with
  | set n v =>
    simp only [valueAfter] at h
    by_cases hc : m = n ∧ pyEq v (a n) = false
    · exact ⟨hc.1.symm, hc.2⟩
    · rw [if_neg hc] at h; exact absurd rfl h
  | lst n op =>
    simp only [valueAfter] at h
    by_cases hm : m = n
    · subst hm
      refine ⟨rfl, ?_⟩
      rw [if_pos rfl] at h
      cases hx : a m with
      | list xs =>
        refine ⟨xs, hx, Classical.byContradiction (fun hno => ?_)⟩
        rw [hx] at h
        refine h (congrArg Val.list ?_)
        rw [← reported_contents hp.2.1]
        refine reported_same hp.2 (fun e he => ?_)
        cases hw : e.isWill with
        | true => rfl
        | false => exact absurd ⟨e, he, hw⟩ hno
      | _ => rw [hx] at h; exact absurd rfl h
    · rw [if_neg hm] at h; exact absurd rfl h
  | dct n op =>
    simp only [valueAfter] at h
    by_cases hm : m = n
    · subst hm
      refine ⟨rfl, ?_⟩
      rw [if_pos rfl] at h
      cases hx : a m with
      | dict kvs =>
        refine ⟨kvs, hx, Classical.byContradiction (fun hno => ?_)⟩
        rw [hx] at h
        refine h (congrArg Val.dict ?_)
        rw [← reported_dict hp.2.1]
        refine reported_same_dict hp.2.1 hp.2.2 (fun e he => ?_)
        cases hw : e.isWill with
        | true => rfl
        | false => exact absurd ⟨e, he, hw⟩ hno
      | _ => rw [hx] at h; exact absurd rfl h
    · rw [if_neg hm] at h; exact absurd rfl h

theorem valuesAfter_ne {cd : ClassDef} (ops : List FOp) : ∀ {a : String → Val} {m : String}, (∀ op ∈ ops, PlainOp cd op) →
    valuesAfter a ops m ≠ a m → EverChanged a ops m := by
  induction ops with
  | nil => intro a m _ h; exact absurd rfl h
  | cons op ops ih =>
    intro a m hp h
    by_cases h1 : valueAfter a op m = a m
    · right
      apply ih (fun op' h' => hp op' (by simp [h']))
      rw [h1]; exact h
    · exact .inl (valueAfter_ne (hp op (by simp)) h1)

/-! ### C32 -/

/-- A persisted object marked unmodified. -/
def Clean (o : Obj) : Prop := o.isNew = false ∧ o.isModified = false ∧ o.modFields = [] ∧ o.prev = []

/-- **C32**: after any sequence of operations on plain fields of a clean persisted object:
the values are those of the same sequence on a table; the reported fields are exactly
those some operation changed, so every field whose value differs is reported; `is_modified`
holds exactly when some field is reported; and no other object changed. -/
theorem tracking_exact {i : Nat} {ops : List FOp} {w : World} (hfuel : env.fuel ≠ 0) (hc : Clean (w.heap i))
    (h : ∀ op ∈ ops, PlainOp (w.cdef env i) op) :
    (∀ m, (runOps env i ops w).attr i m = valuesAfter (w.heap i).attrs ops m) ∧
    (∀ m, m ∈ ((runOps env i ops w).heap i).modFields ↔ EverChanged (w.heap i).attrs ops m) ∧
    (∀ m, (runOps env i ops w).attr i m ≠ w.attr i m → m ∈ ((runOps env i ops w).heap i).modFields) ∧
    (((runOps env i ops w).heap i).isModified = true ↔ ((runOps env i ops w).heap i).modFields ≠ []) ∧
    (∀ j, j ≠ i → (runOps env i ops w).heap j = w.heap j) := by
  obtain ⟨hn, hm, hmf, _⟩ := hc
  rw [runOps_eq ops hfuel h]
  unfold World.attr
  simp only [upd_heap_self, opsObj_attrs h]
  obtain ⟨h1, h2, _⟩ := opsObj_mod (w.cdef env i) ops (w.heap i) hn h
  rw [hmf, hm] at *
  simp only [List.not_mem_nil, false_or, Bool.false_eq_true] at h1 h2
  refine ⟨fun _ => trivial, h1, ?_, ?_, ?_⟩
  · intro m hne; exact (h1 m).2 (valuesAfter_ne ops h hne)
  · rw [h2]
    constructor
    · rintro ⟨m, h'⟩ he
      have := (h1 m).2 h'
      rw [he] at this; cases this
    · intro hne
      obtain ⟨m, hm'⟩ := List.exists_mem_of_ne_nil _ hne
      exact ⟨m, (h1 m).1 hm'⟩
  · intro j hj; exact upd_heap_other w _ hj

/-! ### C33: reset -/

/-- In-place changes are made on fields declared as lists or dicts. -/
def DeclaredList (cd : ClassDef) : FOp → Prop
  | .set _ _ => True
  | .lst n _ => ∀ f, cd.field? n = some f → f.ftype = .list ∨ f.ftype = .dict
  | .dct n _ => ∀ f, cd.field? n = some f → f.ftype = .list ∨ f.ftype = .dict

/-- What the record of previous values says about the last clean state `a`. -/
structure PrevInv (cd : ClassDef) (a : String → Val) (o : Obj) : Prop where
  persisted : o.isNew = false
  recorded : ∀ n v, dictGet o.prev n = some v → v = a n
  untouched : ∀ n, dictGet o.prev n = none → o.attrs n = a n
  distinct : (o.prev.map Prod.fst).Nodup
  plain : ∀ n ∈ o.prev.map Prod.fst, PlainField cd n
  flagged : (o.isModified = true ∨ o.modFields ≠ []) → o.prev ≠ []

theorem dictGet_snoc {α : Type} (d : List (String × α)) (k k' : String) (v : α) (h : dictGet d k = none) :
    dictGet (d ++ [(k, v)]) k' = if k = k' then some v else dictGet d k' := by
  rw [dictGet_append]
  by_cases hk : k = k'
  · subst hk
    rw [h]; simp [dictGet]
  · rw [if_neg hk]
    have : dictGet [(k, v)] k' = none := by simp [dictGet, hk]
    rw [this]
    cases dictGet d k' <;> rfl

/-- recording the current value keeps the invariant and makes the name recorded -/
theorem prevInv_record {cd : ClassDef} {a : String → Val} {o : Obj} {n : String} (h : PrevInv cd a o) (hp : PlainField cd n)
    (hn : dictGet o.prev n = none) : PrevInv cd a { o with prev := o.prev ++ [(n, o.attrs n)] } where
  persisted := h.persisted
  recorded := by
    intro m v hm
    change dictGet (o.prev ++ [(n, o.attrs n)]) m = some v at hm
    rw [dictGet_snoc _ _ _ _ hn] at hm
    by_cases hk : n = m
    · subst hk
      rw [if_pos rfl] at hm
      cases hm
      exact h.untouched n hn
    · rw [if_neg hk] at hm
      exact h.recorded m v hm
  untouched := by
    intro m hm
    change dictGet (o.prev ++ [(n, o.attrs n)]) m = none at hm
    rw [dictGet_snoc _ _ _ _ hn] at hm
    by_cases hk : n = m
    · rw [if_pos hk] at hm; cases hm
    · rw [if_neg hk] at hm; exact h.untouched m hm
  distinct := by
    change ((o.prev ++ [(n, o.attrs n)]).map Prod.fst).Nodup
    rw [List.map_append, List.nodup_append]
    refine ⟨h.distinct, by simp, ?_⟩
    intro x hx y hy
    simp only [List.map_cons, List.map_nil, List.mem_singleton] at hy
    rintro rfl
    subst hy
    exact dictGet_none_iff.1 hn hx
  plain := by
    intro m hm
    change m ∈ (o.prev ++ [(n, o.attrs n)]).map Prod.fst at hm
    rw [List.map_append, List.mem_append] at hm
    rcases hm with hm | hm
    · exact h.plain m hm
    · simp only [List.map_cons, List.map_nil, List.mem_singleton] at hm
      subst hm; exact hp
  flagged := by intro _; simp

/-- once the name is recorded, writing it and marking it keeps the invariant -/
theorem prevInv_write {cd : ClassDef} {a : String → Val} {o : Obj} {n : String} (v : Val) (h : PrevInv cd a o)
    (hn : dictGet o.prev n ≠ none) (b : Bool) (ms : List String) :
    PrevInv cd a { setVal n v o with isModified := b, modFields := ms } where
  persisted := h.persisted
  recorded := h.recorded
  untouched := by
    intro m hm
    change (if m = n then v else o.attrs m) = a m
    have : m ≠ n := by rintro rfl; exact hn hm
    rw [if_neg this]
    exact h.untouched m hm
  distinct := h.distinct
  plain := h.plain
  flagged := by
    intro _ he
    change o.prev = [] at he
    rw [he] at hn
    exact hn rfl

theorem prevInv_will {cd : ClassDef} {a : String → Val} {o : Obj} {n : String} {f : Field} (hr : cd.resetAllFields = true)
    (h : PrevInv cd a o) (hp : PlainField cd n) (hf : f.isRef = false) (ht : f.ftype = .list ∨ f.ftype = .dict) :
    PrevInv cd a (willObj cd f n o) ∧ dictGet (willObj cd f n o).prev n ≠ none := by
  unfold willObj
  have h1 : recordsPrev cd f = true := by simp [recordsPrev, hr]
  have h2 : (decide (f.ftype = .dict) || decide (f.ftype = .list)) = true := by
    rcases ht with ht | ht <;> simp [ht]
  cases hd : dictGet o.prev n with
  | none =>
    simp only [h1, hf, h2, Option.isNone_none, Bool.not_false, Bool.and_true, if_true]
    refine ⟨prevInv_record h hp hd, ?_⟩
    rw [dictGet_snoc _ _ _ _ hd]; simp
  | some x =>
    simp only [h1, hf, h2, Option.isNone_some, Bool.and_false, Bool.false_and, Bool.false_eq_true, if_false, hd]
    exact ⟨h, by simp⟩

theorem prevInv_setSame {cd : ClassDef} {a : String → Val} {o : Obj} {n : String} (h : PrevInv cd a o) : PrevInv cd a (setVal n (o.attrs n) o) := by
  have : setVal n (o.attrs n) o = o := by
    unfold setVal
    have : (fun m => if m = n then o.attrs n else o.attrs m) = o.attrs := by
      funext m
      by_cases hm : m = n
      · subst hm; simp
      · simp [hm]
    rw [this]
  rw [this]; exact h

/-- a method that announces its changes keeps the invariant -/
theorem inPlaceObj_prevInv {cd : ClassDef} {a : String → Val} {o : Obj} {f : Field} {n : String} (hr : cd.resetAllFields = true)
    (h : PrevInv cd a o) (hpf : PlainField cd n) (href : f.isRef = false) (ht : f.ftype = .list ∨ f.ftype = .dict)
    {e : Option (Bool × Val × Bool)} (he : ∀ v ch, e = some (false, v, ch) → v = o.attrs n ∧ ch = false) : PrevInv cd a (inPlaceObj cd f n o e) := by
  have hmark : ∀ n o, o.isNew = false → markObj n o = { o with isModified := true, modFields := setAdd n o.modFields } := by
    intro n o h; unfold markObj; rw [if_neg (by simp [h])]
  cases e with
  | none => exact h
  | some e =>
    obtain ⟨ann, v, ch⟩ := e
    cases ann with
    | false =>
      obtain ⟨rfl, rfl⟩ := he v ch rfl
      exact prevInv_setSame h
    | true =>
      obtain ⟨h1, h2⟩ := prevInv_will (f := f) hr h hpf href ht
      simp only [inPlaceObj, applyIf, if_true]
      cases ch with
      | false => exact prevInv_write v h1 h2 (willObj cd f n o).isModified (willObj cd f n o).modFields
      | true =>
        simp only [if_true]
        rw [hmark n _ (show (setVal n _ (willObj cd f n o)).isNew = false from h1.persisted)]
        exact prevInv_write _ h1 h2 true _

theorem announced_list {op : LOp Val} (h : op.Plain) {xs : List Val} (hw : (ownedOp pyEq op xs).log.any LEv.isWill = false) :
    (ownedOp pyEq op xs).items = xs ∧ (ownedOp pyEq op xs).log.any (fun e => !e.isWill) = false := by
  rcases olist_announced (eqv := pyEq) op h xs with ⟨r, hr⟩ | ⟨h1, h2⟩
  · rw [hr] at hw; simp [LEv.isWill] at hw
  · rw [h1]; exact ⟨h2, rfl⟩

theorem announced_dict {op : DOp Val} (h : op.Explicit) {kvs : List (String × Val)} (hw : (ownedDOp .none op kvs).log.any DEv.isWill = false) :
    (ownedDOp .none op kvs).items = kvs ∧ (ownedDOp .none op kvs).log.any (fun e => !e.isWill) = false := by
  rcases odict_announced (nul := Val.none) op h kvs with ⟨r, hr⟩ | ⟨h1, h2⟩
  · rw [hr] at hw; simp [DEv.isWill] at hw
  · rw [h1]; exact ⟨h2, rfl⟩

theorem opObj_prevInv {cd : ClassDef} {a : String → Val} {o : Obj} {f : Field} {op : FOp} (hr : cd.resetAllFields = true)
    (h : PrevInv cd a o) (hp : PlainOp cd op) (hd : DeclaredList cd op) (hf : cd.field? op.name = some f) : PrevInv cd a (opObj cd f o op) := by
  have hpf := plain_field hp
  have hname : f.name = op.name := by have := List.find?_some hf; simpa using this
  have href : f.isRef = false := by
    obtain ⟨g, hg, _, hgr, _⟩ := hpf
    rw [hf] at hg; cases hg; exact hgr
  cases op with
  | set n v =>
    simp only [opObj]
    split
    · exact h
    · have h1 : recordsPrev cd f = true := by simp [recordsPrev, hr]
      have hn : f.name = n := hname
      unfold trackObj
      rw [if_neg (by simp [h.persisted]), hn]
      cases hg : dictGet o.prev n with
      | none =>
        simp only [h1, Option.isNone_none, Bool.and_true, if_true]
        have := prevInv_record h hpf hg
        refine prevInv_write v this ?_ true (setAdd n o.modFields)
        change dictGet (o.prev ++ [(n, o.attrs n)]) n ≠ none
        rw [dictGet_snoc _ _ _ _ hg]; simp
      | some x =>
        simp only [Option.isNone_some, Bool.and_false, Bool.false_eq_true, if_false]
        exact prevInv_write v h (by rw [hg]; simp) true (setAdd n o.modFields)
  | lst n op =>
    refine inPlaceObj_prevInv hr h hpf href (hd f hf) (fun v ch hv => ?_)
    simp only [effect] at hv
    cases hx : o.attrs n with
    | list xs =>
      rw [hx] at hv
      simp only [Option.some.injEq, Prod.mk.injEq] at hv
      obtain ⟨h1, rfl, rfl⟩ := hv
      obtain ⟨h2, h3⟩ := announced_list hp.2.1 h1
      exact ⟨by rw [h2]; exact hx.symm, h3⟩
    | _ => rw [hx] at hv; cases hv
  | dct n op =>
    refine inPlaceObj_prevInv hr h hpf href (hd f hf) (fun v ch hv => ?_)
    simp only [effect] at hv
    cases hx : o.attrs n with
    | dict kvs =>
      rw [hx] at hv
      simp only [Option.some.injEq, Prod.mk.injEq] at hv
      obtain ⟨h1, rfl, rfl⟩ := hv
      obtain ⟨h2, h3⟩ := announced_dict hp.2.2 h1
      exact ⟨by rw [h2]; exact hx.symm, h3⟩
    | _ => rw [hx] at hv; cases hv

theorem opsObj_prevInv {cd : ClassDef} {a : String → Val} (hr : cd.resetAllFields = true) (ops : List FOp) : ∀ {o : Obj},
    PrevInv cd a o → (∀ op ∈ ops, PlainOp cd op ∧ DeclaredList cd op) → PrevInv cd a (opsObj cd ops o) := by
  induction ops with
  | nil => intro o h _; exact h
  | cons op ops ih =>
    intro o h hop
    obtain ⟨f, hf, _⟩ := plain_field (hop op (by simp)).1
    rw [opsObj, hf]
    exact ih (opObj_prevInv hr h (hop op (by simp)).1 (hop op (by simp)).2 hf) (fun op' h' => hop op' (by simp [h']))

theorem opsObj_cls (cd : ClassDef) (ops : List FOp) : ∀ o, (opsObj cd ops o).cls = o.cls := by
  induction ops with
  | nil => intro o; rfl
  | cons op ops ih => intro o; rw [opsObj, ih, (opObj_cls _ _ _ _).1]

theorem clean_prevInv {cd : ClassDef} {o : Obj} (h : Clean o) : PrevInv cd o.attrs o where
  persisted := h.1
  recorded := by intro n v hv; rw [h.2.2.2] at hv; cases hv
  untouched := fun _ _ => rfl
  distinct := by rw [h.2.2.2]; simp
  plain := by rw [h.2.2.2]; simp
  flagged := by rw [h.2.1, h.2.2.1]; simp

/-- a plain assignment returns normally -/
theorem plain_set_run {i : Nat} {n : String} {v : Val} {w : World} (hfuel : env.fuel ≠ 0) (hp : PlainField (w.cdef env i) n) :
    ∃ f, (w.cdef env i).field? n = some f ∧ setAttr env i n v w = (.ok (), w.upd i (fun o => opObj (w.cdef env i) f o (.set n v))) := by
  obtain ⟨f, hf, hr, hname, h⟩ := plain_run (op := .set n v) hfuel hp
  refine ⟨f, hf, ?_⟩
  have h1 : (setAttr env i n v w).1 = .ok () := by
    obtain ⟨n', hn'⟩ : ∃ n', env.fuel = n' + 1 := ⟨env.fuel - 1, by omega⟩
    obtain ⟨g, hg, hl, hgr, hc⟩ := hp
    have hgf : g = f := Option.some.inj (hg.symm.trans hf)
    subst hgf
    simp only [setAttr, Py.bind_run, Py.get_run]
    rw [hl]
    simp only [setField, hn', runL, setBody, Py.bind_run, Py.get_run]
    rw [hg]
    simp only [if_neg hc]
    by_cases he : pyEq v (w.attr i n) = true
    · rw [if_pos he]; rfl
    · rw [if_neg he]
      simp only [hr, Bool.false_eq_true, if_false]
      rfl
  exact Prod.ext h1 h

/-- the loop of `reset` on one object, for distinct plain names -/
theorem resetLoop_run {i : Nat} (kvs : List (String × Val)) : ∀ {w : World}, env.fuel ≠ 0 →
    (kvs.map Prod.fst).Nodup → (∀ n ∈ kvs.map Prod.fst, PlainField (w.cdef env i) n) →
    ∃ o', resetLoop env i kvs w = (.ok (), w.upd i (fun _ => o')) ∧ o'.isNew = (w.heap i).isNew ∧ o'.cls = (w.heap i).cls ∧
      (∀ m, o'.attrs m = match dictGet kvs m with
        | some v => if pyEq v ((w.heap i).attrs m) then (w.heap i).attrs m else v
        | none => (w.heap i).attrs m) ∧
      (kvs ≠ [] → o'.isModified = false ∧ o'.modFields = [] ∧ o'.prev = []) ∧
      (kvs = [] → o' = w.heap i) := by
  induction kvs with
  | nil =>
    intro w _ _ _
    refine ⟨w.heap i, ?_, rfl, rfl, fun _ => rfl, fun h => absurd rfl h, fun _ => rfl⟩
    have : w.upd i (fun _ => w.heap i) = w := by
      rw [upd_congr w i (f := fun _ => w.heap i) (g := fun o => o) rfl, upd_id]
    rw [this]; rfl
  | cons kv kvs ih =>
    obtain ⟨k, v⟩ := kv
    intro w hfuel hd hp
    rw [List.map_cons, List.nodup_cons] at hd
    obtain ⟨f, hf, hrun⟩ := plain_set_run (v := v) hfuel (hp k (by simp))
    have hcls := (opObj_cls (w.cdef env i) f (w.heap i) (.set k v))
    generalize hw₂ : w.upd i (fun o => { opObj (w.cdef env i) f o (.set k v) with isModified := false, modFields := [], prev := [] }) = w₂
    have hh : w₂.heap i = { opObj (w.cdef env i) f (w.heap i) (.set k v) with isModified := false, modFields := [], prev := [] } := by
      rw [← hw₂, upd_heap_self]
    have hcd : w₂.cdef env i = w.cdef env i := by
      unfold World.cdef
      rw [hh]
      exact congrArg env.cls hcls.1
    obtain ⟨o', h1, h2, h3, h4, h5, h6⟩ := ih (w := w₂) hfuel hd.2 (by
      rw [hcd]; intro n hn; exact hp n (by rw [List.map_cons]; exact List.mem_cons_of_mem _ hn))
    refine ⟨o', ?_, ?_, ?_, ?_, ?_, ?_⟩
    · simp only [resetLoop, Py.bind_run, hrun]
      change resetLoop env i kvs ((w.upd i _).upd i _) = _
      rw [upd_upd, hw₂, h1, ← hw₂, upd_upd]
    · rw [h2, hh]; exact hcls.2
    · rw [h3, hh]; exact hcls.1
    · intro m
      have ha : (w₂.heap i).attrs m = valueAfter (w.heap i).attrs (.set k v) m := by
        rw [hh]
        exact congrFun (opObj_attrs f (w.heap i) (op := .set k v) (hp k (by simp))) m
      rw [h4, ha]
      by_cases hk : k = m
      · subst hk
        have hnone : dictGet kvs k = none := dictGet_none_iff.2 hd.1
        have hsome : dictGet ((k, v) :: kvs) k = some v := by simp [dictGet]
        rw [hnone, hsome]
        simp only [valueAfter, true_and]
        cases pyEq v ((w.heap i).attrs k) <;> simp
      · have hskip : dictGet ((k, v) :: kvs) m = dictGet kvs m := by simp [dictGet, hk]
        have hva : valueAfter (w.heap i).attrs (.set k v) m = (w.heap i).attrs m := by
          simp [valueAfter, Ne.symm hk]
        rw [hskip, hva]
    · intro _
      cases kvs with
      | nil =>
        rw [h6 rfl, hh]
        exact ⟨rfl, rfl, rfl⟩
      | cons x xs => exact h5 (by simp)
    · intro h; cases h

/-- **C33**: on a class with reset enabled, after any sequence of operations on plain
fields of a clean persisted object, `reset()` returns normally; every field has its value
of the last clean state again, up to Python equality (the assignment made by `reset` skips
an equal value: `reset_equal_not_identical`); the object is clean; and no other object is
affected. In-place changes must be on fields declared as lists or dicts
(`reset_misses_untyped_list`). -/
theorem reset_restores {i : Nat} {ops : List FOp} {w : World} (hfuel : env.fuel ≠ 0) (hc : Clean (w.heap i))
    (hr : (w.cdef env i).resetAllFields = true) (h : ∀ op ∈ ops, PlainOp (w.cdef env i) op ∧ DeclaredList (w.cdef env i) op) :
    ∃ w', apiReset env i (runOps env i ops w) = (.ok (), w') ∧
      (∀ m, w'.attr i m = w.attr i m ∨ pyEq (w.attr i m) (w'.attr i m) = true) ∧
      Clean (w'.heap i) ∧ ∀ j, j ≠ i → w'.heap j = w.heap j := by
  rw [runOps_eq ops hfuel (fun op h' => (h op h').1)]
  generalize hw₁ : w.upd i (opsObj (w.cdef env i) ops) = w₁
  have hh : w₁.heap i = opsObj (w.cdef env i) ops (w.heap i) := by rw [← hw₁, upd_heap_self]
  have hcd : w₁.cdef env i = w.cdef env i := by
    unfold World.cdef; rw [hh, opsObj_cls]
  have hinv : PrevInv (w.cdef env i) (w.heap i).attrs (w₁.heap i) := by
    rw [hh]; exact opsObj_prevInv hr ops (clean_prevInv hc) h
  obtain ⟨o', h1, h2, h3, h4, h5, h6⟩ := resetLoop_run (env := env) (i := i) (w₁.heap i).prev (w := w₁) hfuel hinv.distinct
    (by rw [hcd]; exact hinv.plain)
  refine ⟨w₁.upd i (fun _ => o'), ?_, ?_, ?_, ?_⟩
  · unfold apiReset
    rw [hcd, hr, hinv.persisted]
    exact h1
  · intro m
    unfold World.attr
    rw [upd_heap_self, h4]
    cases hd : dictGet (w₁.heap i).prev m with
    | none => exact .inl (hinv.untouched m hd)
    | some v =>
      have := hinv.recorded m v hd
      subst this
      simp only []
      split
      · rename_i he; exact .inr he
      · exact .inl rfl
  · rw [upd_heap_self]
    refine ⟨by rw [h2, hinv.persisted], ?_⟩
    cases hp : (w₁.heap i).prev with
    | nil =>
      have hf := hinv.flagged
      rw [hp] at hf
      simp only [ne_eq, not_true_eq_false, imp_false, not_or, Bool.not_eq_true, Decidable.not_not] at hf
      rw [h6 hp]
      exact ⟨hf.1, hf.2, hp⟩
    | cons x xs =>
      exact h5 (by rw [hp]; simp)
  · intro j hj
    rw [upd_heap_other _ _ hj, ← hw₁, upd_heap_other _ _ hj]

/-- `reset()` is refused, and changes nothing, when the class does not enable it or the
object is new. -/
theorem reset_refused {i : Nat} {w : World} :
    ((w.cdef env i).resetAllFields = false → apiReset env i w = (.error .resetNotEnabled, w)) ∧
    ((w.cdef env i).resetAllFields = true → (w.heap i).isNew = true → apiReset env i w = (.error .resetError, w)) := by
  constructor
  · intro h; unfold apiReset; rw [h]; rfl
  · intro h h'; unfold apiReset; rw [h, h']; rfl

/-! ### C34: update -/

/-- **C34**: an unknown name makes `update()` raise ValueError with nothing changed. -/
theorem update_unknown {i : Nat} {kvs : List (String × Val)} {w : World} {k : String} {v : Val} (h : (k, v) ∈ kvs)
    (hk : k ∉ (w.cdef env i).updateNames) : apiUpdate env i kvs w = (.error .valueError, w) := by
  unfold apiUpdate
  rw [if_neg]
  intro hall
  rw [List.all_eq_true] at hall
  have := hall (k, v) h
  simp only [List.contains_iff_mem] at this
  exact hk this

theorem setAll_run {i : Nat} (kvs : List (String × Val)) : ∀ {w : World}, env.fuel ≠ 0 →
    (∀ n ∈ kvs.map Prod.fst, PlainField (w.cdef env i) n) →
    setAll env i kvs w = (.ok (), w.upd i (opsObj (w.cdef env i) (kvs.map (fun kv => .set kv.1 kv.2)))) := by
  induction kvs with
  | nil => intro w _ _; simp only [setAll, Py.pure_run, List.map_nil]; exact congrArg _ (upd_id w i).symm
  | cons kv kvs ih =>
    obtain ⟨k, v⟩ := kv
    intro w hfuel hp
    obtain ⟨f, hf, hrun⟩ := plain_set_run (v := v) hfuel (hp k (by simp))
    have hcd : (w.upd i (fun o => opObj (w.cdef env i) f o (.set k v))).cdef env i = w.cdef env i := by
      unfold World.cdef
      rw [upd_heap_self, (opObj_cls _ _ _ _).1]
    simp only [setAll, Py.bind_run, hrun]
    rw [ih hfuel (by rw [hcd]; intro n hn; exact hp n (by rw [List.map_cons]; exact List.mem_cons_of_mem _ hn)), hcd, upd_upd]
    congr 1
    apply upd_congr
    simp only [List.map_cons, opsObj, FOp.name, hf, Option.getD_some]

theorem valuesAfter_sets (kvs : List (String × Val)) : ∀ (a : String → Val) (m : String), (kvs.map Prod.fst).Nodup →
    valuesAfter a (kvs.map (fun kv => .set kv.1 kv.2)) m = match dictGet kvs m with
      | some v => if pyEq v (a m) then a m else v
      | none => a m := by
  induction kvs with
  | nil => intro a m _; rfl
  | cons kv kvs ih =>
    obtain ⟨k, v⟩ := kv
    intro a m hd
    rw [List.map_cons, List.nodup_cons] at hd
    rw [List.map_cons, valuesAfter, ih _ _ hd.2]
    by_cases hk : k = m
    · subst hk
      have hnone : dictGet kvs k = none := dictGet_none_iff.2 hd.1
      have hsome : dictGet ((k, v) :: kvs) k = some v := by simp [dictGet]
      rw [hnone, hsome]
      simp only [valueAfter, true_and]
      cases pyEq v (a k) <;> simp
    · have hskip : dictGet ((k, v) :: kvs) m = dictGet kvs m := by simp [dictGet, hk]
      have hva : valueAfter a (.set k v) m = a m := by simp [valueAfter, Ne.symm hk]
      rw [hskip, hva]

/-- **C34**: with known names of plain fields `update()` returns normally, every named
field holds the given value (or kept one equal to it), every other field of the object and
every other object is unchanged. The keyword arguments of a call have distinct names. -/
theorem update_plain {i : Nat} {kvs : List (String × Val)} {w : World} (hfuel : env.fuel ≠ 0)
    (hd : (kvs.map Prod.fst).Nodup) (hk : ∀ k v, (k, v) ∈ kvs → k ∈ (w.cdef env i).updateNames ∧ PlainField (w.cdef env i) k) :
    ∃ w', apiUpdate env i kvs w = (.ok (), w') ∧
      (∀ k v, (k, v) ∈ kvs → w'.attr i k = v ∨ (w'.attr i k = w.attr i k ∧ pyEq v (w'.attr i k) = true)) ∧
      (∀ m, (∀ v, (m, v) ∉ kvs) → w'.attr i m = w.attr i m) ∧
      ∀ j, j ≠ i → w'.heap j = w.heap j := by
  have hops : ∀ op ∈ kvs.map (fun kv => FOp.set kv.1 kv.2), PlainOp (w.cdef env i) op := by
    intro op ho
    obtain ⟨⟨k, v⟩, h1, rfl⟩ := List.mem_map.1 ho
    exact (hk k v h1).2
  refine ⟨w.upd i (opsObj (w.cdef env i) (kvs.map (fun kv => .set kv.1 kv.2))), ?_, ?_, ?_, fun j hj => upd_heap_other w _ hj⟩
  · unfold apiUpdate
    rw [if_pos, setAll_run kvs hfuel]
    · intro n hn
      obtain ⟨⟨k, v⟩, h1, rfl⟩ := List.mem_map.1 hn
      exact (hk k v h1).2
    · rw [List.all_eq_true]
      rintro ⟨k, v⟩ h
      simp only [List.contains_iff_mem]
      exact (hk k v h).1
  · intro k v h
    unfold World.attr
    rw [upd_heap_self, opsObj_attrs hops, valuesAfter_sets kvs _ _ hd, (mem_iff_get hd k v).1 h]
    simp only []
    split
    · rename_i he; exact .inr ⟨rfl, he⟩
    · exact .inl rfl
  · intro m h
    unfold World.attr
    have : dictGet kvs m = none := dictGet_none_iff.2 (by
      intro hm
      obtain ⟨⟨k, v⟩, h1, rfl⟩ := List.mem_map.1 hm
      exact h v h1)
    rw [upd_heap_self, opsObj_attrs hops, valuesAfter_sets kvs _ _ hd, this]

/-! ### Witnesses -/

/-- Appending a list or dict to a list held by a plain field never returns: whatever the
depth allowed, the call ends in RecursionError (`__olist_add__` assigns the owned copy
into the list, which calls `__olist_add__` again). -/
theorem olist_add_container_diverges {i : Nat} {n : String} {k : Int} {v : Val} {w : World} (hfuel : env.fuel ≠ 0)
    (hp : PlainField (w.cdef env i) n) (hv : ¬ NotContainer v) (fuel : Nat) :
    (runL env fuel (.add i n k v) w).1 = .error .recursion := by
  cases fuel with
  | zero => rfl
  | succ m => rw [(olistAdd_plain hfuel m hp).2 hv]

/-- The same for storing a list or dict in a dict held by a plain field. -/
theorem odict_add_container_diverges {i : Nat} {n : String} {v : Val} {w : World} (hv : ¬ NotContainer v) (fuel : Nat) :
    (odictAdd i n fuel v w).1 = .error .recursion := by
  cases fuel with
  | zero => rfl
  | succ m => rw [(odictAdd_plain i n v m w).2 hv]

end JC

namespace JC.AssignDemo

def fX : Field := { name := "x", jsonName := "x" }
def fTags : Field := { name := "tags", jsonName := "tags", ftype := .list }
def doc : ClassDef := { name := "Doc", fields := [fX, fTags], resetAllFields := true }
def env : Env where
  cls := fun _ => doc
  pystr := fun _ => ""
def world : World where
  heap := fun _ => { cls := "Doc", isNew := false,
                     attrs := Demo.attrsOf [("x", .int 1), ("tags", .list [.str "a"])] }
  next := 1

theorem plain_x : PlainField doc "x" := ⟨fX, rfl, rfl, rfl, by decide⟩
theorem plain_tags : PlainField doc "tags" := ⟨fTags, rfl, rfl, rfl, by decide⟩

/-- change `x` and change it back to something equal, and change the tags in place -/
def ops : List FOp := [.set "x" (.int 2), .lst "tags" (.append (.str "b")), .set "x" (.bool true), .lst "tags" (.remove (.str "zz")),
  .lst "tags" (.remove (.str "a")), .dct "tags" .clear, .lst "tags" (.insert 0 (.str "c")), .lst "tags" .reverse]

theorem ops_plain : ∀ op ∈ ops, PlainOp doc op ∧ DeclaredList doc op := by
  intro op h
  have ht : ∀ f, doc.field? "tags" = some f → f.ftype = .list ∨ f.ftype = .dict := by
    intro f hf
    have : f = fTags := Option.some.inj (hf.symm.trans rfl)
    subst this; exact .inl rfl
  simp only [ops, List.mem_cons, List.not_mem_nil, or_false] at h
  rcases h with rfl | rfl | rfl | rfl | rfl | rfl | rfl | rfl
  · exact ⟨plain_x, trivial⟩
  · exact ⟨⟨plain_tags, trivial, by simp⟩, ht⟩
  · exact ⟨plain_x, trivial⟩
  · exact ⟨⟨plain_tags, trivial, by simp⟩, ht⟩
  · exact ⟨⟨plain_tags, trivial, by simp⟩, ht⟩
  · exact ⟨⟨plain_tags, trivial, trivial⟩, ht⟩
  · exact ⟨⟨plain_tags, trivial, by simp⟩, ht⟩
  · exact ⟨⟨plain_tags, trivial, by simp⟩, ht⟩

theorem clean : Clean (world.heap 0) := ⟨rfl, rfl, rfl, rfl⟩

/-- the hypotheses of C32 and C33 are met, and both fields are reported -/
example : "x" ∈ ((runOps env 0 ops world).heap 0).modFields ∧ "tags" ∈ ((runOps env 0 ops world).heap 0).modFields ∧
    (runOps env 0 ops world).attr 0 "tags" = .list [.str "b", .str "c"] := by
  obtain ⟨h1, h2, _⟩ := tracking_exact (env := env) (i := 0) (ops := ops) (w := world) (by decide) clean (fun op h => (ops_plain op h).1)
  refine ⟨(h2 "x").2 (.inl ⟨rfl, rfl⟩), (h2 "tags").2 (.inr (.inl ⟨rfl, _, rfl, _, .tail _ (.head _), rfl⟩)), ?_⟩
  rw [h1]; rfl

example : ∃ w', apiReset env 0 (runOps env 0 ops world) = (.ok (), w') ∧ Clean (w'.heap 0) ∧ w'.attr 0 "tags" = .list [.str "a"] := by
  obtain ⟨w', h1, _, h3, _⟩ := reset_restores (env := env) (i := 0) (ops := ops) (w := world) (by decide) clean rfl ops_plain
  refine ⟨w', h1, h3, ?_⟩
  have : w' = (apiReset env 0 (runOps env 0 ops world)).2 := by rw [h1]
  rw [this]; rfl

/-- `reset` restores up to Python equality only: the field was `1`, is assigned `2` and
then `True`; `reset` leaves `True`. -/
theorem reset_equal_not_identical :
    ∃ w', apiReset env 0 (runOps env 0 [.set "x" (.int 2), .set "x" (.bool true)] world) = (.ok (), w') ∧
      world.attr 0 "x" = .int 1 ∧ w'.attr 0 "x" = .bool true :=
  ⟨_, rfl, rfl, rfl⟩

/-- In-place changes of a list held by a field that is not declared as a list are not
recorded: after `append`, `reset` neither restores the value nor clears the flags. -/
theorem reset_misses_untyped_list :
    ∃ (w : World) (w' : World), Clean (w.heap 0) ∧ (w.cdef env 0).resetAllFields = true ∧
      PlainOp (w.cdef env 0) (.lst "x" (.append (.int 2))) ∧
      apiReset env 0 (runOps env 0 [.lst "x" (.append (.int 2))] w) = (.ok (), w') ∧
      w.attr 0 "x" = .list [.int 1] ∧ w'.attr 0 "x" = .list [.int 1, .int 2] ∧ (w'.heap 0).isModified = true :=
  ⟨{ world with heap := fun _ => { cls := "Doc", isNew := false, attrs := Demo.attrsOf [("x", .list [.int 1])] } },
   _, ⟨rfl, rfl, rfl, rfl⟩, rfl, ⟨plain_x, trivial, by simp⟩, rfl, rfl, rfl, rfl⟩

/-- A sort whose comparison raises part of the way through may leave the list reordered,
and reports nothing. -/
theorem tracking_misses_failed_sort :
    ∃ (op : LOp Val) (w : World), op.Plain ∧ Clean (w.heap 0) ∧ w.attr 0 "tags" = .list [.int 2, .int 1, .str "a"] ∧
      (runOps env 0 [.lst "tags" op] w).attr 0 "tags" = .list [.int 1, .int 2, .str "a"] ∧
      ((runOps env 0 [.lst "tags" op] w).heap 0).modFields = [] :=
  ⟨.sort (fun xs => match xs with
      | [a, b, c] => [b, a, c]
      | xs => xs) (some .typeError),
   { world with heap := fun _ => { cls := "Doc", isNew := false, attrs := Demo.attrsOf [("tags", .list [.int 2, .int 1, .str "a"])] } },
   by
     intro xs
     match xs with
     | [a, b, c] => exact List.Perm.swap a b [c]
     | [] => exact .refl _
     | [_] => exact .refl _
     | [_, _] => exact .refl _
     | _ :: _ :: _ :: _ :: _ => exact .refl _,
   ⟨rfl, rfl, rfl, rfl⟩, rfl, rfl, rfl⟩

example : ∃ w', apiUpdate env 0 [("tags", .none), ("x", .int 5)] world = (.ok (), w') ∧ w'.attr 0 "x" = .int 5 := by
  obtain ⟨w', h1, h2, _⟩ := update_plain (env := env) (i := 0) (kvs := [("tags", .none), ("x", .int 5)]) (w := world) (by decide)
    (by decide) (by
      intro k v h
      simp only [List.mem_cons, Prod.mk.injEq, List.not_mem_nil, or_false] at h
      rcases h with ⟨rfl, rfl⟩ | ⟨rfl, rfl⟩
      · exact ⟨by decide, plain_tags⟩
      · exact ⟨by decide, plain_x⟩)
  have : w' = (apiUpdate env 0 [("tags", .none), ("x", .int 5)] world).2 := by rw [h1]
  exact ⟨w', h1, by rw [this]; rfl⟩

example : apiUpdate env 0 [("x", .int 5), ("nope", .none)] world = (.error .valueError, world) :=
  update_unknown (k := "nope") (v := .none) (by simp) (by decide)

end JC.AssignDemo
