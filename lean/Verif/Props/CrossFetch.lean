import Verif.Model.CrossFetch
import Verif.Props.SubPipe
import Verif.Props.Demo
import Mathlib.Data.Rat.Defs
import Mathlib.Algebra.Order.Ring.Rat

/-
C89: a value checked against a record that is looked up, as in
`code: types.str.eq(types.crossfetch('Code', 'email').fval('value'))`.
-/
namespace JC
variable {env : Env}

/-! ### Specification -/

/-- The object `j` is a stored record of the class `cls` whose `key` equals `v`. -/
def Matches (h : Heap) (stored : Nat → Prop) (cls key : String) (v : Val) (j : Nat) : Prop :=
  stored j ∧ (h j).cls = cls ∧ pyEq ((h j).attrs key) v = true

/-- The ORM answers truthfully: with a record that matches, or with None if there is none. -/
def FindsRight (db : Finder) (h : Heap) (stored : Nat → Prop) : Prop := ∀ cls key v, db.known cls = true →
  (∃ j, Matches h stored cls key v j ∧ db.one h cls key v = .ok (.obj j)) ∨
  ((∀ j, ¬ Matches h stored cls key v j) ∧ db.one h cls key v = .ok .none)

/-- The class has the field, with its value stored in it (not calculated, not a reference). -/
def KeptField (env : Env) (cls n : String) : Prop := ∃ f, (env.cls cls).field? n = some f ∧ f.store ≠ .calculated ∧ f.store ≠ .localKey

/-- `types.eq(types.crossfetch(cls, thisKey, thatKey).fval(value))` -/
def eqFetched (env : Env) (rt : RefTable) (db : Finder) (cls thisKey : String) (thatKey : Option String) (value : String) : Leaf :=
  eqMod (Pipe.param (plain [crossfetchLeaf env db cls thisKey thatKey, fvalLeaf env rt value]))

variable {rt : RefTable} {db : Finder} {h : Heap} {stored : Nat → Prop} {cls thisKey value : String} {thatKey : Option String}

/-! ### Proof -/

theorem getattr_plain {w : World} {p : Nat} {n : String} (hp : KeptField env (w.heap p).cls n) : w.getattr env p n = .ok (w.attr p n) := by
  obtain ⟨f, hf, hc, _⟩ := hp
  unfold World.getattr World.cdef
  rw [hf]; simp [hc]

theorem fval_plain {c : Ctx} {j : Nat} (hv : c.val = .obj j) (hp : KeptField env (h j).cls value) :
    (fvalLeaf env rt value).transform h c = .ok ((h j).attrs value) := by
  have hg := getattr_plain (w := { heap := h }) (p := j) hp
  obtain ⟨f, hf, hc, hl⟩ := hp
  simp only [fvalLeaf, hv, hf, hg]
  simp [hl, World.attr]

theorem plain_first_error {l : Leaf} {ls : List Leaf} {c : Ctx} {e : Exc} (he : l.transform h c = .error e) :
    (plain (l :: ls)).transform h c = .error e := by
  unfold Pipe.transform chainTransform
  rw [(plain_staged h _).tvs_eq, (plain_staged h _).nvs_eq]
  have he : l.transform h (c.nval c.val) = .error e := he
  simp only [plain, List.map_cons, reduceM, LMod.ops, Py.bind_run, Py.pure_run]
  rw [he]

/-- what the pipeline gives -/
theorem fetched_value (ht : FindsRight db h stored) (hk : db.known cls = true) {c : Ctx} {p : Nat} (hp : c.parent = some p)
    (hthis : KeptField env (h p).cls thisKey) (hthat : KeptField env cls value) :
    (∃ j, Matches h stored cls (thatKey.getD thisKey) ((h p).attrs thisKey) j ∧
      Pipe.param (plain [crossfetchLeaf env db cls thisKey thatKey, fvalLeaf env rt value]) h c = .ok ((h j).attrs value)) ∨
    ((∀ j, ¬ Matches h stored cls (thatKey.getD thisKey) ((h p).attrs thisKey) j) ∧
      Pipe.param (plain [crossfetchLeaf env db cls thisKey thatKey, fvalLeaf env rt value]) h c = .error (c.vexc "cross fetch failed")) := by
  have hg := getattr_plain (w := { heap := h }) (p := p) hthis
  have hg : ({ heap := h } : World).getattr env p thisKey = .ok ((h p).attrs thisKey) := hg
  rcases ht cls (thatKey.getD thisKey) ((h p).attrs thisKey) hk with ⟨j, hm, ho⟩ | ⟨hm, ho⟩
  · left
    refine ⟨j, hm, ?_⟩
    unfold Pipe.param
    rw [plain_transform_iff]
    refine .cons (v' := .obj j) ?_ (.cons (v' := (h j).attrs value) ?_ (.nil _))
    · simp [crossfetchLeaf, Ctx.nval, hp, hk, hg, ho]
    · exact fval_plain rfl (hm.2.1.symm ▸ hthat)
  · right
    refine ⟨hm, ?_⟩
    have e : (crossfetchLeaf env db cls thisKey thatKey).transform h (c.nval .none) = .error (c.vexc "cross fetch failed") := by
      simp [crossfetchLeaf, Ctx.nval, hp, hk, hg, ho, Ctx.vexc, Ctx.sfkeypathr]
    exact plain_first_error e

/-- the check, for a value -/
theorem eqFetched_val {c : Ctx} (hv : c.val ≠ .none) : (eqFetched env rt db cls thisKey thatKey value).validate h c = (do
      let q ← Pipe.param (plain [crossfetchLeaf env db cls thisKey thatKey, fvalLeaf env rt value]) h c
      rejectIf c "value is not equal" (!(pyEq c.val q))) := by
  unfold eqFetched eqMod
  simp only

/-- **C89**. The check of a field `eq(crossfetch(cls, thisKey, thatKey).fval(value))` against a truthful
ORM. If there is no value it passes. Otherwise the record is one whose key equals this object's key,
and the check passes if the values are equal and refuses if not; without such a record it refuses.
Both refusals are validation errors at the path of the field. -/
theorem fetched_check (ht : FindsRight db h stored) (hk : db.known cls = true) {c : Ctx} {p : Nat} (hp : c.parent = some p)
    (hthis : KeptField env (h p).cls thisKey) (hthat : KeptField env cls value) :
    (c.val = .none ∧ (eqFetched env rt db cls thisKey thatKey value).validate h c = .ok ()) ∨
    (c.val ≠ .none ∧ ∃ j, Matches h stored cls (thatKey.getD thisKey) ((h p).attrs thisKey) j ∧
      ((pyEq c.val ((h j).attrs value) = true ∧ (eqFetched env rt db cls thisKey thatKey value).validate h c = .ok ()) ∨
       (pyEq c.val ((h j).attrs value) = false ∧
          (eqFetched env rt db cls thisKey thatKey value).validate h c = .error (c.vexc "value is not equal")))) ∨
    (c.val ≠ .none ∧ (∀ j, ¬ Matches h stored cls (thatKey.getD thisKey) ((h p).attrs thisKey) j) ∧
      (eqFetched env rt db cls thisKey thatKey value).validate h c = .error (c.vexc "cross fetch failed")) := by
  by_cases hv : c.val = .none
  · refine .inl ⟨hv, ?_⟩
    unfold eqFetched eqMod
    simp only [hv]
  · refine .inr ?_
    rw [eqFetched_val hv]
    rcases fetched_value (rt := rt) (thatKey := thatKey) ht hk hp hthis hthat with ⟨j, hm, ho⟩ | ⟨hm, ho⟩
    · refine .inl ⟨hv, j, hm, ?_⟩
      rw [ho]
      change (_ ∧ rejectIf c "value is not equal" (!(pyEq c.val ((h j).attrs value))) = .ok ()) ∨
        (_ ∧ rejectIf c "value is not equal" (!(pyEq c.val ((h j).attrs value))) = _)
      cases hq : pyEq c.val ((h j).attrs value) <;> simp [rejectIf]
    · refine .inr ⟨hv, hm, ?_⟩
      rw [ho]; rfl

/-- **C89**. When keys are unique among the records: the check passes exactly if there is no value or
the record with this object's key has the value. -/
theorem fetched_check_iff (ht : FindsRight db h stored) (hk : db.known cls = true) {c : Ctx} {p : Nat} (hp : c.parent = some p)
    (hthis : KeptField env (h p).cls thisKey) (hthat : KeptField env cls value)
    (huniq : ∀ i j, Matches h stored cls (thatKey.getD thisKey) ((h p).attrs thisKey) i →
      Matches h stored cls (thatKey.getD thisKey) ((h p).attrs thisKey) j → i = j) :
    (eqFetched env rt db cls thisKey thatKey value).validate h c = .ok () ↔
      c.val = .none ∨ ∃ j, Matches h stored cls (thatKey.getD thisKey) ((h p).attrs thisKey) j ∧ pyEq c.val ((h j).attrs value) = true := by
  rcases fetched_check (rt := rt) (thatKey := thatKey) ht hk hp hthis hthat with ⟨hv, h1⟩ | ⟨hv, j, hm, ⟨hq, h1⟩ | ⟨hq, h1⟩⟩ | ⟨hv, hm, h1⟩
  · simp [hv, h1]
  · exact ⟨fun _ => .inr ⟨j, hm, hq⟩, fun _ => h1⟩
  · rw [h1]
    refine ⟨fun h => (by cases h), ?_⟩
    rintro (h | ⟨i, hi, he⟩)
    · exact absurd h hv
    · rw [huniq i j hi hm, hq] at he; cases he
  · rw [h1]
    refine ⟨fun h => (by cases h), ?_⟩
    rintro (h | ⟨i, hi, -⟩)
    · exact absurd h hv
    · exact absurd hi (hm i)

/-- **C89** (violation). For the items of a list or dict the check raises AttributeError, whatever the
records are. -/
theorem fetched_check_in_list (c : Ctx) (v : Val) (k : Key) (hv : v ≠ .none) :
    (eqFetched env rt db cls thisKey thatKey value).validate h (c.colval v k) = .error .attributeError := by
  rw [eqFetched_val hv]
  have e : (crossfetchLeaf env db cls thisKey thatKey).transform h ((c.colval v k).nval .none) = .error .attributeError := rfl
  unfold Pipe.param
  rw [plain_first_error e]
  rfl

/-- **C57**. A pipeline with `invalid` refuses every value. -/
theorem invalid_refuses {ls : List Leaf} (hp : Proper h ls) (hm : invalidLeaf ∈ ls) (c : Ctx) : (plain ls).validate h c ≠ .ok () := by
  intro he
  have := (plain_validate_iff hp c).1 he _ hm
  cases this

/-- **C66**. `randomfloat` gives a float between the bounds, in whichever order they are given. -/
theorem randomfloat_between (R : RandUniform) {pmin pmax : Param} {c : Ctx} {x y : Rat} {a b : Val} (ha : pmin h c = .ok a) (hb : pmax h c = .ok b)
    (hx : a.flt? = some (.fin x)) (hy : b.flt? = some (.fin y)) :
    ∃ z, (randomfloatMod R pmin pmax).transform h c = .ok (.flt (.fin z)) ∧ min x y ≤ z ∧ z ≤ max x y := by
  refine ⟨R.pick x y, ?_, R.ge x y, R.le x y⟩
  simp only [randomfloatMod, ha, hb]
  change (match a.flt?, b.flt? with
    | some (.fin x), some (.fin y) => Except.ok (Val.flt (.fin (R.pick x y)))
    | _, _ => Except.error (Exc.other 1)) = _
  rw [hx, hy]

end JC

namespace JC.FetchDemo
open JC
open JC.Demo (attrsOf)

def fEmail : Field := { name := "email", jsonName := "email" }
def fValue : Field := { name := "value", jsonName := "value" }
def base : Env := { cls := fun n => if n = "Code" then { name := "Code", fields := [fEmail, fValue] } else { name := "User", fields := [fEmail] } }

/-- Two codes, one of them without an address; users: one with an address, one without. -/
def heap : Heap := fun i => match i with
  | 0 => { cls := "Code", attrs := attrsOf [("email", .str "a@b"), ("value", .str "1234")] }
  | 1 => { cls := "Code", attrs := attrsOf [("value", .str "9999")] }
  | 2 => { cls := "User", attrs := attrsOf [("email", .str "a@b")] }
  | _ => { cls := "User" }
def stored (j : Nat) : Prop := j < 2
/-- finds the first record -/
def db : Finder where
  known := fun _ => true
  one := fun h cls key v =>
    if (h 0).cls = cls ∧ pyEq ((h 0).attrs key) v = true then .ok (.obj 0)
    else if (h 1).cls = cls ∧ pyEq ((h 1).attrs key) v = true then .ok (.obj 1) else .ok .none
def rt : RefTable := ⟨fun _ _ => 0, fun _ => none⟩

theorem truthful : FindsRight db heap stored := by
  intro cls key v _
  simp only [db, Matches, stored]
  split
  · next h => exact .inl ⟨0, ⟨by decide, h⟩, rfl⟩
  · next h0 =>
    split
    · next h => exact .inl ⟨1, ⟨by decide, h⟩, rfl⟩
    · next h1 =>
      refine .inr ⟨?_, rfl⟩
      rintro j ⟨hj, hm⟩
      rcases (show j = 0 ∨ j = 1 by omega) with rfl | rfl
      · exact h0 hm
      · exact h1 hm

theorem this : KeptField base "User" "email" := ⟨fEmail, rfl, by decide, by decide⟩
theorem that : KeptField base "Code" "value" := ⟨fValue, rfl, by decide, by decide⟩

/-- The user with the address may use the code sent there, and no other. -/
example : (eqFetched base rt db "Code" "email" none "value").validate heap { parent := some 2, val := .str "1234" } = .ok () ∧
    (eqFetched base rt db "Code" "email" none "value").validate heap { parent := some 2, val := .str "9999" } ≠ .ok () := by
  have hu : ∀ i j, Matches heap stored "Code" "email" (.str "a@b") i → Matches heap stored "Code" "email" (.str "a@b") j → i = j := by
    rintro i j ⟨hi, -, hi'⟩ ⟨hj, -, hj'⟩
    unfold stored at hi hj
    rcases (show i = 0 ∨ i = 1 by omega) with rfl | rfl <;> rcases (show j = 0 ∨ j = 1 by omega) with rfl | rfl <;> first | rfl | (revert hi' hj'; decide +kernel)
  refine ⟨(fetched_check_iff (thatKey := none) (c := { parent := some 2, val := .str "1234" }) truthful rfl rfl this that hu).2 (.inr ⟨0, ⟨Nat.zero_lt_two, rfl, by decide +kernel⟩, by decide +kernel⟩), ?_⟩
  intro h
  rcases (fetched_check_iff (thatKey := none) (c := { parent := some 2, val := .str "9999" }) truthful rfl rfl this that hu).1 h with h | ⟨j, ⟨hj, -, h1⟩, h2⟩
  · cases h
  · unfold stored at hj
    rcases (show j = 0 ∨ j = 1 by omega) with rfl | rfl
    · revert h2; decide +kernel
    · revert h1; decide +kernel

/-- A user without an address may use the code of the record without an address: None equals None. -/
theorem missing_key_matches : (heap 3).attrs "email" = .none ∧
    (eqFetched base rt db "Code" "email" none "value").validate heap { parent := some 3, val := .str "9999" } = .ok () := ⟨rfl, rfl⟩

end JC.FetchDemo
