import Verif.Props.TrackInput
import Verif.Props.SaveMods

/-
C74 across saves: what an object reports after it was marked as saved. C64: write callbacks of
list items.
-/
namespace JC
variable {env : Env}

/-- `_mark_unmodified` is called by the ORM when an object was written: from then on the object is
persisted and reports no modification; no value, and no other object, changes. -/
theorem saved_is_clean (i : Nat) (w : World) : ∃ w₁, markUnmodified i w = (.ok (), w₁) ∧ (w₁.heap i).isNew = false ∧
    (w₁.heap i).isModified = false ∧ (w₁.heap i).modFields = [] ∧ (∀ n, dictGet (w₁.heap i).prev n = none) ∧
    (w₁.heap i).attrs = (w.heap i).attrs ∧ (w₁.heap i).cls = (w.heap i).cls ∧ (∀ j, j ≠ i → w₁.heap j = w.heap j) ∧ w₁.next = w.next := by
  refine ⟨_, rfl, ?_⟩
  refine ⟨by simp [World.upd], by simp [World.upd], by simp [World.upd], fun n => by simp [World.upd, dictGet], by simp [World.upd],
    by simp [World.upd], fun j hj => by simp [World.upd, hj], rfl⟩

/-- **C74**, across saves. After an object was saved and then changed by any completed program, a
field whose value or reference ids differ from what was saved is in `modified_fields`, unless it
is a single relation cleared from the other side; and if the object is modified, it names a field. -/
theorem changes_since_save (hd : SeparateNames env) (hu : PlainUnions env) {i : Nat} {w w₁ w' : World} (hi : i < w.next)
    (hs : markUnmodified i w = (.ok (), w₁)) (h : Program env w₁ w') {f : Field} (hf : f ∈ (env.cls (w.heap i).cls).fields) {a : String}
    (ha : KeptIn f a) (hc : (w'.heap i).attrs a ≠ (w.heap i).attrs a) :
    f.name ∈ (w'.heap i).modFields ∨ ClearedFrom env (w'.heap i) a := by
  obtain ⟨w₂, h1, h2, -, -, -, h3, h4, -, h5⟩ := saved_is_clean i w
  have : w₂ = w₁ := by
    have := h1.symm.trans hs
    simpa using this
  subst this
  exact program_changes_reported hd hu h (by rw [h5]; exact hi) h2 (by rw [h4]; exact hf) ha (by rw [h3]; exact hc)

/-- **C74**, the flag across saves: a saved object stays persisted, whatever it reported before it
was saved, and `is_modified` agrees with `modified_fields`, single relations by key excepted. -/
theorem flag_since_save (hd : SeparateNames env) (hu : PlainUnions env) {i : Nat} {w w₁ w' : World} (hi : i < w.next)
    (hs : markUnmodified i w = (.ok (), w₁)) (h : Program env w₁ w') :
    (w'.heap i).isNew = false ∧ ((w'.heap i).isModified = true → (w'.heap i).modFields ≠ []) ∧
    ∀ n ∈ (w'.heap i).modFields, (w'.heap i).isModified = true ∨ SingleKey env n := by
  obtain ⟨w₂, h1, h2, h3, h4, -, -, -, -, h5⟩ := saved_is_clean i w
  have : w₂ = w₁ := by
    have := h1.symm.trans hs
    simpa using this
  subst this
  have := program_modified_flag hd hu h (j := i) (by rw [h5]; exact hi) (by rw [h3, h4]; simp)
  exact ⟨this.2.2.2.2.trans h2, this.1, this.2.1⟩

/-- **C64**, write callbacks on the items of a list: they are called for every item of a new object,
and for none of a persisted object, modified or not: the item's position is never the name of a
modified field. -/
theorem onwrite_items (cb : Heap → Val → Ctx → Except Exc Unit) {c : Ctx} {p : Nat} {k : Int} {ks : List Key} (hp : c.parent = some p)
    (hk : c.keypathp = ks ++ [.i k]) (h : Heap) :
    ((h p).isNew = false → (onWriteLeaf cb).serialize h c = .ok c.val) ∧
    ((h p).isNew = true → (onWriteLeaf cb).serialize h c = (cb h c.val c).map (fun _ => c.val)) := by
  have ha : askedOf c = .ok (p, .i k) := by
    unfold askedOf
    rw [hp, hk]
    simp
  constructor
  · intro hn
    simp [onWriteLeaf, ha, hn]
  · intro hn
    simp only [onWriteLeaf, ha, hn, Bool.not_true, Bool.false_and, Bool.false_eq_true, if_false, thenVal]
    cases cb h c.val c <;> rfl

/-- Item 2 of a list of a persisted object, with a callback that always raises. -/
example : (onWriteLeaf (fun _ _ _ => .error .keyError)).serialize (fun _ => { isNew := false, isModified := true, modFields := ["tags"] })
    { val := .str "t", parent := some 0, keypathp := [.s "tags", .i 2] } = .ok (.str "t") :=
  (onwrite_items _ (p := 0) (k := 2) (ks := [.s "tags"]) rfl rfl _).1 rfl

end JC

namespace JC.TrackDemo
open JC

/-- The article is saved with its pending changes, then the program runs. -/
def dirtyWorld : World := (updObj 0 (fun o => { o with isModified := true, modFields := ["cover"], prev := [("cover", .none)] }) world).2
def savedWorld : World := (markUnmodified 0 dirtyWorld).2

example : (dirtyWorld.heap 0).modFields = ["cover"] ∧ (savedWorld.heap 0).modFields = [] := ⟨rfl, rfl⟩

theorem savedProgram : Program env savedWorld ((act₁.run env 3 savedWorld).2) :=
  .more (n := 3) (a := act₁) (fun _ _ h => by cases h) (completes_eq (by decide +kernel)) (.none _)

def isObj5 : Val → Bool
  | .obj 5 => true
  | _ => false

example : "cover" ∈ ((act₁.run env 3 savedWorld).2.heap 0).modFields ∨ ClearedFrom env ((act₁.run env 3 savedWorld).2.heap 0) "cover" :=
  changes_since_save (w := dirtyWorld) names plain (by decide) rfl savedProgram (f := fCover) (by simp [env, dirtyWorld, world, updObj, World.upd, art])
    (.inl rfl) (by
      have h1 : isObj5 (((act₁.run env 3 savedWorld).2.heap 0).attrs "cover") = true := by decide +kernel
      have h2 : isObj5 ((dirtyWorld.heap 0).attrs "cover") = false := by decide +kernel
      intro he
      rw [he, h2] at h1
      cases h1)

end JC.TrackDemo
