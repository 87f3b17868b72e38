import Verif.Props.InputKeys
import Verif.Props.Assign

/-
Construction (C27): what the fields of a new object hold.
-/
namespace JC
variable {env : Env}

/-! ### Specification -/

/-- the value given for a field: under its JSON name, or, if that is missing or None, under
its name -/
def givenValue (f : Field) (kvs : List (String × Val)) : Val :=
  match dictGet kvs f.jsonName with
  | some .none => (dictGet kvs f.name).getD .none
  | some v => v
  | none => (dictGet kvs f.name).getD .none

/-- the field can be written by the constructor -/
def WritableNew (f : Field) (kvs : List (String × Val)) : Prop :=
  f.writeRule ≠ .noWrite ∧ (f.writeRule = .writeNonnull → givenValue f kvs ≠ .none)

/-- the value for a blank: the default, or else what the modifiers make of a missing value -/
def BlankValue (env : Env) (f : Field) (v : Val) : Prop :=
  match f.default with
  | some d => v = d
  | none => TransformOf env f .none v

/-- the value of a field of a new object -/
def NewValue (env : Env) (f : Field) (kvs : List (String × Val)) (v : Val) : Prop :=
  (Given f kvs ∧ WritableNew f kvs → TransformOf env f (givenValue f kvs) v) ∧ (¬ (Given f kvs ∧ WritableNew f kvs) → BlankValue env f v)

/-! ### Proof -/

theorem getFieldValue_eq (f : Field) (kvs : List (String × Val)) : getFieldValue f kvs = givenValue f kvs := by
  unfold getFieldValue givenValue getD
  cases dictGet kvs f.jsonName with
  | none => rfl
  | some v => cases v <;> rfl

theorem bind_inv {α β : Type} {m : Py World α} {f : α → Py World β} {w w' : World} {b : β} (h : (m >>= f) w = (.ok b, w')) :
    ∃ a w₁, m w = (.ok a, w₁) ∧ f a w₁ = (.ok b, w') := by
  rw [Py.bind_run] at h
  rcases hm : m w with ⟨e | a, w₁⟩
  · rw [hm] at h; cases h
  · rw [hm] at h; exact ⟨a, w₁, rfl, h⟩

theorem pyEq_none {v : Val} (h : pyEq v .none = true) : v = .none := by
  cases v with
  | none => rfl
  | flt f => cases f <;> simp [pyEq] at h
  | _ => simp [pyEq] at h

/-- assigning to a plain field that holds None stores the value -/
theorem setAttr_blank {w w' : World} {i : Nat} {f : Field} {v : Val} (hp : (w.cdef env i).field? f.name = some f)
    (hm : ¬ RelName env f.name) (hf : f ∈ (w.cdef env i).fields) (hc : f.store ≠ .calculated) (h0 : w.attr i f.name = .none)
    (h : setAttr env i f.name v w = (.ok (), w')) : w'.attr i f.name = v := by
  have hl : (w.cdef env i).localKey? f.name = none := by
    cases hl : (w.cdef env i).localKey? f.name with
    | none => rfl
    | some g =>
      obtain ⟨h1, h2, h3⟩ := localKey_mem hl
      exact absurd (h3 ▸ relName_ref h1) hm
  have hr : f.isRef = false := by
    cases hr : f.isRef with
    | false => rfl
    | true => exact absurd ⟨_, f, hf, .inl ⟨hr, rfl⟩⟩ hm
  by_cases hfuel : env.fuel = 0
  · exfalso
    unfold setAttr at h
    rw [Py.bind_run, Py.get_run] at h
    simp only [hl, setField, hfuel, runL] at h
    cases h
  · obtain ⟨g, hg, hrun⟩ := plain_set_run (v := v) hfuel ⟨f, hp, hl, hr, hc⟩
    rw [hrun] at h
    cases h
    have hgf : g = f := Option.some.inj (hg.symm.trans hp)
    subst hgf
    simp only [World.attr, World.upd, if_true]
    unfold World.attr at h0
    rw [opObj_attrs (op := .set g.name v) _ _ (⟨g, hp, hl, hr, hc⟩ : PlainField _ _)]
    simp only [valueAfter, h0, true_and]
    split
    · rfl
    · rename_i he
      exact (pyEq_none (by simpa using he)).symm

theorem transformFields_append {ops : Field → Ops World} {c : Ctx} {dest : Nat} {soft : Bool} {kvs : List (String × Val)} (pre post : List Field) :
    ∀ {w w' : World}, transformFields env ops c dest soft kvs (pre ++ post) w = (.ok (), w') →
      ∃ w₁, transformFields env ops c dest soft kvs pre w = (.ok (), w₁) ∧ transformFields env ops c dest soft kvs post w₁ = (.ok (), w') := by
  induction pre with
  | nil => intro w w' h; exact ⟨w, rfl, h⟩
  | cons f pre ih =>
    intro w w' h
    obtain ⟨⟨⟩, w₂, h1, h2⟩ := bind_inv h
    obtain ⟨w₁, h3, h4⟩ := ih h2
    refine ⟨w₁, ?_, h4⟩
    simp only [transformFields]
    rw [Py.bind_run, h1]
    exact h3

/-- **C27**: when a constructor call without a primary key among its arguments succeeds, a
stored field that takes no part in a relation holds: if it is given and writable, its
transformed input; otherwise its default or, without a default, what its modifiers produce
for a missing value. A readonly field never holds an input value.

Missing from the full statement: calls with a primary key among the arguments, where a nested
dict with the same key writes to the new object itself (`new_with_key_overwritten`). -/
theorem new_fields_partial (hE : EagerSafe env) {cls : String} {kvs : List (String × Val)} {w w' : World} {n i : Nat}
    (h : apiNew env n cls kvs w = (.ok i, w')) (hpk : ∀ p, (env.cls cls).primary = some p → getD kvs p = .none)
    (hd : ((env.cls cls).fields.map Field.name).Nodup) {f : Field} (hf : f ∈ (env.cls cls).fields) (hm : ¬ RelName env f.name)
    (hc : f.store ≠ .calculated) : NewValue env f kvs (w'.attr i f.name) := by
  have hnone : inputPk env cls kvs = .none := by
    unfold inputPk
    cases hp : (env.cls cls).primary with
    | none => rfl
    | some p => exact hpk p hp
  unfold apiNew newObj at h
  split at h
  · cases h
  obtain ⟨i', wa, ha, h⟩ := bind_inv h
  obtain ⟨⟨⟩, wb, hb, h⟩ := bind_inv h
  obtain ⟨⟨⟩, wc, hgp, h⟩ := bind_inv h
  simp only [Py.pure_run, Prod.mk.injEq, Except.ok.injEq] at h
  obtain ⟨rfl, rfl⟩ := h
  -- the fresh object
  have hi : i' = w.next := by
    simp only [alloc, Prod.mk.injEq, Except.ok.injEq] at ha; exact ha.1.symm
  subst hi
  have hwa : wa = (alloc env cls w).2 := by rw [ha]
  have hacls : (wa.heap w.next).cls = cls := by rw [hwa]; simp [alloc, freshObj]
  have hanext : wa.next = w.next + 1 := by rw [hwa]; rfl
  have haattr : wa.attr w.next f.name = .none := by
    rw [hwa]
    simp only [alloc, World.attr, if_true, freshObj]
    cases hl : (env.cls cls).localKey? f.name with
    | none => rfl
    | some g =>
      have h1 := List.mem_of_find?_eq_some hl
      have h2 : g.refName = f.name := by have := List.find?_some hl; simp at this; exact this.2
      exact absurd (h2 ▸ relName_ref h1) hm
  have hr : f.isRef = false := by
    cases hr : f.isRef with
    | false => rfl
    | true => exact absurd ⟨_, f, hf, .inl ⟨hr, rfl⟩⟩ hm
  -- invariants
  have CI := fun S => fieldInv_in (env := env) (n₀ := w.next + 1) (i := w.next) (cls₀ := cls) (m := f.name) (S := S) (Nat.lt_succ_self _) hm
  suffices hwb : FieldInv (w.next + 1) w.next cls f.name (NewValue env f kvs) wb by
    have := (kp_graphPutSelf (CI _).toLinkClosed w.next wb hwb).1
    rw [hgp] at this
    exact this.2.2
  -- the input
  unfold setDict at hb
  obtain ⟨wx, wx', hg, hb1⟩ := bind_inv hb
  clear hb
  rw [Py.get_run] at hg
  simp only [Prod.mk.injEq, Except.ok.injEq] at hg
  obtain ⟨rfl, rfl⟩ := hg
  obtain ⟨v, wd, hb, hb'⟩ := bind_inv hb1
  clear hb1
  simp only [Py.pure_run, Prod.mk.injEq, true_and] at hb'
  subst hb'
  unfold withFreshMarks at hb
  cases n with
  | zero => cases hb
  | succ n =>
  rw [hacls, root_transform, hnone] at hb
  generalize hctx : rootCtx wa w.next { fillBlanks := true, allFields := some false } (.dict kvs) = c at hb
  have hcfill : c.cfg.fillBlanks = true := by rw [← hctx]; rfl
  rcases hT : (pyWhen (!Val.none.isNone) (Py.modify (fun w_1 => w_1.markPutp env .none w.next)) >>= fun _ =>
        applyDict env (Field.ops env (instOps env n)) cls none c w.next false kvs >>= fun _ => (pure (.obj w.next) : Py World Val))
        { wa with marks := [] } with ⟨r, we⟩
  rw [hT] at hb
  simp only [Prod.mk.injEq] at hb
  obtain ⟨rfl, rfl⟩ := hb
  obtain ⟨⟨⟩, w₀, h0, hT⟩ := bind_inv hT
  have hw0 : w₀ = { wa with marks := [] } := by
    simp only [pyWhen, Val.isNone, Bool.not_true, Bool.false_eq_true, if_false, Py.pure_run, Prod.mk.injEq, true_and] at h0
    exact h0.symm
  subst hw0
  obtain ⟨⟨⟩, we', hA, hT⟩ := bind_inv hT
  simp only [Py.pure_run, Prod.mk.injEq, Except.ok.injEq] at hT
  obtain ⟨_, rfl⟩ := hT
  suffices hwe : FieldInv (w.next + 1) w.next cls f.name (NewValue env f kvs) we' from hwe
  unfold applyDict at hA
  obtain ⟨wg, wg', hg, hA⟩ := bind_inv hA
  rw [Py.get_run] at hg
  simp only [Prod.mk.injEq, Except.ok.injEq] at hg
  obtain ⟨rfl, rfl⟩ := hg
  have hcd : World.cdef env { wa with marks := [] } w.next = env.cls cls := by
    unfold World.cdef; rw [show (({ wa with marks := [] } : World).heap w.next).cls = cls from hacls]
  rw [hcd] at hA
  obtain ⟨⟨⟩, w₁, hS, hA⟩ := bind_inv hA
  have hw1 : w₁ = { wa with marks := [] } := by
    unfold pyWhen at hS
    split at hS
    · unfold readW at hS
      simp only [Prod.mk.injEq] at hS
      exact hS.2.symm
    · simp only [Py.pure_run, Prod.mk.injEq, true_and] at hS
      exact hS.symm
  subst hw1
  obtain ⟨⟨⟩, w₂, hF, hL⟩ := bind_inv hA
  -- the field loop
  have hv := fun S => newOriginal_visKp (CI S) (kp_instTransform_new (CI S) hE n)
  have hops : ∀ S, ∀ g ∈ (env.cls cls).fields, ∀ c' : Ctx, c'.original = none →
      Kp' (WithNew (w.next + 1) (FieldInv (w.next + 1) w.next cls f.name S)) ((g.ops env (instOps env n)).transform c') :=
    fun S g hg c' ho => kp_field_transform (hv S) (hE cls g hg) (by intro o h; rw [ho] at h; cases h)
  have hother : ∀ S, ∀ gs : List Field, (∀ g ∈ gs, g ∈ (env.cls cls).fields ∧ g.name ≠ f.name) →
      Kp' (WithNew (w.next + 1) (FieldInv (w.next + 1) w.next cls f.name S))
        (transformFields env (Field.ops env (instOps env n)) c w.next false kvs gs) := by
    intro S gs hgs
    refine kp_transformFields _ _ _ _ _ _ (fun g hg => ?_)
    refine kp_transformField_free (withNew_link (CI S)) (hgs g hg).1 (fun c' ho _ => hops S g (hgs g hg).1 c' ho) (fun _ v wz hz => ?_)
    refine ⟨⟨⟨hz.1.1, by rw [rawSet_cls]; exact hz.1.2.1, ?_⟩, hz.2⟩, fun _ _ => trivial⟩
    rw [rawSet_attr, if_neg]
    · exact hz.1.2.2
    · rintro ⟨_, he⟩; exact (hgs g hg).2 he.symm
  obtain ⟨pre, post, hsplit⟩ := List.append_of_mem hf
  have hne : (∀ g ∈ pre, g ∈ (env.cls cls).fields ∧ g.name ≠ f.name) ∧ (∀ g ∈ post, g ∈ (env.cls cls).fields ∧ g.name ≠ f.name) := by
    rw [hsplit] at hd ⊢
    rw [List.map_append, List.map_cons, List.nodup_append] at hd
    obtain ⟨_, h2, h3⟩ := hd
    rw [List.nodup_cons] at h2
    constructor
    · intro g hg
      exact ⟨by simp [hg], fun he => h3 g.name (List.mem_map_of_mem hg) f.name (by simp) he⟩
    · intro g hg
      exact ⟨by simp [hg], fun he => h2.1 (he ▸ List.mem_map_of_mem hg)⟩
  have hfind : (env.cls cls).field? f.name = some f := by
    unfold ClassDef.field?
    rw [hsplit, List.find?_append, List.find?_eq_none.2 (by intro g hg; simpa using (hne.1 g hg).2)]
    simp
  rw [hsplit] at hF
  obtain ⟨w₃, hpre, hF⟩ := transformFields_append pre (f :: post) hF
  have i3 := (hother (fun v => v = .none) pre hne.1 { wa with marks := [] } ⟨⟨by rw [show ({ wa with marks := [] } : World).next = wa.next from rfl, hanext]; exact Nat.le_refl _,
    hacls, haattr⟩, by intro e he; cases he⟩).1
  rw [hpre] at i3
  obtain ⟨⟨⟩, w₄, hf4, hF⟩ := bind_inv hF
  suffices i4 : WithNew (w.next + 1) (FieldInv (w.next + 1) w.next cls f.name (NewValue env f kvs)) w₄ by
    have i2 := (hother _ post hne.2 _ i4).1
    rw [hF] at i2
    have := (kp_fillRefLists (dest := w.next) (withNew_link (CI (NewValue env f kvs)))
      (nonnullRefLists kvs (env.cls cls).fields)
      (fun m hm' v => Kp.rawRel (withNew_link (CI _)) (nonnullRefLists_rel (fun _ h => h) hm')) w₂ i2).1
    rw [hL] at this
    exact this.1
  -- the field itself
  have hset : ∀ v wz wz', WithNew (w.next + 1) (FieldInv (w.next + 1) w.next cls f.name (fun v => v = .none)) wz →
      setAttr env w.next f.name v wz = (.ok (), wz') → WithNew (w.next + 1) (FieldInv (w.next + 1) w.next cls f.name (fun v' => v' = v)) wz' := by
    intro v wz wz' hz hrun
    have hk : Kp' (WithNew (w.next + 1) (FieldInv (w.next + 1) w.next cls f.name (fun _ => True))) (setAttr env w.next f.name v) := by
      refine kp_setAttr (withNew_link (CI _)) (fun wy hy => ⟨⟨⟨hy.1.1, by rw [rawSet_cls]; exact hy.1.2.1, trivial⟩, hy.2⟩, fun _ _ => trivial⟩)
    have := (hk wz ⟨⟨hz.1.1, hz.1.2.1, trivial⟩, hz.2⟩).1
    rw [hrun] at this
    have hcd : World.cdef env wz w.next = env.cls cls := by unfold World.cdef; rw [hz.1.2.1]
    exact ⟨⟨this.1.1, this.1.2.1, setAttr_blank (by rw [hcd]; exact hfind) hm (by rw [hcd]; exact hf) hc hz.1.2.2 hrun⟩, this.2⟩
  have hmono : ∀ {S S' : Val → Prop} {wz : World}, (∀ v, S v → S' v) → WithNew (w.next + 1) (FieldInv (w.next + 1) w.next cls f.name S) wz →
      WithNew (w.next + 1) (FieldInv (w.next + 1) w.next cls f.name S') wz :=
    fun hS hz => ⟨⟨hz.1.1, hz.1.2.1, hS _ hz.1.2.2⟩, hz.2⟩
  have hblank : fillDefault env (Field.ops env (instOps env n)) c w.next f w₃ = (.ok (), w₄) →
      WithNew (w.next + 1) (FieldInv (w.next + 1) w.next cls f.name (BlankValue env f)) w₄ := by
    intro hfd
    unfold fillDefault at hfd
    cases hdef : f.default with
    | some d =>
      rw [hdef] at hfd
      refine hmono (fun v hv => ?_) (hset d w₃ w₄ i3 hfd)
      unfold BlankValue; rw [hdef]; exact hv
    | none =>
      rw [hdef] at hfd
      obtain ⟨wy, wy', hg, hfd1⟩ := bind_inv hfd
      rw [Py.get_run] at hg
      simp only [Prod.mk.injEq, Except.ok.injEq] at hg
      obtain ⟨rfl, rfl⟩ := hg
      obtain ⟨ek, wy', hek, hfd2⟩ := bind_inv hfd1
      have hwy : wy' = w₃ := by
        unfold readW at hek
        simp only [Prod.mk.injEq] at hek
        exact hek.2.symm
      subst hwy
      obtain ⟨t, w₅, ht, hs⟩ := bind_inv hfd2
      have i5 := (hops (fun v => v = .none) f hf (c.dflt c.original f.name ek ((wy'.heap w.next).cls, f.name)) rfl wy' i3).1
      rw [ht] at i5
      refine hmono (fun v hv => ?_) (hset t w₅ w₄ i5 hs)
      unfold BlankValue
      rw [hdef, hv]
      exact ⟨n, _, wy', w₅, rfl, ht⟩
  have hnew : hasFieldValue f kvs = true ↔ Given f kvs := hasFieldValue_iff f kvs
  unfold transformField at hf4
  split at hf4
  · rename_i hp
    have hgiven := hnew.1 hp
    unfold presentField at hf4
    obtain ⟨cur, wy, hcur, hf5⟩ := bind_inv hf4
    have hwy : wy = w₃ ∧ (f.writeRule = .writeOnce → cur = .none) := by
      unfold readW at hcur
      simp only [Prod.mk.injEq] at hcur
      refine ⟨hcur.2.symm, fun ho => ?_⟩
      have h1 := hcur.1
      rw [if_pos ho] at h1
      have hcd : World.cdef env w₃ w.next = env.cls cls := by unfold World.cdef; rw [i3.1.2.1]
      unfold World.getattr at h1
      rw [hcd, hfind] at h1
      simp only [if_neg hc, Except.ok.injEq] at h1
      rw [← h1]
      exact i3.1.2.2
    obtain ⟨rfl, hcn⟩ := hwy
    rw [getFieldValue_eq] at hf5
    by_cases hal : allowWrite f cur (givenValue f kvs) = true
    · rw [if_pos hal] at hf5
      have hwr : WritableNew f kvs := by
        unfold allowWrite at hal
        refine ⟨fun he => (by rw [he] at hal; cases hal), fun he hn => ?_⟩
        rw [he, hn] at hal
        cases hal
      obtain ⟨wx, wx', hg, hf6⟩ := bind_inv hf5
      rw [Py.get_run] at hg
      simp only [Prod.mk.injEq, Except.ok.injEq] at hg
      obtain ⟨rfl, rfl⟩ := hg
      obtain ⟨ek, wy', hek, hf7⟩ := bind_inv hf6
      have hwy : wy' = wy := by
        unfold readW at hek
        simp only [Prod.mk.injEq] at hek
        exact hek.2.symm
      subst hwy
      obtain ⟨t, w₅, ht, hs⟩ := bind_inv hf7
      have i5 := (hops (fun v => v = .none) f hf (c.nextvo (givenValue f kvs) f.name ek ((wy'.heap w.next).cls, f.name) w.next) rfl wy' i3).1
      rw [ht] at i5
      unfold pyWhen at hs
      rw [if_pos (by simpa using hc)] at hs
      refine hmono (fun v hv => ?_) (hset t w₅ w₄ i5 hs)
      refine ⟨fun _ => ?_, fun hno => absurd ⟨hgiven, hwr⟩ hno⟩
      rw [hv]
      exact ⟨n, _, wy', w₅, rfl, ht⟩
    · rw [if_neg hal] at hf5
      rw [if_pos (by simp [hcfill, hc])] at hf5
      refine hmono (fun v hv => ⟨fun hwr => ?_, fun _ => hv⟩) (hblank hf5)
      refine absurd ?_ hal
      unfold allowWrite
      cases hrule : f.writeRule with
      | unlimited => rfl
      | noWrite => exact absurd hrule hwr.2.1
      | writeOnce => simp only [hcn hrule]; rfl
      | writeNonnull =>
        have := hwr.2.2 hrule
        simp only []
        cases hgv : givenValue f kvs <;> first | rfl | exact absurd hgv this
  · rename_i hp
    unfold absentField at hf4
    rw [hr] at hf4
    simp only [Bool.false_eq_true, if_false] at hf4
    rw [if_pos (by simp [hcfill, hc])] at hf4
    exact hmono (fun v hv => ⟨fun hg => absurd (hnew.2 hg.1) hp, fun _ => hv⟩) (hblank hf4)

end JC

namespace JC.ConstructDemo
open JC
open JC.Demo (fId optStr attrsOf)
open JC.InputDemo (fTitle fCode fOnce)

/-- a title, a readonly code with a default, a write-once field and a nested note -/
def fSub : Field := { name := "sub", jsonName := "sub", ftype := .inst, isInst := true, chain := [.instOf "Note" none] }
def note : ClassDef where
  name := "Note"
  primary := some "id"
  fields := [fId, fTitle, fCode, fOnce, fSub]

def env : Env where
  cls := fun n => if n = "Note" then note else {}
  pystr := fun v => match v with
    | .str s => s
    | _ => ""

theorem env_all (P : Field → Prop) (h1 : ∀ f ∈ note.fields, P f) : ∀ cls, ∀ f ∈ (env.cls cls).fields, P f := by
  intro cls f h
  simp only [env] at h
  split at h
  · exact h1 f h
  · cases h

theorem eagerSafe : EagerSafe env := by
  refine env_all _ ?_
  simp only [note, List.forall_mem_cons]
  refine ⟨?_, ?_, ?_, ?_, ?_, by simp⟩ <;> exact ⟨trivial, trivial, trivial⟩

theorem plain {m : String} (h : m = "title" ∨ m = "code" ∨ m = "once") : ¬ RelName env m := by
  have key : ∀ cls, ∀ f ∈ (env.cls cls).fields, (env.foreignField f).isNone = true ∧ (f.isRef = true → m ≠ f.name) ∧ m ≠ f.refName := by
    rcases h with rfl | rfl | rfl <;> exact env_all _ (by decide)
  rintro ⟨c, f, hf, h1⟩
  obtain ⟨h2, h3, h4⟩ := key c f hf
  rcases h1 with ⟨hr, rfl⟩ | rfl | ⟨_, of, ho, _⟩
  · exact h3 hr rfl
  · exact h4 rfl
  · rw [ho] at h2; cases h2

theorem fields_nodup : ((env.cls "Note").fields.map Field.name).Nodup := by decide

/-- a title, a code (readonly, so the default is used), a nested note and nothing for the rest -/
def given : List (String × Val) := [("title", .str "a"), ("code", .str "x"), ("sub", .dict [("title", .str "b")])]

/-- readings of a value that can be decided -/
def strOf : Val → Option String
  | .str s => some s
  | _ => Option.none
def isNil : Val → Bool
  | .none => true
  | _ => false
theorem str_of {v : Val} {s : String} (h : strOf v = some s) : v = .str s := by
  cases v <;> first | (cases h; done) | (cases h; rfl)
theorem nil_of {v : Val} (h : isNil v = true) : v = .none := by
  cases v <;> first | rfl | cases h

theorem ok_of {α : Type} {p : Except Exc α × World} {a : α} (h : p.1.toOption = some a) : p = (.ok a, p.2) := by
  obtain ⟨r, w⟩ := p
  cases r with
  | error e => cases h
  | ok b => cases h; rfl

theorem given_ok : apiNew env 5 "Note" given {} = (.ok 0, (apiNew env 5 "Note" given {}).2) := ok_of (by decide +kernel)

/-- the given title is used -/
example : ∃ c w w', c.val = .str "a" ∧ ∃ n, ((fTitle).ops env (instOps env n)).transform c w = (.ok ((apiNew env 5 "Note" given {}).2.attr 0 "title"), w') := by
  obtain ⟨n, c, w, w', h1, h2⟩ := (new_fields_partial (f := fTitle) eagerSafe given_ok (by intro p hp; cases hp; rfl) fields_nodup
    (by simp [env, note]) (plain (by simp [fTitle])) (by decide)).1 ⟨.inl (by simp [given, fTitle]), by decide, by intro h; cases h⟩
  exact ⟨c, w, w', h1, n, h2⟩

/-- the readonly field gets its default, not the input -/
example : (apiNew env 5 "Note" given {}).2.attr 0 "code" = .str "c0" :=
  (new_fields_partial (f := fCode) eagerSafe given_ok (by intro p hp; cases hp; rfl) fields_nodup
    (by simp [env, note]) (plain (by simp [fCode])) (by decide)).2 (fun h => h.2.1 rfl)

/-- a constructor call that names the primary key -/
def givenKey : List (String × Val) :=
  [("id", .str "d9"), ("title", .str "a"), ("once", .str "o"), ("sub", .dict [("id", .str "d9"), ("title", .str "b"), ("once", .str "x")])]

/-- **Violation of C27 with a primary key among the keys**: a nested dict with the same key is
taken for the new object itself. Its title replaces the given one, and the write-once field
is reset to its default, since the constructor fills blanks where a write is not allowed. -/
theorem new_with_key_overwritten :
    (apiNew env 5 "Note" givenKey {}).1.toOption = some 0 ∧
      (apiNew env 5 "Note" givenKey {}).2.attr 0 "title" = .str "b" ∧ givenValue fTitle givenKey = .str "a" ∧
      (apiNew env 5 "Note" givenKey {}).2.attr 0 "once" = .none ∧ givenValue fOnce givenKey = .str "o" :=
  ⟨by decide +kernel, str_of (by decide +kernel), rfl, nil_of (by decide +kernel), rfl⟩

end JC.ConstructDemo
