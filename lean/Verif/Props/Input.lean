import Verif.Props.InputFrame
import Verif.Props.Demo

/-
Input: write rules (C24-C26) and the reach of `set` (C23), over any sequence of calls on
any objects.
-/
namespace JC
variable {env : Env}

/-! ### Specification -/

/-- A call of the input API with plain (single key) arguments. -/
inductive Call where
  /-- `obj.set(**kvs)` on the object `i` -/
  | set (i : Nat) (kvs : List (String × Val))
  /-- `Cls(**kvs)` -/
  | new (cls : String) (kvs : List (String × Val))

/-- The objects after a call; the caller catches the exception, if any. `n` is the
recursion limit. -/
def Call.run (env : Env) (n : Nat) : Call → World → World
  | .set i kvs, w => (apiSet env n i kvs w).2
  | .new cls kvs, w => (apiNew env n cls kvs w).2

/-- The objects after a sequence of calls. -/
def runCalls (env : Env) (n : Nat) (cs : List Call) (w : World) : World := cs.foldl (fun w c => c.run env n w) w

/-- All fields called `m` of the class are stored fields with write rule `r`. -/
def HasRule (cd : ClassDef) (m : String) (r : WriteRule) : Prop :=
  ∀ f ∈ cd.fields, f.name = m → f.writeRule = r ∧ f.store ≠ .calculated

/-! ### One field of one object -/

/-- the object `i` has its class and the value of `m` satisfies `S` -/
def FieldInv (n₀ i : Nat) (cls₀ m : String) (S : Val → Prop) (w : World) : Prop :=
  n₀ ≤ w.next ∧ (w.heap i).cls = cls₀ ∧ S (w.attr i m)

theorem rawSet_attr (i j : Nat) (n m : String) (v : Val) (w : World) :
    (rawSet i n v w).2.attr j m = if j = i ∧ m = n then v else w.attr j m := by
  simp only [rawSet, updObj, Py.modify, World.attr, World.upd]
  by_cases hj : j = i
  · subst hj; simp
  · simp [hj]

theorem rawSet_cls (i j : Nat) (n : String) (v : Val) (w : World) : ((rawSet i n v w).2.heap j).cls = (w.heap j).cls := by
  simp only [rawSet, updObj, Py.modify, World.upd]
  by_cases hj : j = i
  · subst hj; simp
  · simp [hj]

theorem rawSet_next (i : Nat) (n : String) (v : Val) (w : World) : (rawSet i n v w).2.next = w.next := rfl

theorem alloc_heap {cls : String} {w : World} {j : Nat} (h : j ≠ w.next) : (alloc env cls w).2.heap j = w.heap j := by
  simp [alloc, h]

theorem fieldInv_in {n₀ i : Nat} {cls₀ m : String} {S : Val → Prop} (hi : i < n₀) (hm : ¬ RelName env m) :
    InClosed env n₀ (FieldInv n₀ i cls₀ m S) where
  quiet := by
    intro w w' h hq
    obtain ⟨h1, h2, h3⟩ := h
    obtain ⟨q1, _, q3⟩ := hq
    refine ⟨by rw [q1]; exact h1, by rw [(q3 i).1]; exact h2, ?_⟩
    unfold World.attr
    rw [(q3 i).2.1]
    exact h3
  rel := by
    intro w j n v hn h
    refine ⟨h.1, by rw [rawSet_cls]; exact h.2.1, ?_⟩
    rw [rawSet_attr, if_neg]
    · exact h.2.2
    · rintro ⟨_, rfl⟩; exact hm hn
  marks := fun w ms h => h
  new := by
    intro w j n v hj h
    refine ⟨h.1, by rw [rawSet_cls]; exact h.2.1, ?_⟩
    rw [rawSet_attr, if_neg]
    · exact h.2.2
    · rintro ⟨rfl, _⟩; omega
  alloc := by
    intro w cls h
    have hne : i ≠ w.next := by have := h.1; omega
    refine ⟨?_, ?_, ?_⟩
    · have : (alloc env cls w).2.next = w.next + 1 := rfl
      have := h.1; omega
    · rw [alloc_heap hne]; exact h.2.1
    · unfold World.attr; rw [alloc_heap hne]; exact h.2.2
  next := fun w h => h.1

/-- the write rules, for one field of one object -/
theorem fieldInv_write {n₀ i : Nat} {cls₀ m : String} {S : Val → Prop} (hi : i < n₀) (hm : ¬ RelName env m)
    (hS : ∀ f ∈ (env.cls cls₀).fields, f.name = m → f.store ≠ .calculated → ∀ cur new t,
      (f.writeRule = .writeOnce → ∃ w, FieldInv n₀ i cls₀ m S w ∧ w.getattr env i m = .ok cur) →
      allowWrite f cur new = true → TransformOf env f new t → S t) :
    WriteClosed env n₀ (FieldInv n₀ i cls₀ m S) where
  toInClosed := fieldInv_in hi hm
  write := by
    intro w₀ w₁ w₂ dest f cur new t h0 h1 h2 hf hs ho hal ht
    refine ⟨h2.1, by rw [rawSet_cls]; exact h2.2.1, ?_⟩
    rw [rawSet_attr]
    split
    · rename_i he
      obtain ⟨rfl, rfl⟩ := he
      have hf' : f ∈ (env.cls cls₀).fields := by
        have := h0.2.1
        unfold World.cdef at hf
        rw [this] at hf
        exact hf
      exact hS f hf' rfl hs cur new t (fun h => ⟨w₁, h1, ho h⟩) hal ht
    · exact h2.2.2

/-- sequences of calls -/
theorem runCalls_keeps {n₀ : Nat} {I : World → Prop} (C : WriteClosed env n₀ I) (hE : EagerSafe env) (n : Nat) (cs : List Call) :
    ∀ {w : World}, I w → I (runCalls env n cs w) := by
  induction cs with
  | nil => intro w h; exact h
  | cons c cs ih =>
    intro w h
    refine ih (w := c.run env n w) ?_
    cases c with
    | set i kvs => exact (kp_apiSet C hE n i kvs w h).1
    | new cls kvs => exact (kp_apiNew C.toInClosed hE n cls kvs w h).1

/-! ### C24: readonly and internal fields -/

/-- **C24**: a stored field with write rule no-write that takes no part in a relation keeps
its value through any sequence of `set()` and constructor calls, on any objects, with any
(nested) input, whether or not the calls raise.

Missing from the full statement: relation fields, for which it fails
(`readonly_relation_written`). -/
theorem readonly_kept_partial (hE : EagerSafe env) {w : World} {i : Nat} (hi : i < w.next) {m : String} (hm : ¬ RelName env m)
    (hr : HasRule (w.cdef env i) m .noWrite) (n : Nat) (cs : List Call) :
    (runCalls env n cs w).attr i m = w.attr i m := by
  have C : WriteClosed env w.next (FieldInv w.next i (w.heap i).cls m (fun v => v = w.attr i m)) := by
    refine fieldInv_write hi hm (fun f hf hn _ cur new t _ hal _ => ?_)
    have := (hr f hf hn).1
    unfold allowWrite at hal
    rw [this] at hal
    cases hal
  exact (runCalls_keeps C hE n cs ⟨Nat.le_refl _, rfl, rfl⟩).2.2

/-! ### C25: writeonce fields -/

theorem getattr_stored {w : World} {i : Nat} {m : String} (h : ∀ f ∈ (w.cdef env i).fields, f.name = m → f.store ≠ .calculated) :
    w.getattr env i m = .ok (w.attr i m) := by
  unfold World.getattr
  cases hf : (w.cdef env i).field? m with
  | none => rfl
  | some f =>
    have h1 := List.mem_of_find?_eq_some hf
    have h2 : f.name = m := by have := List.find?_some hf; simpa using this
    simp only [if_neg (h f h1 h2)]

/-- **C25**: once a writeonce field (not part of a relation) holds a value other than None,
no sequence of `set()` and constructor calls changes it.

Missing from the full statement: relation fields (`writeonce_relation_rewritten`). -/
theorem writeonce_kept_partial (hE : EagerSafe env) {w : World} {i : Nat} (hi : i < w.next) {m : String} (hm : ¬ RelName env m)
    (hr : HasRule (w.cdef env i) m .writeOnce) (hv : w.attr i m ≠ .none) (n : Nat) (cs : List Call) :
    (runCalls env n cs w).attr i m = w.attr i m := by
  have C : WriteClosed env w.next (FieldInv w.next i (w.heap i).cls m (fun v => v = w.attr i m)) := by
    refine fieldInv_write hi hm (fun f hf hn _ cur new t ho hal _ => ?_)
    have hw := (hr f hf hn).1
    obtain ⟨w', hI, hc⟩ := ho hw
    rw [getattr_stored (by
      intro g hg
      unfold World.cdef at hg
      rw [hI.2.1] at hg
      exact fun hn => (hr g hg hn).2)] at hc
    unfold allowWrite at hal
    rw [hw] at hal
    simp only [Except.ok.injEq] at hc
    rw [hI.2.2] at hc
    subst hc
    cases hv' : w.attr i m <;> rw [hv'] at hal <;> first | exact absurd hv' hv | cases hal
  exact (runCalls_keeps C hE n cs ⟨Nat.le_refl _, rfl, rfl⟩).2.2

/-! ### C26: writenonnull fields -/

/-- the transforms of the field do not turn other values into None -/
def KeepsNonNull (env : Env) (f : Field) : Prop := ∀ new t, new ≠ .none → TransformOf env f new t → t ≠ .none

/-- **C26**: a writenonnull field (not part of a relation) that holds a value other than
None never becomes None by any sequence of `set()` and constructor calls, given that its
transforms do not return None for other values. -/
theorem writenonnull_kept_partial (hE : EagerSafe env) {w : World} {i : Nat} (hi : i < w.next) {m : String} (hm : ¬ RelName env m)
    (hr : HasRule (w.cdef env i) m .writeNonnull) (ht : ∀ f ∈ (w.cdef env i).fields, f.name = m → KeepsNonNull env f)
    (hv : w.attr i m ≠ .none) (n : Nat) (cs : List Call) : (runCalls env n cs w).attr i m ≠ .none := by
  have C : WriteClosed env w.next (FieldInv w.next i (w.heap i).cls m (fun v => v ≠ .none)) := by
    refine fieldInv_write hi hm (fun f hf hn _ cur new t _ hal htr => ht f hf hn new t ?_ htr)
    rintro rfl
    unfold allowWrite at hal
    rw [(hr f hf hn).1] at hal
    cases hal
  exact (runCalls_keeps C hE n cs ⟨Nat.le_refl _, rfl, hv⟩).2.2

/-- an effect-free modifier that does not return None for other values -/
def Leaf.NonNull (l : Leaf) : Prop := ∀ h c v, c.val ≠ .none → l.transform h c = .ok v → v ≠ .none

mutual
/-- the effect-free modifiers of a chain, and of the alternatives of its unions, do not
return None for other values -/
def Mod.NonNull : Mod → Prop
  | .leaf l => l.NonNull
  | .union alts => Mod.NonNullA alts
  | _ => True
def Mod.NonNullL : List Mod → Prop
  | [] => True
  | m :: ms => m.NonNull ∧ Mod.NonNullL ms
def Mod.NonNullA : List (List Mod) → Prop
  | [] => True
  | a :: as => Mod.NonNullL a ∧ Mod.NonNullA as
end

theorem res_inst (n : Nat) (cls : String) (st : Option Bool) (c : Ctx) (hc : c.val ≠ .none) :
    Kp (fun _ => True) ((instOps env n cls st).transform c) (fun t => t ≠ .none) := by
  have triv : ∀ {α : Type} (m : Py World α), Kp' (fun _ => True) m := fun m w _ => ⟨trivial, fun _ _ => trivial⟩
  cases n with
  | zero => exact Kp.raise _
  | succ n =>
    simp only [instOps, instTransform]
    split
    · rename_i h; exact absurd h hc
    · exact (triv _).bind' (fun d => (triv _).bind' (fun _ => Kp.pure (by intro h; cases h)))
    · refine Kp.pure ?_
      cases c.original with
      | some o => intro h; cases h
      | none => simpa using hc

theorem res_reduceM {f : Ops World → Val → Py World Val} (ms : List (Ops World))
    (h : ∀ m ∈ ms, ∀ v, v ≠ .none → Kp (fun _ => True) (f m v) (fun t => t ≠ .none)) :
    ∀ v, v ≠ .none → Kp (fun _ => True) (reduceM f ms v) (fun t => t ≠ .none) := by
  induction ms with
  | nil => intro v hv; exact Kp.pure hv
  | cons m ms ih => intro v hv; exact (h m (by simp) v hv).bind (fun v' hv' => ih (fun m' h' => h m' (by simp [h'])) v' hv')

mutual
theorem res_den (n : Nat) : ∀ (m : Mod), m.NonNull → ∀ c, c.val ≠ .none →
    Kp (fun _ => True) ((m.den env (instOps env n)).transform c) (fun t => t ≠ .none)
  | .eager, _, c, hc => Kp.pure hc
  | .pre, _, c, hc => Kp.pure hc
  | .leaf l, h, c, hc => Kp.read.mono (fun a ⟨w, _, ha⟩ => h w.heap c a hc ha)
  | .listOf nn sp item, _, c, hc => by
    have triv : ∀ {α : Type} (m : Py World α), Kp' (fun _ => True) m := fun m w _ => ⟨trivial, fun _ _ => trivial⟩
    simp only [Mod.den, listOps]
    cases h : c.val with
    | none => exact absurd h hc
    | list xs => exact (triv _).bind' (fun r => Kp.pure (by intro h; cases h))
    | _ => exact Kp.pure (by intro h; cases h)
  | .dictOf nn item, _, c, hc => by
    have triv : ∀ {α : Type} (m : Py World α), Kp' (fun _ => True) m := fun m w _ => ⟨trivial, fun _ _ => trivial⟩
    simp only [Mod.den, dictOps]
    cases h : c.val with
    | none => exact absurd h hc
    | dict xs => exact (triv _).bind' (fun r => Kp.pure (by intro h; cases h))
    | _ => exact Kp.pure (by intro h; cases h)
  | .instOf cls st, _, c, hc => res_inst n cls st c hc
  | .union alts, h, c, hc => by
    simp only [Mod.den, unionOps]
    exact res_union n alts h c.alterfdef hc
theorem res_chain (n : Nat) : ∀ (ms : List Mod), Mod.NonNullL ms → ∀ c, c.val ≠ .none →
    Kp (fun _ => True) ((chainOps (setParent env) (denL env (instOps env n) ms)).transform c) (fun t => t ≠ .none)
  | ms, h, c, hc => by
    simp only [chainOps, chainTransform]
    refine Kp.bind (res_reduceM _ ?_ _ hc) (fun v hv => res_reduceM _ ?_ _ hv)
    · rw [tvs_denL env _ (instOps_noMarks env n)]
      intro m hm v hv
      obtain ⟨m', h1, rfl⟩ := List.mem_map.1 hm
      unfold vt
      refine (res_list n ms h m' (mem_tvsM h1) _ hv).bind (fun r hr => ?_)
      exact Kp.bind' (fun w _ => ⟨trivial, fun _ _ => trivial⟩) (fun _ => Kp.pure hr)
    · rw [nvs_denL env _ (instOps_noMarks env n)]
      intro m hm v hv
      obtain ⟨m', h1, rfl⟩ := List.mem_map.1 hm
      exact res_list n ms h m' (mem_nvsM h1) _ hv
theorem res_list (n : Nat) : ∀ (ms : List Mod), Mod.NonNullL ms → ∀ m ∈ ms, ∀ c, c.val ≠ .none →
    Kp (fun _ => True) ((m.den env (instOps env n)).transform c) (fun t => t ≠ .none)
  | m' :: ms, h, m, hm, c, hc => by
    by_cases he : m = m'
    · rw [he]
      exact res_den n m' h.1 c hc
    · refine res_list n ms h.2 m ?_ c hc
      rcases List.mem_cons.1 hm with h' | h'
      · exact absurd h' he
      · exact h'
theorem res_union (n : Nat) : ∀ (as : List (List Mod)), Mod.NonNullA as → ∀ c, c.val ≠ .none →
    Kp (fun _ => True) (unionTransform c (denA env (instOps env n) as)) (fun t => t ≠ .none)
  | [], _, c, hc => Kp.pure hc
  | a :: as, h, c, hc => (res_chain n a h.1 c hc).catchAll (fun _ => res_union n as h.2 c hc)
end

/-- The condition of C26 holds for every chain whose effect-free modifiers do not turn
values into None: lists, dicts, instances and unions never do. -/
theorem keepsNonNull_of_chain {f : Field} (h : Mod.NonNullL f.chain) : KeepsNonNull env f := by
  rintro new t hn ⟨n, c, w, w', rfl, hr⟩
  exact (res_chain n f.chain h c hn w trivial).2 t (by
    have : (f.ops env (instOps env n)).transform c = (chainOps (setParent env) (denL env (instOps env n) f.chain)).transform c := rfl
    rw [← this, hr])

/-! ### C23: the reach of `set` -/

/-- The keys under which a field can be given. -/
def Given (f : Field) (kvs : List (String × Val)) : Prop := f.jsonName ∈ kvs.map Prod.fst ∨ f.name ∈ kvs.map Prod.fst

theorem hasFieldValue_iff (f : Field) (kvs : List (String × Val)) : hasFieldValue f kvs = true ↔ Given f kvs := by
  unfold hasFieldValue Given
  have : ∀ k, (dictGet kvs k).isSome = true ↔ k ∈ kvs.map Prod.fst := by
    intro k
    induction kvs with
    | nil => simp [dictGet]
    | cons e r ih =>
      obtain ⟨k', v⟩ := e
      unfold dictGet at ih ⊢
      by_cases h : k' = k
      · subst h; simp
      · rw [List.find?_cons_of_neg (by simpa using h), ih, List.map_cons, List.mem_cons]
        constructor
        · exact .inr
        · rintro (h' | h')
          · exact absurd h'.symm h
          · exact h'
  rw [Bool.or_eq_true, this, this]

/-- a dict given to a fixed object -/
theorem root_transform (n : Nat) (cls : String) (st : Option Bool) (w : World) (i : Nat) (cfg : Cfg) (kvs : List (String × Val)) :
    (instOps env (n + 1) cls st).transform (rootCtx w i cfg (.dict kvs)) =
      (pyWhen (!(inputPk env cls kvs).isNone) (Py.modify (fun w => w.markPutp env (inputPk env cls kvs) i)) >>= fun _ =>
        applyDict env (Field.ops env (instOps env n)) cls st (rootCtx w i cfg (.dict kvs)) i false kvs >>= fun _ => pure (.obj i)) := by
  funext w'
  simp only [instOps, instTransform, rootCtx, findDest]
  unfold pyWhen
  split <;> rfl

/-- **C23**: a plain `set()` without a primary key among its keys changes, of all existing
objects, only the fields of the receiver that are given by name or JSON name, apart from
names that take part in relations. So an unmentioned plain field keeps its value on the
receiver, and every plain field keeps its value on all other objects, whatever nested
objects the input creates.

Missing from the full statement: inputs with a primary key, for which it fails
(`set_with_key_touches_unnamed`), and relation names, which linking updates
(`set_fills_unnamed_list`). -/
theorem set_touches_named_partial (hE : EagerSafe env) {w : World} {i : Nat} {kvs : List (String × Val)}
    (hpk : ∀ p, (w.cdef env i).primary = some p → getD kvs p = .none) {n j : Nat} {m : String} (hi : i < w.next) (hj : j < w.next)
    (hm : ¬ RelName env m) (hne : (apiSet env n i kvs w).2.attr j m ≠ w.attr j m) :
    j = i ∧ ∃ f ∈ (w.cdef env i).fields, f.name = m ∧ Given f kvs := by
  refine Classical.byContradiction (fun hcon => hne ?_)
  have hcon' : j = i → ∀ f ∈ (w.cdef env i).fields, f.name = m → hasFieldValue f kvs = false := by
    intro hji f hf hn
    cases hh : hasFieldValue f kvs with
    | false => rfl
    | true => exact absurd ⟨hji, f, hf, hn, (hasFieldValue_iff f kvs).1 hh⟩ hcon
  -- both the receiver's class and the value are kept
  let I : World → Prop := fun w' => FieldInv w.next j (w.heap j).cls m (fun v => v = w.attr j m) w' ∧ (w'.heap i).cls = (w.heap i).cls
  have CF := fieldInv_in (env := env) (cls₀ := (w.heap j).cls) (S := fun v => v = w.attr j m) hj hm
  have CI : InClosed env w.next I :=
    { quiet := fun a b h hq => ⟨CF.quiet a b h.1 hq, by rw [(hq.2.2 i).1]; exact h.2⟩
      rel := fun a k l v hn h => ⟨CF.rel a k l v hn h.1, by rw [rawSet_cls]; exact h.2⟩
      marks := fun a ms h => h
      new := fun a k l v hk h => ⟨CF.new a k l v hk h.1, by rw [rawSet_cls]; exact h.2⟩
      alloc := fun a cls h => ⟨CF.alloc a cls h.1, by
        rw [alloc_heap (by have := h.1.1; omega)]; exact h.2⟩
      next := fun a h => h.1.1 }
  have L := withNew_link CI
  have hw : I w := ⟨⟨Nat.le_refl _, rfl, rfl⟩, rfl⟩
  have hT : Kp' (WithNew w.next I) ((instOps env n (w.heap i).cls none).transform
      (rootCtx w i { fillBlanks := false, allFields := some false } (.dict kvs))) := by
    cases n with
    | zero => exact Kp.raise _
    | succ n =>
      have hv := newOriginal_visKp CI (kp_instTransform_new CI hE n)
      have hpk' : inputPk env (w.heap i).cls kvs = .none := by
        unfold inputPk
        cases hp : (env.cls (w.heap i).cls).primary with
        | none => rfl
        | some p => exact hpk p hp
      rw [root_transform]
      refine Kp.bind' (Kp.when (fun h => by rw [hpk'] at h; cases h)) (fun _ => Kp.bind' ?_ (fun _ => Kp.pure' _))
      refine kp_applyDict_free L (fun cls' f hf c' ho _ => ?_) (fun w' hJ f hf hp v w'' hw'' => ?_)
      · exact kp_field_transform hv (hE cls' f hf) (by intro o h; rw [ho] at h; cases h)
      · refine ⟨⟨⟨⟨hw''.1.1.1, ?_, ?_⟩, ?_⟩, hw''.2⟩, fun _ _ => trivial⟩
        · rw [rawSet_cls]; exact hw''.1.1.2.1
        · rw [rawSet_attr, if_neg]
          · exact hw''.1.1.2.2
          · rintro ⟨hji, hmn⟩
            have hf' : f ∈ (w.cdef env i).fields := by
              unfold World.cdef at hf ⊢
              rw [hJ.1.2] at hf
              exact hf
            rcases hp with hp | hp
            · rw [hcon' hji f hf' hmn.symm] at hp; cases hp
            · cases hp
        · rw [rawSet_cls]; exact hw''.1.2
  have hS : Kp' I (withFreshMarks ((instOps env n (w.heap i).cls none).transform
      (rootCtx w i { fillBlanks := false, allFields := some false } (.dict kvs))) >>= fun _ => (pure () : Py World Unit)) :=
    (kp_freshMarks_new CI hT).bind' (fun _ => Kp.pure' ())
  exact (hS w hw).1.1.2.2

end JC

/-! ### A concrete program -/

namespace JC.InputDemo
open JC
open JC.Demo (fId optStr attrsOf)

/-- `types.str` fields with the write rules, a nested document, and relations to a user
with the same write rules -/
def fTitle : Field := { name := "title", jsonName := "title", chain := [.leaf optStr] }
def fCode : Field := { name := "code", jsonName := "code", writeRule := .noWrite, default := some (.str "c0"), chain := [.leaf optStr] }
def fOnce : Field := { name := "once", jsonName := "once", writeRule := .writeOnce, chain := [.leaf optStr] }
def fKeep : Field := { name := "keep", jsonName := "keep", writeRule := .writeNonnull, chain := [.leaf optStr] }
def fSub : Field := { name := "sub", jsonName := "sub", ftype := .inst, isInst := true, chain := [.instOf "Doc" none] }
def rel (n : String) (r : WriteRule) : Field :=
  { name := n, jsonName := n, store := .localKey, ftype := .inst, isInst := true, writeRule := r, refName := n ++ "_id", jrefName := n ++ "Id",
    chain := [.instOf "User" none] }
def fTags : Field := { name := "tags", jsonName := "tags", store := .foreignKey, ftype := .list, collNonnull := true,
                       chain := [.listOf true .no [.instOf "User" none]] }

def doc : ClassDef where
  name := "Doc"
  primary := some "id"
  fields := [fId, fTitle, fCode, fOnce, fKeep, fSub, rel "maker" .noWrite, rel "owner" .writeOnce, rel "boss" .writeNonnull, fTags]
def person : ClassDef := { name := "User", primary := some "id", fields := [fId, fTitle] }

def env : Env where
  cls := fun n => if n = "Doc" then doc else if n = "User" then person else {}
  pystr := fun v => match v with
    | .str s => s
    | _ => ""

def world : World where
  heap := fun i => match i with
    | 0 => { cls := "Doc", attrs := attrsOf [("id", .str "d0"), ("title", .str "t"), ("code", .str "c"), ("once", .str "o"),
             ("keep", .str "k"), ("maker", .obj 1), ("maker_id", .str "u1"), ("owner", .obj 1), ("owner_id", .str "u1"),
             ("boss", .obj 1), ("boss_id", .str "u1")] }
    | 1 => { cls := "User", attrs := attrsOf [("id", .str "u1"), ("title", .str "ann")] }
    | _ => {}
  next := 2

theorem env_fields {cls : String} {f : Field} (h : f ∈ (env.cls cls).fields) : f ∈ doc.fields ∨ f ∈ person.fields := by
  simp only [env] at h
  split at h
  · exact .inl h
  · split at h
    · exact .inr h
    · cases h

theorem env_all (P : Field → Prop) (h1 : ∀ f ∈ doc.fields, P f) (h2 : ∀ f ∈ person.fields, P f) : ∀ cls, ∀ f ∈ (env.cls cls).fields, P f :=
  fun _ f h => (env_fields h).elim (h1 f) (h2 f)

theorem eagerSafe : EagerSafe env := by
  refine env_all _ ?_ ?_
  · simp only [doc, List.forall_mem_cons]
    refine ⟨?_, ?_, ?_, ?_, ?_, ?_, ?_, ?_, ?_, ?_, by simp⟩ <;>
      first
      | exact ⟨trivial, trivial, trivial⟩
      | exact ⟨trivial, ⟨trivial, trivial, trivial⟩, trivial⟩
  · simp only [person, List.forall_mem_cons]
    refine ⟨?_, ?_, by simp⟩ <;> exact ⟨trivial, trivial, trivial⟩

/-- the fields of the example that take no part in a relation -/
theorem plain {m : String} (h : m = "title" ∨ m = "code" ∨ m = "once" ∨ m = "keep") : ¬ RelName env m := by
  have key : ∀ cls, ∀ f ∈ (env.cls cls).fields, (env.foreignField f).isNone = true ∧ (f.isRef = true → m ≠ f.name) ∧ m ≠ f.refName := by
    rcases h with rfl | rfl | rfl | rfl <;> exact env_all _ (by decide) (by decide)
  rintro ⟨c, f, hf, h1⟩
  obtain ⟨h2, h3, h4⟩ := key c f hf
  rcases h1 with ⟨hr, rfl⟩ | rfl | ⟨_, of, ho, _⟩
  · exact h3 hr rfl
  · exact h4 rfl
  · rw [ho] at h2; cases h2

theorem rule {m : String} {r : WriteRule} (h : (m = "code" ∧ r = .noWrite) ∨ (m = "once" ∧ r = .writeOnce) ∨ (m = "keep" ∧ r = .writeNonnull)) :
    HasRule (world.cdef env 0) m r := by
  rcases h with ⟨rfl, rfl⟩ | ⟨rfl, rfl⟩ | ⟨rfl, rfl⟩ <;> (unfold HasRule; decide)

/-- calls that try to overwrite the protected fields, directly and through a nested dict
with the primary key of the receiver; they do change the title -/
def attack : List Call :=
  [.set 0 [("code", .str "x"), ("once", .str "x"), ("keep", .none), ("title", .str "t1")],
   .set 0 [("id", .str "d0"), ("sub", .dict [("id", .str "d0"), ("code", .str "y"), ("once", .str "y"), ("keep", .none), ("title", .str "t2")])],
   .new "Doc" [("id", .str "d0"), ("code", .str "z")]]

theorem attack_title : (runCalls env 4 attack world).attr 0 "title" = .str "t2" := rfl

example (n : Nat) (cs : List Call) : (runCalls env n cs world).attr 0 "code" = .str "c" :=
  readonly_kept_partial eagerSafe (by decide) (plain (by simp)) (rule (by simp)) n cs

example (n : Nat) (cs : List Call) : (runCalls env n cs world).attr 0 "once" = .str "o" :=
  writeonce_kept_partial eagerSafe (by decide) (plain (by simp)) (rule (by simp)) (by intro h; cases h) n cs

example (n : Nat) (cs : List Call) : (runCalls env n cs world).attr 0 "keep" ≠ .none :=
  writenonnull_kept_partial eagerSafe (by decide) (plain (by simp)) (rule (by simp))
    (fun f hf hn => keepsNonNull_of_chain (by
      have : ∀ f ∈ doc.fields, f.name = "keep" → f.chain = [.leaf optStr] := by
        simp only [doc, List.forall_mem_cons]
        have no : ∀ {a : String} {p : Prop}, a ≠ "keep" → a = "keep" → p := fun h h' => absurd h' h
        exact ⟨no (by decide), no (by decide), no (by decide), no (by decide), fun _ => rfl, no (by decide), no (by decide), no (by decide),
          no (by decide), no (by decide), by simp⟩
      rw [this f hf hn]
      exact ⟨fun _ c v hc hv => by simp only [optStr, Except.ok.injEq] at hv; rw [← hv]; exact hc, trivial⟩))
    (by intro h; cases h) n cs

/-- the new document of `attack` does not get the given code but the default -/
example : (runCalls env 4 attack world).attr 2 "code" = .str "c0" := rfl

/-- **Violation of C24 for relations**: `set(maker_id='u2')` is not checked against the write
rule of the readonly field `maker`, whose value it clears. -/
theorem readonly_relation_written :
    HasRule (world.cdef env 0) "maker" .noWrite ∧ world.attr 0 "maker" = .obj 1 ∧
      apiSet env 4 0 [("maker_id", .str "u2")] world = (.ok (), (apiSet env 4 0 [("maker_id", .str "u2")] world).2) ∧
      (runCalls env 4 [.set 0 [("maker_id", .str "u2")]] world).attr 0 "maker" = .none ∧
      (runCalls env 4 [.set 0 [("maker_id", .str "u2")]] world).attr 0 "maker_id" = .str "u2" :=
  ⟨by unfold HasRule; decide, rfl, rfl, rfl, rfl⟩

/-- **Violation of C25 for relations**: the same for a writeonce relation that has a value. -/
theorem writeonce_relation_rewritten :
    HasRule (world.cdef env 0) "owner" .writeOnce ∧ world.attr 0 "owner" = .obj 1 ∧
      (runCalls env 4 [.set 0 [("ownerId", .str "u2")]] world).attr 0 "owner" = .none ∧
      (runCalls env 4 [.set 0 [("ownerId", .str "u2")]] world).attr 0 "owner_id" = .str "u2" :=
  ⟨by unfold HasRule; decide, rfl, rfl, rfl⟩

/-- **Violation of C26 for relations**: a writenonnull relation becomes None. -/
theorem writenonnull_relation_cleared :
    HasRule (world.cdef env 0) "boss" .writeNonnull ∧ world.attr 0 "boss" = .obj 1 ∧
      (runCalls env 4 [.set 0 [("boss_id", .str "u2")]] world).attr 0 "boss" = .none :=
  ⟨by unfold HasRule; decide, rfl, rfl⟩

/-- a `set()` of the title only changes the title; here it creates a nested document too -/
example {m : String} (h : m = "code" ∨ m = "once" ∨ m = "keep") :
    (apiSet env 4 0 [("title", .str "t1"), ("sub", .dict [("title", .str "inner"), (m, .str "x")])] world).2.attr 0 m = world.attr 0 m := by
  refine Classical.byContradiction (fun hne => ?_)
  obtain ⟨_, f, hf, rfl, hg⟩ := set_touches_named_partial eagerSafe (by intro p hp; cases hp; rfl) (by decide) (by decide)
    (plain (.inr h)) hne
  simp only [Given, List.map_cons, List.map_nil, List.mem_cons, List.not_mem_nil, or_false] at hg
  have : ∀ f ∈ doc.fields, f.jsonName = f.name := by decide
  rw [this f hf] at hg
  rcases h with h | h | h <;> rw [h] at hg <;> simp at hg

/-- **Violation of C23 with a primary key among the keys**: a nested dict with the same key
is taken for the receiver itself, so `title` changes although it is not named. -/
theorem set_with_key_touches_unnamed :
    (apiSet env 4 0 [("id", .str "d0"), ("sub", .dict [("id", .str "d0"), ("title", .str "t2")])] world).2.attr 0 "title" = .str "t2" ∧
      world.attr 0 "title" = .str "t" := ⟨rfl, rfl⟩

/-- **Violation of C23 for list relations**: a nonnull list relation that holds None becomes
an empty list by any `set()`. -/
theorem set_fills_unnamed_list :
    (apiSet env 4 0 [("title", .str "t1")] world).2.attr 0 "tags" = .list [] ∧ world.attr 0 "tags" = .none := ⟨rfl, rfl⟩

end JC.InputDemo
