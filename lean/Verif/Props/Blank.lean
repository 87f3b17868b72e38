import Verif.Props.BuildKeys
import Verif.Props.OGraph

/-
C27, C40: the state of a new object before anything is linked to it, and its place in its own
object graph.
-/
namespace JC
variable {env : Env}

/-! ### Specification -/

/-- The arguments give no relation for the field, neither objects nor reference ids; what they
give for a field that is no relation goes through modifiers without objects. -/
def FlatIn (f : Field) (kvs : List (String × Val)) : Prop :=
  (f.isRef = true → dictGet kvs f.name = none ∧ dictGet kvs f.jsonName = none ∧
    dictGet kvs f.refName = none ∧ dictGet kvs f.jrefName = none) ∧
  (f.isRef = false → dictGet kvs f.name = none ∧ dictGet kvs f.jsonName = none ∨ Mod.ObjectlessL f.chain)

/-- The arguments of a constructor call give no relation, neither objects nor reference ids, and
whatever they give for other fields goes through modifiers without objects. -/
def GivesNoRelation (env : Env) (cls : String) (kvs : List (String × Val)) : Prop :=
  ∀ f ∈ (env.cls cls).fields, FlatIn f kvs

/-! ### Proof -/

/-- Only values of object `i` under names outside `S` changed. -/
structure Within (i : Nat) (S : String → Prop) (w w' : World) : Prop where
  others : ∀ j, j ≠ i → w'.heap j = w.heap j
  cls : (w'.heap i).cls = (w.heap i).cls
  attrs : ∀ m, S m → w'.attr i m = w.attr i m
  graph : (w'.heap i).graph = (w.heap i).graph
  graphs : w'.graphs = w.graphs
  next : w'.next = w.next
  marks : w'.marks = w.marks

theorem Within.refl (i : Nat) (S : String → Prop) (w : World) : Within i S w w := ⟨fun _ _ => rfl, rfl, fun _ _ => rfl, rfl, rfl, rfl, rfl⟩

theorem Within.trans {i : Nat} {S : String → Prop} {w w1 w2 : World} (h1 : Within i S w w1) (h2 : Within i S w1 w2) : Within i S w w2 :=
  ⟨fun j hj => (h2.others j hj).trans (h1.others j hj), h2.cls.trans h1.cls, fun m hm => (h2.attrs m hm).trans (h1.attrs m hm),
    h2.graph.trans h1.graph, h2.graphs.trans h1.graphs, h2.next.trans h1.next, h2.marks.trans h1.marks⟩

theorem within_track (i : Nat) (f : Field) (S : String → Prop) (w : World) : Within i S w (track env i f w).2 := by
  refine ⟨fun j hj => ?_, ?_, fun m _ => ?_, ?_, rfl, rfl, rfl⟩
  · simp [track, World.upd, hj]
  · simp only [track, World.upd, if_true]; split <;> rfl
  · simp only [track, World.upd, World.attr, if_true]; split <;> rfl
  · simp only [track, World.upd, if_true]; split <;> rfl

theorem within_rawSet (i : Nat) (n : String) (v : Val) {S : String → Prop} (hn : ¬ S n) (w : World) : Within i S w (rawSet i n v w).2 := by
  have h : (rawSet i n v w).2 = w.upd i (fun o => { o with attrs := fun m => if m = n then v else o.attrs m }) := rfl
  rw [h]
  refine ⟨fun j hj => ?_, ?_, fun m hm => ?_, ?_, rfl, rfl, rfl⟩
  · simp [World.upd, hj]
  · simp [World.upd]
  · have : m ≠ n := fun he => hn (he ▸ hm)
    simp [World.upd, World.attr, this]
  · simp [World.upd]

theorem within_plain (R : Relations env) {i : Nat} {f : Field} {v : Val} {S : String → Prop} {w w' : World} (hf : HasField env w i f)
    (hr : f.isRef = false) (hS : ¬ S f.name) (h : setAttr env i f.name v w = (.ok (), w')) : Within i S w w' := by
  unfold setAttr at h
  have h := get_bind_ok h
  rw [R.noKey hf] at h
  simp only at h
  unfold setField at h
  cases hn : env.fuel with
  | zero => rw [hn] at h; cases h
  | succ n =>
    rw [hn] at h
    simp only [runL] at h
    unfold setBody at h
    have h := get_bind_ok h
    rw [show (w.cdef env i).field? f.name = some f from hf] at h
    simp only at h
    split at h
    · cases h
    · split at h
      · cases h; exact Within.refl ..
      · obtain ⟨u1, w1, h1, h2⟩ := bind_ok h
        have q1 := within_track (env := env) i f S w
        rw [h1] at q1
        rw [if_neg (by rw [hr]; exact Bool.false_ne_true)] at h2
        have : w' = (rawSet i f.name v w1).2 := by rw [h2]
        rw [this]
        exact q1.trans (within_rawSet i f.name v hS w1)

/-- an empty list for a relation that holds nothing -/
theorem within_nil (R : Relations env) {o : Nat} {f : Field} {S : String → Prop} {w w' : World} (hf : HasField env w o f) (hr : f.isRef = true)
    (hl : f.ftype = .list) (hS : ¬ S f.name) (hSk : f.store = .localKey → ¬ S f.refName) (h0 : w.attr o f.name = .none)
    (h : setAttr env o f.name (.list []) w = (.ok (), w')) :
    Within o S w w' ∧ w'.attr o f.name = .list [] ∧ (f.store = .localKey → w'.attr o f.refName = .list []) := by
  unfold setAttr at h
  have h := get_bind_ok h
  rw [R.noKey hf] at h
  simp only at h
  unfold setField at h
  cases hfu : env.fuel with
  | zero => rw [hfu] at h; cases h
  | succ n =>
    rw [hfu] at h
    change setBody env (runL env n) o f.name (.list []) w = (.ok (), w') at h
    unfold setBody at h
    have h := get_bind_ok h
    unfold HasField at hf
    rw [hf] at h
    simp only [hr, h0, if_true] at h
    split at h
    · cases h
    · rw [if_neg (by simp [pyEq])] at h
      obtain ⟨_, w1, h1, h2⟩ := bind_ok h
      obtain ⟨_, w2, h3, h4⟩ := bind_ok h2
      obtain ⟨_, w3, h5, h6⟩ := bind_ok h4
      obtain ⟨_, w4, h7, h8⟩ := bind_ok h6
      have e1 := within_track (env := env) o f S w
      rw [h1] at e1
      have hnone : linkItems f .none = [] := by unfold linkItems; split <;> simp_all
      have e2 : w2 = w1 := by
        unfold unlinkField at h3
        rw [hfu] at h3
        simp only [runU, unlinkBody, hnone] at h3
        cases hq : env.foreignField f <;> rw [hq] at h3 <;> (cases h3; rfl)
      have hnil : linkItems f (.list []) = [] := by unfold linkItems; split <;> simp_all
      have e4 : w' = w4 := by
        cases n with
        | zero => cases h8
        | succ n =>
          simp only [runL, linkBody, hnil] at h8
          cases hq : env.foreignField f <;> rw [hq] at h8 <;> (cases h8; rfl)
      have e3 : w3 = (rawSet o f.name (.list []) w2).2 := by rw [h5]
      have ha3 : w3.attr o f.name = .list [] := by rw [e3, attr_rawSet]; simp
      have hw3 : Within o S w w3 := by
        subst e2
        rw [e3]
        exact e1.trans (within_rawSet o f.name _ hS w2)
      subst e4
      unfold syncKey at h7
      split at h7
      · rename_i hs
        cases h7
        exact ⟨hw3, ha3, fun h => absurd h hs⟩
      · rename_i hs
        have hs : f.store = .localKey := by simpa using hs
        rw [hl] at h7
        obtain ⟨ks, w5, h9, h10⟩ := bind_ok h7
        obtain ⟨rfl, hks⟩ := readW_ok h9
        simp only [itemIds] at hks
        cases hks
        have e5 : w' = (rawSet o f.refName (.list []) w5).2 := by rw [h10]
        rw [e5]
        refine ⟨hw3.trans (within_rawSet o f.refName _ (hSk hs) w5), ?_, fun _ => by rw [attr_rawSet]; simp⟩
        rw [attr_rawSet, if_neg]
        · exact ha3
        · rintro ⟨-, hn⟩
          have hmem : f ∈ (w.cdef env o).fields := HasField.mem hf
          have := R.keyUniq _ f hmem hs
          rw [← hn] at this
          exact R.keys _ _ _ _ this hf

/-- the names that hold relations: fields and reference ids -/
def OfRelation (env : Env) (cls : String) (m : String) : Prop :=
  ∃ f ∈ (env.cls cls).fields, f.isRef = true ∧ (m = f.name ∨ f.store = .localKey ∧ m = f.refName)

theorem plain_outside (R : Relations env) {cls : String} {f : Field} (hf : f ∈ (env.cls cls).fields) (hr : f.isRef = false) :
    ¬ OfRelation env cls f.name := by
  rintro ⟨g, hg, hgr, hn | ⟨hs, hn⟩⟩
  · have h1 := R.uniq cls f hf
    have h2 := R.uniq cls g hg
    rw [hn, h2] at h1
    cases h1
    rw [hr] at hgr; cases hgr
  · have h1 := R.uniq cls f hf
    have h2 := R.keyUniq cls g hg hs
    rw [hn] at h1
    exact R.keys _ _ _ _ h2 h1

theorem within_fillDefault (R : Relations env) (D : InputReady env) {vis : Visitor} (hn : NoMarks vis) (hv : NoneStill vis) {c : Ctx} {dest : Nat}
    {cls : String} {f : Field} (hf : f ∈ (env.cls cls).fields) (hr : f.isRef = false) {S : String → Prop} (hS : ¬ S f.name) {w w' : World}
    (hd : (w.heap dest).cls = cls) (h : fillDefault env (Field.ops env vis) c dest f w = (.ok (), w')) : Within dest S w w' := by
  have hcd : w.cdef env dest = env.cls cls := congrArg env.cls hd
  have hhas : HasField env w dest f := by unfold HasField; rw [hcd]; exact R.uniq cls f hf
  unfold fillDefault at h
  cases hdf : f.default with
  | some v => rw [hdf] at h; exact within_plain R hhas hr hS h
  | none =>
    rw [hdf] at h
    obtain ⟨ek, w1, h1, ha⟩ := bind_ok (get_bind_ok h)
    clear h
    obtain ⟨rfl, -⟩ := readW_ok h1
    obtain ⟨t, w2, ht, hb'⟩ := bind_ok ha
    unfold Field.ops at ht
    have := none_still hn hv (D.chains cls f hf) rfl rfl ht
    subst this
    exact within_plain R hhas hr hS hb'

theorem within_field (R : Relations env) (D : InputReady env) {vis : Visitor} (hn : NoMarks vis) (hv : NoneStill vis) {c : Ctx} {dest : Nat}
    {soft : Bool} {cls : String} {kvs : List (String × Val)} {f : Field} (hk : FlatIn f kvs) (hf : f ∈ (env.cls cls).fields)
    {S : String → Prop} (hS : f.isRef = false → ¬ S f.name) {w w' : World} (hd : (w.heap dest).cls = cls)
    (h : transformField env (Field.ops env vis) c dest soft kvs f w = (.ok (), w')) : Within dest S w w' := by
  have hcd : w.cdef env dest = env.cls cls := congrArg env.cls hd
  have hhas : HasField env w dest f := by unfold HasField; rw [hcd]; exact R.uniq cls f hf
  obtain ⟨k1, k2⟩ := hk
  unfold transformField at h
  cases hr : f.isRef with
  | true =>
    obtain ⟨a1, a2, a3, a4⟩ := k1 hr
    rw [if_neg (by simp [hasFieldValue, a1, a2])] at h
    unfold absentField at h
    rw [if_pos hr] at h
    split at h
    · simp only [setRefKey, getD, a3, a4] at h
      cases h; exact Within.refl ..
    · cases h; exact Within.refl ..
  | false =>
    split at h
    · rename_i hv'
      have hob : Mod.ObjectlessL f.chain := by
        rcases k2 hr with ⟨b1, b2⟩ | hob
        · simp [hasFieldValue, b1, b2] at hv'
        · exact hob
      unfold presentField at h
      obtain ⟨cur, w1, h1, h2⟩ := bind_ok h
      obtain ⟨rfl, -⟩ := readW_ok h1
      split at h2
      · obtain ⟨ek, w2, h3, h4⟩ := bind_ok (get_bind_ok h2)
        obtain ⟨rfl, -⟩ := readW_ok h3
        obtain ⟨t, w3, h5, h6⟩ := bind_ok h4
        have hst := (still_chain_transform (env := env) hn (u := w2) f.chain hob
          (c.nextvo (getFieldValue f kvs) f.name ek ((w2.heap dest).cls, f.name) dest) w2 rfl).1
        unfold Field.ops at h5
        rw [h5] at hst
        have hst : w3 = w2 := hst
        subst hst
        unfold pyWhen at h6
        split at h6
        · exact within_plain R hhas hr (hS hr) h6
        · cases h6; exact Within.refl ..
      · split at h2
        · exact within_fillDefault R D hn hv hf hr (hS hr) hd h2
        · cases h2; exact Within.refl ..
    · unfold absentField at h
      rw [if_neg (by rw [hr]; exact Bool.false_ne_true)] at h
      split at h
      · exact within_fillDefault R D hn hv hf hr (hS hr) hd h
      · cases h; exact Within.refl ..

theorem within_fields (R : Relations env) (D : InputReady env) {vis : Visitor} (hn : NoMarks vis) (hv : NoneStill vis) {c : Ctx} {dest : Nat}
    {soft : Bool} {cls : String} {kvs : List (String × Val)} (hk : GivesNoRelation env cls kvs) (fs : List Field)
    (hfs : ∀ f ∈ fs, f ∈ (env.cls cls).fields) : ∀ {w w' : World}, (w.heap dest).cls = cls →
      transformFields env (Field.ops env vis) c dest soft kvs fs w = (.ok (), w') → Within dest (OfRelation env cls) w w' := by
  induction fs with
  | nil => intro w w' _ h; cases h; exact Within.refl ..
  | cons f fs ih =>
    intro w w' hd h
    obtain ⟨_, w1, h1, h2⟩ := bind_ok h
    have b1 := within_field R D hn hv (hk f (hfs f (by simp))) (hfs f (by simp)) (plain_outside R (hfs f (by simp))) hd h1
    exact b1.trans (ih (fun f' h' => hfs f' (by simp [h'])) (b1.cls.trans hd) h2)

/-- The reference id a relation starts with: no ids for a list, none for one object. -/
def noRefs (f : Field) : Val := if f.ftype = .list then .list [] else .none

/-- the loop over the lists that must not be null -/
theorem blank_lists (R : Relations env) {dest : Nat} {cls : String} (fs : List Field)
    (hfs : ∀ f ∈ fs, f ∈ (env.cls cls).fields ∧ f.ftype = .list ∧ f.isRef = true) : ∀ {w w' : World}, (w.heap dest).cls = cls →
      (∀ f ∈ fs, w.attr dest f.name = .none ∨ w.attr dest f.name = .list []) →
      (∀ f ∈ (env.cls cls).fields, f.store = .localKey → w.attr dest f.refName = noRefs f) →
      fillRefLists env dest (fs.map Field.name) w = (.ok (), w') →
      (∀ j, j ≠ dest → w'.heap j = w.heap j) ∧ (w'.heap dest).cls = cls ∧
      (∀ f ∈ (env.cls cls).fields, f ∈ fs → w'.attr dest f.name = .list []) ∧
      (∀ f ∈ (env.cls cls).fields, f ∉ fs → w'.attr dest f.name = w.attr dest f.name) ∧
      (∀ f ∈ (env.cls cls).fields, f.store = .localKey → w'.attr dest f.refName = noRefs f) ∧
      (w'.heap dest).graph = (w.heap dest).graph ∧ w'.graphs = w.graphs := by
  induction fs with
  | nil =>
    intro w w' hd _ hk h
    cases h
    exact ⟨fun _ _ => rfl, hd, (fun _ _ h => by cases h), fun _ _ _ => rfl, hk, rfl, rfl⟩
  | cons f fs ih =>
    intro w w' hd h0 hk h
    obtain ⟨v, w1, h1, h2⟩ := bind_ok h
    obtain ⟨rfl, hval⟩ := readW_ok h1
    obtain ⟨_, w2, h3, h4⟩ := bind_ok h2
    obtain ⟨hfm, hfl, hfr⟩ := hfs f (by simp)
    have hcd : w1.cdef env dest = env.cls cls := congrArg env.cls hd
    have hhas : HasField env w1 dest f := by unfold HasField; rw [hcd]; exact R.uniq cls f hfm
    have hv0 : v = w1.attr dest f.name := by
      unfold World.getattr at hval
      rw [show (w1.cdef env dest).field? f.name = some f from hhas] at hval
      simp only at hval
      rw [if_neg (fun hs => by simp [Field.isRef, hs] at hfr)] at hval
      cases hval; rfl
    have hsame : ∀ g ∈ (env.cls cls).fields, g.name = f.name → g = f := by
      intro g hg hn
      have e1 := R.uniq cls g hg
      rw [hn, R.uniq cls f hfm] at e1
      exact (Option.some.inj e1).symm
    have hsameK : ∀ g ∈ (env.cls cls).fields, g.store = .localKey → f.store = .localKey → g.refName = f.refName → g = f := by
      intro g hg hs hsf hn
      have e1 := R.keyUniq cls g hg hs
      rw [hn, R.keyUniq cls f hfm hsf] at e1
      exact (Option.some.inj e1).symm
    have hcross : ∀ g ∈ (env.cls cls).fields, ∀ k ∈ (env.cls cls).fields, k.store = .localKey → g.name ≠ k.refName := by
      intro g hg k hk' hs hn
      have e1 := R.uniq cls g hg
      rw [hn] at e1
      exact R.keys _ _ _ _ (R.keyUniq cls k hk' hs) e1
    have h5 : (∀ j, j ≠ dest → w2.heap j = w1.heap j) ∧ (w2.heap dest).cls = cls ∧ w2.attr dest f.name = .list [] ∧
        (∀ g ∈ (env.cls cls).fields, g ≠ f → w2.attr dest g.name = w1.attr dest g.name) ∧
        (∀ g ∈ (env.cls cls).fields, g.store = .localKey → w2.attr dest g.refName = noRefs g) ∧
        (w2.heap dest).graph = (w1.heap dest).graph ∧ w2.graphs = w1.graphs := by
      rcases h0 f (by simp) with hz | hz
      · rw [hz] at hv0
        subst hv0
        simp only [pyWhen, Val.isNone] at h3
        obtain ⟨q1, q2, q3⟩ := within_nil R (S := fun m => m ≠ f.name ∧ (f.store = .localKey → m ≠ f.refName)) hhas hfr hfl
          (fun h => h.1 rfl) (fun hs h => h.2 hs rfl) hz h3
        refine ⟨q1.others, q1.cls.trans hd, q2, fun g hg hne => q1.attrs _ ⟨fun hn => hne (hsame g hg hn), fun hs => hcross g hg f hfm hs⟩,
          fun g hg hs => ?_, q1.graph, q1.graphs⟩
        by_cases hgf : g = f
        · subst hgf
          rw [q3 hs]; simp [noRefs, hfl]
        · rw [q1.attrs _ ⟨fun hn => hcross f hfm g hg hs hn.symm, fun hsf hn => hgf (hsameK g hg hs hsf hn)⟩]
          exact hk g hg hs
      · rw [hz] at hv0
        subst hv0
        simp only [pyWhen, Val.isNone] at h3
        cases h3
        exact ⟨fun _ _ => rfl, hd, hz, fun _ _ _ => rfl, hk, rfl, rfl⟩
    obtain ⟨p1, p2, p3, p4, p5, p6, p7⟩ := h5
    obtain ⟨r1, r2, r3, r4, r5, r6, r7⟩ := ih (fun f' h' => hfs f' (by simp [h'])) p2 (fun g hg => by
      by_cases hgf : g = f
      · subst hgf; exact .inr p3
      · rw [p4 g (hfs g (by simp [hg])).1 hgf]; exact h0 g (by simp [hg])) p5 h4
    refine ⟨fun j hj => (r1 j hj).trans (p1 j hj), r2, fun g hg hm => ?_, fun g hg hm => ?_, r5, r6.trans p6, r7.trans p7⟩
    · by_cases hgs : g ∈ fs
      · exact r3 g hg hgs
      · have hgf : g = f := by
          rcases List.mem_cons.1 hm with rfl | h
          · rfl
          · exact absurd h hgs
        subst hgf
        rw [r4 g hg hgs]; exact p3
    · rw [r4 g hg (fun h => hm (by simp [h]))]
      exact p4 g hg (fun h => hm (by simp [h]))

/-- **C27**, relations. A new object is a new one, and no other object changes. When the
constructor is given no relation, every relation field of the new object is None, or an empty
list if it is a list that must not be null; reference ids are None, and lists of reference
ids are empty. The new object has an object graph of its own; the graphs of other objects stay
as they are. -/
theorem new_unlinked (R : Relations env) (D : InputReady env) {n : Nat} {cls : String} {kvs : List (String × Val)} {i : Nat} {w w' : World}
    (hk : GivesNoRelation env cls kvs) (h : apiNew env n cls kvs w = (.ok i, w')) :
    i = w.next ∧ (∀ j, j ≠ i → w'.heap j = w.heap j) ∧ (w'.heap i).cls = cls ∧
    (∀ f ∈ (env.cls cls).fields, f.isRef = true →
      w'.attr i f.name = if f.ftype = .list ∧ f.collNonnull = true then .list [] else .none) ∧
    (∀ f ∈ (env.cls cls).fields, f.store = .localKey →
      w'.attr i f.refName = if f.ftype = .list then .list [] else .none) ∧
    (w'.heap i).graph = w.nextg ∧ ∀ g, g ≠ w.nextg → w'.graphs g = w.graphs g := by
  unfold apiNew newObj at h
  split at h
  · cases h
  obtain ⟨j, w1, h1, h2⟩ := bind_ok h
  clear h
  have hj : w.next = j := Except.ok.inj (Prod.mk.inj h1).1
  have hw1 : (alloc env cls w).2 = w1 := (Prod.mk.inj h1).2
  subst hj
  obtain ⟨_, w2, h3, h4⟩ := bind_ok h2
  obtain ⟨_, w3, h5, h6⟩ := bind_ok h4
  have hw3 : (graphPutSelf env w.next w2).2 = w3 := congrArg Prod.snd h5
  obtain ⟨g1, -, -⟩ := graphPut_heap (env := env) w.next w2
  rw [hw3] at g1
  have e1 := (Prod.mk.inj h6).2
  have e2 := Except.ok.inj (Prod.mk.inj h6).1
  subst e1 e2
  -- the fresh object
  have c1 : (w1.heap w.next).cls = cls := by rw [← hw1]; simp [alloc, freshObj]
  have o1 : ∀ j, j ≠ w.next → w1.heap j = w.heap j := by intro j hj; rw [← hw1]; simp [alloc, hj]
  have a1 : ∀ m, (env.cls cls).localKey? m = none → w1.attr w.next m = .none := by
    intro m hm; rw [← hw1]; simp [alloc, World.attr, freshObj, hm]
  have k1 : ∀ f ∈ (env.cls cls).fields, f.store = .localKey → w1.attr w.next f.refName = noRefs f := by
    intro f hf hs
    rw [← hw1]; simp [alloc, World.attr, freshObj, R.keyUniq cls f hf hs, noRefs]
  -- writing the arguments
  unfold setDict at h3
  have h3 := get_bind_ok h3
  obtain ⟨r, w4, h7, h8⟩ := bind_ok h3
  cases h8
  unfold withFreshMarks at h7
  rcases hr : (instOps env n (w1.heap w.next).cls none).transform (rootCtx w1 w.next { fillBlanks := true, allFields := some false } (.dict kvs))
    { w1 with marks := [] } with ⟨r', w5⟩
  rw [hr] at h7
  cases h7
  rw [c1] at hr
  cases n with
  | zero => cases hr
  | succ n =>
    simp only [instOps, instTransform, rootCtx] at hr
    obtain ⟨d, w6, h9, h10⟩ := bind_ok hr
    have hw6 : d = (w.next, false) ∧ w6.heap = w1.heap ∧ w6.graphs = w1.graphs := by
      simp only [findDest] at h9
      obtain ⟨_, w7, h11, h12⟩ := bind_ok h9
      cases h12
      refine ⟨rfl, ?_⟩
      unfold pyWhen at h11
      split at h11
      · have : w6 = World.markPutp env { w1 with marks := [] } (inputPk env cls kvs) w.next := (congrArg Prod.snd h11).symm
        rw [this]
        exact ⟨rfl, rfl⟩
      · cases h11; exact ⟨rfl, rfl⟩
    obtain ⟨rfl, hh6, hg6⟩ := hw6
    obtain ⟨_, w8, h11, h12⟩ := bind_ok h10
    cases h12
    unfold applyDict at h11
    have h11 := get_bind_ok h11
    obtain ⟨_, w9, h13, h14⟩ := bind_ok h11
    have hw9 : w9 = w6 := by
      unfold pyWhen at h13
      split at h13
      · exact (readW_ok h13).1
      · cases h13; rfl
    subst hw9
    have c9 : (w9.heap w.next).cls = cls := by rw [hh6]; exact c1
    have hcd : w9.cdef env w.next = env.cls cls := congrArg env.cls c9
    simp only [hcd] at h14
    obtain ⟨_, w10, h15, h16⟩ := bind_ok h14
    have b := within_fields R D (instOps_noMarks env n) (noneStill_instOps n) hk _ (fun f hf => hf) c9 h15
    have hat : ∀ m, w9.attr w.next m = w1.attr w.next m := by intro m; unfold World.attr; rw [hh6]
    have hnk : ∀ f ∈ (env.cls cls).fields, (env.cls cls).localKey? f.name = none := by
      intro f hf
      cases hl : (env.cls cls).localKey? f.name with
      | none => rfl
      | some g => exact (R.keys _ _ _ _ hl (R.uniq cls f hf)).elim
    have hz : ∀ f ∈ (env.cls cls).fields, f.isRef = true → w10.attr w.next f.name = .none := by
      intro f hf hr
      rw [b.attrs _ ⟨f, hf, hr, .inl rfl⟩, hat]
      exact a1 _ (hnk f hf)
    have hrefs : ∀ f : Field, f.store = .localKey → f.isRef = true := by
      intro f hs; simp [Field.isRef, hs]
    obtain ⟨r1, r2, r3, r4, r5, r6, r7⟩ := blank_lists R (dest := w.next)
      (((env.cls cls).fields).filter (fun f => !hasFieldValue f kvs && f.isRef && f.ftype = .list && f.collNonnull))
      (fun f hf => by
        obtain ⟨q1, q2⟩ := List.mem_filter.1 hf
        simp only [Bool.and_eq_true, decide_eq_true_eq] at q2
        exact ⟨q1, q2.1.2, q2.1.1.2⟩) (b.cls.trans c9)
      (fun f hf => by
        obtain ⟨q1, q2⟩ := List.mem_filter.1 hf
        simp only [Bool.and_eq_true, decide_eq_true_eq] at q2
        exact .inl (hz f q1 q2.1.1.2))
      (fun f hf hs => by
        rw [b.attrs _ ⟨f, hf, hrefs f hs, .inr ⟨hs, rfl⟩⟩, hat]
        exact k1 f hf hs) h16
    have hfin : ∀ m, w3.attr w.next m = w5.attr w.next m := by intro m; unfold World.attr; rw [g1]
    have hgi : (w5.heap w.next).graph = w.nextg := by
      rw [r6, b.graph, hh6, ← hw1]; simp [alloc, freshObj]
    refine ⟨rfl, fun j hj => ?_, ?_, fun f hf hr => ?_, fun f hf hs => ?_, ?_, fun g hg => ?_⟩
    · rw [g1]
      show w5.heap j = w.heap j
      rw [r1 j hj, b.others j hj, hh6, o1 j hj]
    · rw [g1]; exact r2
    · rw [hfin]
      obtain ⟨q1, q2, -⟩ := (hk f hf).1 hr
      split
      · rename_i hc
        exact r3 f hf (List.mem_filter.2 ⟨hf, by simp [hasFieldValue, q1, q2, hr, hc.1, hc.2]⟩)
      · rename_i hc
        rw [r4 f hf (fun hm => hc (by
          have := (List.mem_filter.1 hm).2
          simp only [Bool.and_eq_true, decide_eq_true_eq] at this
          exact ⟨this.1.2, this.2⟩))]
        exact hz f hf hr
    · rw [hfin]; exact r5 f hf hs
    · rw [g1]; exact hgi
    · have h5' : (graphPutSelf env w.next { w5 with marks := w1.marks }).2.graphs g = w3.graphs g := by rw [hw3]
      rw [← h5']
      simp only [graphPutSelf, Py.modify_run]
      cases graphKey env { w5 with marks := w1.marks } w.next with
      | error e =>
        show w5.graphs g = w.graphs g
        rw [r7, b.graphs, hg6, ← hw1]; rfl
      | ok k =>
        simp only [hgi]
        rw [if_neg hg, r7, b.graphs, hg6, ← hw1]; rfl

/-- **C40**, construction. A newly constructed object that has a primary key is found in its
object graph under its class and key. -/
theorem new_in_graph {n : Nat} {cls : String} {kvs : List (String × Val)} {i : Nat} {w w' : World}
    (h : apiNew env n cls kvs w = (.ok i, w')) {k : String × String} (hk : HasKey env w' i k) : Knows (w'.graphs (w'.heap i).graph) k i := by
  unfold apiNew newObj at h
  split at h
  · cases h
  obtain ⟨j, w1, h1, h2⟩ := bind_ok h
  obtain ⟨_, w2, h3, h4⟩ := bind_ok h2
  obtain ⟨_, w3, h5, h6⟩ := bind_ok h4
  have hw3 : (graphPutSelf env j w2).2 = w3 := congrArg Prod.snd h5
  obtain ⟨g1, -, -⟩ := graphPut_heap (env := env) j w2
  cases h6
  rw [hw3] at g1
  have hk2 : HasKey env w2 i k := by
    unfold HasKey at hk ⊢
    rwa [id_sameHeap g1, g1] at hk
  have e := (graphKey_ok_iff w2 i k).2 hk2
  unfold Knows
  rw [g1, ← hw3]
  simp only [graphPutSelf, Py.modify_run, e, if_true]
  rw [gLookup_gPut, if_pos rfl]

end JC

/-! ### The hypotheses can be met -/

namespace JC.BlankDemo

def fId : Field := { name := "id", jsonName := "id", chain := [.leaf Demo.optStr] }
/-- a list of references kept by local keys, may be null -/
def fTags : Field := { name := "tags", jsonName := "tags", store := .localKey, ftype := .list, refName := "tags_ids", jrefName := "tagsIds",
                       chain := [.listOf false .no [.instOf "Doc" none]] }
/-- a list of references kept on the other side, may not be null -/
def fParts : Field := { name := "parts", jsonName := "parts", store := .foreignKey, ftype := .list, collNonnull := true,
                        chain := [.listOf true .no [.instOf "Doc" none]] }
/-- one object kept by local key -/
def fOwner : Field := { name := "owner", jsonName := "owner", store := .localKey, ftype := .inst, isInst := true, refName := "owner_id",
                        jrefName := "ownerId", chain := [.instOf "Doc" none] }

def doc : ClassDef := { name := "Doc", primary := some "id", fields := [fId, fTags, fParts, fOwner] }

def env : Env where
  cls := fun n => if n = "Doc" then doc else {}
  pystr := fun v => match v with
    | .str s => s
    | _ => ""

theorem env_cases (c : String) : env.cls c = doc ∨ env.cls c = {} := by
  unfold env
  simp only
  split
  · exact .inl rfl
  · exact .inr rfl

theorem doc_cases {c : String} {f : Field} (h : f ∈ (env.cls c).fields) :
    env.cls c = doc ∧ (f = fId ∨ f = fTags ∨ f = fParts ∨ f = fOwner) := by
  rcases env_cases c with hc | hc <;> rw [hc] at h
  · simp only [doc, List.mem_cons, List.not_mem_nil, or_false] at h
    exact ⟨hc, h⟩
  · cases h

theorem unpaired {g og : Field} (h : Paired env g og) : False := by
  obtain ⟨⟨c, hg⟩, -, hf⟩ := h
  obtain ⟨-, rfl | rfl | rfl | rfl⟩ := doc_cases hg <;> cases hf

theorem relations : Relations env where
  opp := fun g og h => (unpaired h).elim
  uniq := by
    intro c f hf
    obtain ⟨hc, rfl | rfl | rfl | rfl⟩ := doc_cases hf <;> rw [hc] <;> rfl
  keys := by
    intro c n f g hl hf
    rcases env_cases c with hc | hc <;> rw [hc] at hl hf
    · have h1 := List.mem_of_find?_eq_some hl
      have h2 := List.find?_some hl
      have h3 := List.mem_of_find?_eq_some hf
      have h4 := List.find?_some hf
      simp only [doc, List.mem_cons, List.not_mem_nil, or_false] at h1 h3
      rcases h1 with rfl | rfl | rfl | rfl <;> rcases h3 with rfl | rfl | rfl | rfl <;>
        simp [fId, fTags, fParts, fOwner] at h2 h4 <;>
        (have h2 := of_decide_eq_true h2; have h4 := of_decide_eq_true h4; subst h2; simp at h4)
    · cases hf
  keyUniq := by
    intro c f hf hs
    obtain ⟨hc, rfl | rfl | rfl | rfl⟩ := doc_cases hf <;> rw [hc] <;> first | rfl | cases hs
  prim := by
    intro c n h
    rcases env_cases c with hc | hc <;> rw [hc] at h ⊢ <;> cases h
    rfl

theorem ready : InputReady env where
  chains := by
    intro c f hf
    obtain ⟨hc, rfl | rfl | rfl | rfl⟩ := doc_cases hf
    · exact .inl ⟨trivial, trivial⟩
    · exact .inr (.list (SymDemo.around_one _) (.inst (SymDemo.around_one _)))
    · exact .inr (.list (SymDemo.around_one _) (.inst (SymDemo.around_one _)))
    · exact .inr (.inst (SymDemo.around_one _))
  inst := fun g og h => (unpaired h).elim
  list := fun g og h => (unpaired h).elim
  default := fun g og h => (unpaired h).elim

def empty : World := { heap := fun _ => {} }
def made : World := (apiNew env 5 "Doc" [("id", .str "d")] empty).2
theorem made_run : apiNew env 5 "Doc" [("id", .str "d")] empty = (.ok 0, made) := SymDemo.okNew_eq (by decide +kernel)

theorem gives : GivesNoRelation env "Doc" [("id", .str "d")] := by
  intro f hf
  obtain ⟨-, rfl | rfl | rfl | rfl⟩ := doc_cases hf
  · exact ⟨fun h => (by cases h), fun _ => .inr ⟨trivial, trivial⟩⟩
  all_goals exact ⟨fun _ => ⟨rfl, rfl, rfl, rfl⟩, fun h => (by cases h)⟩

/-- `Doc(id='d')`: no ids in `tags_ids`, no `owner_id`, `tags` is None, `parts` is empty, and the
document is in its graph. -/
example : made.attr 0 "tags_ids" = .list [] ∧ made.attr 0 "owner_id" = .none ∧ made.attr 0 "tags" = .none ∧ made.attr 0 "parts" = .list [] ∧
    Knows (made.graphs (made.heap 0).graph) ("Doc", "d") 0 := by
  have h := new_unlinked relations ready gives made_run
  have hid : made.id env 0 = .str "d" := by
    have ht : made.attr 0 "id" = .str "d" := SymDemo.text_eq (by decide +kernel) (by decide)
    have hc : made.cdef env 0 = doc := by unfold World.cdef; rw [h.2.2.1]; rfl
    unfold World.id
    rw [hc]
    exact ht
  refine ⟨h.2.2.2.2.1 fTags (by simp [env, doc]) rfl, h.2.2.2.2.1 fOwner (by simp [env, doc]) rfl, h.2.2.2.1 fTags (by simp [env, doc]) rfl,
    h.2.2.2.1 fParts (by simp [env, doc]) rfl, new_in_graph made_run ⟨?_, ?_⟩⟩
  · rw [hid]; simp
  · rw [hid, h.2.2.1]; rfl

end JC.BlankDemo
