import Verif.Props.LocalKey
import Verif.Props.Calc

/-
C79: ending a link between two objects has exactly its effect, whichever way it is done.
-/
namespace JC
variable {env : Env}

/-! ### Specification -/

/-- A many-to-many relation between objects `i` and `j`: `i` keeps a list of objects in field `f` and
the list of their ids beside it, `j` keeps a list of objects in field `of`. -/
structure ManyToMany (env : Env) (w : World) (i j : Nat) (f of : Field) : Prop where
  differ : i ≠ j
  left : HasField env w i f
  right : HasField env w j of
  pair : Paired env f of
  lists : f.ftype = .list ∧ of.ftype = .list
  keys : f.store = .localKey ∧ of.store ≠ .localKey

/-- `ks'` is `ks` without the first item equal to `k`. -/
def Without (k : Val) (ks ks' : List Val) : Prop :=
  ∃ pre x post, ks = pre ++ x :: post ∧ pyEq x k = true ∧ (∀ p ∈ pre, pyEq p k = false) ∧ ks' = pre ++ post

/-- `i` and `j` are linked: `i` holds the objects `xs`, `j` among them, and as many ids, `j`'s
among them; `j` holds the objects `ys`, `i` among them. Lists hold no object twice. -/
structure LinkedBoth (env : Env) (w : World) (i j : Nat) (f of : Field) (xs : List Nat) (ks ks' : List Val) (ys : List Nat) : Prop where
  objs : w.attr i f.name = .list (xs.map .obj)
  ids : w.attr i f.refName = .list ks
  back : w.attr j of.name = .list (ys.map .obj)
  once : xs.Nodup ∧ ys.Nodup
  memL : j ∈ xs
  memR : i ∈ ys
  count : ks.length = xs.length
  key : Without (w.id env j) ks ks'

/-- All attributes of all objects are as before, except these three: `i` does not hold `j` and its
id any more, `j` does not hold `i`. -/
def OnlyUnlinked (w w' : World) (i j : Nat) (f of : Field) (xs : List Nat) (ks' : List Val) (ys : List Nat) : Prop :=
  (∀ a, (w'.heap a).cls = (w.heap a).cls) ∧
  w'.attr i f.name = .list ((xs.erase j).map .obj) ∧
  w'.attr i f.refName = .list ks' ∧
  w'.attr j of.name = .list ((ys.erase i).map .obj) ∧
  ∀ a n, ¬ (a = i ∧ n = f.name) → ¬ (a = i ∧ n = f.refName) → ¬ (a = j ∧ n = of.name) → w'.attr a n = w.attr a n

/-! ### A calculus of values -/

/-- the classes and attributes of all objects -/
def Holding (w : World) (C : Nat → String) (A : Nat → String → Val) : Prop := w.classes = C ∧ w.attr = A

/-- from a state with attributes `A`, the computation completes with attributes `A'` -/
def Does (C : Nat → String) (A : Nat → String → Val) (m : Py World Unit) (A' : Nat → String → Val) : Prop :=
  ∀ w, Holding w C A → ∃ w', m w = (.ok (), w') ∧ Holding w' C A'

/-- attribute `n` of `i` replaced -/
def put (A : Nat → String → Val) (i : Nat) (n : String) (v : Val) : Nat → String → Val := fun a m => if a = i ∧ m = n then v else A a m

variable {C : Nat → String} {A A₁ A' : Nat → String → Val}

theorem put_same (i : Nat) (n : String) (v : Val) : put A i n v i n = v := by simp [put]
theorem put_other {i a : Nat} {n m : String} {v : Val} (h : ¬ (a = i ∧ m = n)) : put A i n v a m = A a m := by simp [put, h]

theorem Does.bind {m k : Py World Unit} (h1 : Does C A m A₁) (h2 : Does C A₁ k A') : Does C A (m >>= fun _ => k) A' := by
  intro w hw
  obtain ⟨w₁, h1, s1⟩ := h1 w hw
  obtain ⟨w₂, h2, s2⟩ := h2 w₁ s1
  exact ⟨w₂, by rw [Py.bind_run, h1]; exact h2, s2⟩

theorem Does.pure : Does C A (Pure.pure ()) A := fun w hw => ⟨w, rfl, hw⟩

theorem Does.look {k : World → Py World Unit} (h : ∀ w, Holding w C A → Does C A (k w) A') : Does C A (Py.get >>= k) A' := by
  intro w hw
  obtain ⟨w', h1, h2⟩ := h w hw w hw
  exact ⟨w', h1, h2⟩

theorem Does.read {α : Type} {g : World → Except Exc α} {x : α} {k : α → Py World Unit} (hg : ∀ w, Holding w C A → g w = .ok x) (h : Does C A (k x) A') :
    Does C A (readW g >>= k) A' := by
  intro w hw
  obtain ⟨w', h1, h2⟩ := h w hw
  refine ⟨w', ?_, h2⟩
  rw [Py.bind_run]
  simp only [readW, hg w hw]
  exact h1

theorem runs_updObj {i : Nat} {g : Obj → Obj} (hc : ∀ o, (g o).cls = o.cls) (ha : ∀ o, (g o).attrs = o.attrs) : Does C A (updObj i g) A := by
  intro w hw
  refine ⟨_, rfl, ?_, ?_⟩
  · rw [← hw.1]; funext j; simp only [World.classes, World.upd]; split
    · rename_i h; rw [h, hc]
    · rfl
  · rw [← hw.2]; funext j n; simp only [World.attr, World.upd]; split
    · rename_i h; rw [h, ha]
    · rfl

theorem runs_rawSet (i : Nat) (n : String) (v : Val) : Does C A (rawSet i n v) (put A i n v) := by
  intro w hw
  refine ⟨(rawSet i n v w).2, rfl, ?_, ?_⟩
  · rw [← hw.1]; funext j; exact cls_rawSet i n v w j
  · funext a m; rw [attr_rawSet, put, ← hw.2]

theorem runs_addUnlinked (i : Nat) (n : String) (v : Val) : Does C A (addUnlinked i n v) A := runs_updObj (fun _ => rfl) (fun _ => rfl)
theorem runs_markModified (i : Nat) (n : String) : Does C A (markModified i n) A :=
  runs_updObj (fun o => by split <;> rfl) (fun o => by split <;> rfl)
theorem runs_markLocalKey (i : Nat) (f : Field) : Does C A (markLocalKey i f) A :=
  runs_updObj (fun o => by split <;> rfl) (fun o => by split <;> rfl)
theorem runs_willChange (i : Nat) (n : String) : Does C A (willChange env false i n) A := by
  intro w hw
  unfold willChange
  simp only []
  split
  · exact ⟨w, rfl, hw⟩
  · split
    · exact runs_updObj (g := fun o => { o with prev := o.prev ++ [(n, o.attrs n)] }) (fun _ => rfl) (fun _ => rfl) w hw
    · exact ⟨w, rfl, hw⟩

theorem Holding.cdef {w : World} (h : Holding w C A) (i : Nat) : w.cdef env i = env.cls (C i) := by rw [← h.1]; rfl

/-- the id of an object in terms of the attributes -/
def idIn (env : Env) (C : Nat → String) (A : Nat → String → Val) (j : Nat) : Val := match (env.cls (C j)).primary with
  | some n => A j n
  | none => .none

theorem Holding.id {w : World} (h : Holding w C A) (j : Nat) : w.id env j = idIn env C A j := by
  unfold World.id idIn
  rw [h.cdef, ← h.2]
  cases (env.cls (C j)).primary <;> rfl

theorem listRemove_map {bs : List Nat} {i : Nat} (h : i ∈ bs) : listRemove (.obj i) (bs.map .obj) = some ((bs.erase i).map .obj) := by
  cases hr : listRemove (.obj i) (bs.map .obj) with
  | some ys => rw [(listRemove_objs hr).2]
  | none =>
    exfalso
    induction bs with
    | nil => cases h
    | cons b bs ih =>
      simp only [List.map_cons, listRemove] at hr
      split at hr
      · cases hr
      · rename_i hb
        rcases List.mem_cons.1 h with rfl | h
        · exact hb (by simp [pyEq])
        · rw [Option.map_eq_none_iff] at hr
          exact ih h hr

theorem runs_listRemoveAttr {run : UCmd → Py World Unit} {i : Nat} {n : String} {v : Val} {xs ys : List Val} (ha : A i n = .list xs)
    (hr : listRemove v xs = some ys) (hd : Does C (put A i n (.list ys)) (run (.del i n v)) A') : Does C A (listRemoveAttr env run i n v) A' := by
  unfold listRemoveAttr
  refine Does.look (fun w hw => ?_)
  have h : w.attr i n = .list xs := by rw [hw.2]; exact ha
  rw [h]
  simp only [hr]
  exact (runs_willChange i n).bind ((runs_rawSet i n _).bind hd)

/-! ### Unlinking -/

/-- the relation in terms of classes -/
structure MM (env : Env) (C : Nat → String) (i j : Nat) (f of : Field) : Prop where
  differ : i ≠ j
  left : (env.cls (C i)).field? f.name = some f
  right : (env.cls (C j)).field? of.name = some of
  plainL : (env.cls (C i)).localKey? f.name = none
  plainR : (env.cls (C j)).localKey? of.name = none
  refL : f.isRef = true
  refR : of.isRef = true
  oppL : env.foreignField f = some of
  oppR : env.foreignField of = some f
  listL : f.ftype = .list
  listR : of.ftype = .list
  keyL : f.store = .localKey
  keyR : of.store ≠ .localKey
  keyName : (env.cls (C i)).localKey? f.refName = some f
  distinct : f.refName ≠ f.name
  prim : ∀ n, (env.cls (C j)).primary = some n → n ≠ of.name

variable {i j : Nat} {f of : Field} {xs ys : List Nat} {ks ks' : List Val}

theorem runs_unlink_absent {a b : Nat} {g og : Field} {bs : List Nat} (ho : env.foreignField g = some og) (hg : g.ftype = .list) (hog : og.ftype = .list)
    (hA : A b og.name = .list (bs.map .obj)) (hb : a ∉ bs) (n : Nat) : Does C A (runU env (n + 1) (.unlink a g (.list [.obj b]))) A := by
  simp only [runU, unlinkBody, ho, linkItems, hg, forItems]
  refine Does.bind (A₁ := A) ((runs_addUnlinked _ _ _).bind ?_) Does.pure
  unfold unlinkOther
  simp only []
  refine Does.look (fun w hw => ?_)
  have h : w.attr b og.name = .list (bs.map .obj) := by rw [hw.2]; exact hA
  have hp : pyIn (.obj a) (bs.map .obj) = false := by
    rw [Bool.eq_false_iff]; exact fun h => hb (pyIn_obj.1 h)
  simp only [hog, h, hp]
  exact Does.pure

/-- the right side hears that `i` was removed, after the left side has dropped `j` -/
theorem runs_del_right (m : MM env C i j f of) (hx : A i f.name = .list (xs.map .obj)) (hj : j ∉ xs) (n : Nat) :
    Does C A (runU env (n + 2) (.del j of.name (.obj i))) A := by
  simp only [runU, delBody]
  refine Does.look (fun w hw => ?_)
  rw [hw.cdef, m.plainR, m.right]
  simp only []
  refine Does.bind ?_ (runs_markModified _ _)
  simp only [delRef, m.refR, if_true]
  refine Does.bind (runs_unlink_absent m.oppR m.listR m.listL hx hj n) ?_
  simp only [delKey, if_neg m.keyR]
  exact Does.pure

theorem runs_unlink_left (m : MM env C i j f of) (hx : A i f.name = .list (xs.map .obj)) (hj : j ∉ xs) (hy : A j of.name = .list (ys.map .obj))
    (hi : i ∈ ys) (n : Nat) : Does C A (runU env (n + 3) (.unlink i f (.list [.obj j]))) (put A j of.name (.list ((ys.erase i).map .obj))) := by
  rw [show n + 3 = (n + 2) + 1 from rfl]
  simp only [runU, unlinkBody, m.oppL, linkItems, m.listL, forItems]
  refine Does.bind ((runs_addUnlinked _ _ _).bind ?_) Does.pure
  unfold unlinkOther
  simp only []
  refine Does.look (fun w hw => ?_)
  have h : w.attr j of.name = .list (ys.map .obj) := by rw [hw.2]; exact hy
  simp only [m.listR, h, pyIn_obj.2 hi, if_true]
  refine Does.bind (runs_listRemoveAttr hy (listRemove_map hi) ?_) (runs_addUnlinked _ _ _)
  have hx' : put A j of.name (.list ((ys.erase i).map .obj)) i f.name = .list (xs.map .obj) := by
    rw [put_other (fun h => m.differ h.1)]; exact hx
  exact runs_del_right m hx' hj n

/-- the list of ids hears that an id was removed, after the object was -/
theorem runs_del_ids (m : MM env C i j f of) (hx : A i f.name = .list (xs.map .obj)) (hk : A i f.refName = .list ks) (hl : ks.length = xs.length)
    (v : Val) (n : Nat) : Does C A (runU env (n + 1) (.del i f.refName v)) A := by
  simp only [runU, delBody]
  refine Does.look (fun w hw => ?_)
  rw [hw.cdef, m.keyName]
  simp only [delLocal]
  refine (runs_markLocalKey i f).bind (Does.look (fun w hw => ?_))
  have h : w.attr i f.name = .list (xs.map .obj) := by rw [hw.2]; exact hx
  have h' : w.attr i f.refName = .list ks := by rw [hw.2]; exact hk
  simp only [h, h']
  refine Does.read (x := ks.length) (fun _ _ => rfl) ?_
  simp only [List.length_map, hl, ne_eq, not_true_eq_false, if_false]
  exact Does.pure

theorem runs_delKey (m : MM env C i j f of) (hx : A i f.name = .list (xs.map .obj)) (hk : A i f.refName = .list ks)
    (hl : ks.length ≠ xs.length) (hl' : ks'.length = xs.length) (hi : pyIn (idIn env C A j) ks = true) (hr : listRemove (idIn env C A j) ks = some ks') (n : Nat) :
    Does C A (delKey env (runU env (n + 1)) i f f.name (.obj j)) (put A i f.refName (.list ks')) := by
  simp only [delKey, m.keyL, if_true]
  refine Does.look (fun w hw => ?_)
  have h : w.attr i f.name = .list (xs.map .obj) := by rw [hw.2]; exact hx
  have h' : w.attr i f.refName = .list ks := by rw [hw.2]; exact hk
  simp only [h, h']
  refine Does.read (x := xs.length) (fun _ _ => by simp [listLen]) ?_
  have hc : (decide (ks.length ≠ xs.length) && !(Val.obj j).isNone) = true := by simp [hl, Val.isNone]
  simp only [hc, if_true]
  refine Does.read (x := idIn env C A j) (fun w' hw' => by simp only [itemId]; rw [hw.id]) ?_
  simp only [hi, if_true]
  refine runs_listRemoveAttr hk hr ?_
  refine runs_del_ids m (xs := xs) (ks := ks') ?_ (put_same _ _ _) hl' _ n
  rw [put_other (fun h => m.distinct h.2.symm)]; exact hx

theorem runs_delKey_keep (m : MM env C i j f of) (hx : A i f.name = .list (xs.map .obj)) (hk : A i f.refName = .list ks)
    (hl : ks.length = xs.length) (n : Nat) : Does C A (delKey env (runU env n) i f f.name (.obj j)) A := by
  simp only [delKey, m.keyL, if_true]
  refine Does.look (fun w hw => ?_)
  have h : w.attr i f.name = .list (xs.map .obj) := by rw [hw.2]; exact hx
  have h' : w.attr i f.refName = .list ks := by rw [hw.2]; exact hk
  simp only [h, h']
  refine Does.read (x := xs.length) (fun _ _ => by simp [listLen]) ?_
  simp only [hl, ne_eq, not_true_eq_false, decide_false, Bool.false_and, Bool.false_eq_true, if_false]
  exact Does.pure

/-- the left side hears that `j` was removed -/
theorem runs_del_left (m : MM env C i j f of) {n : Nat} (hu : Does C A (runU env n (.unlink i f (.list [.obj j]))) A₁)
    (hk : Does C A₁ (delKey env (runU env n) i f f.name (.obj j)) A') : Does C A (runU env (n + 1) (.del i f.name (.obj j))) A' := by
  simp only [runU, delBody]
  refine Does.look (fun w hw => ?_)
  rw [hw.cdef, m.plainL, m.left]
  simp only []
  refine Does.bind ?_ (runs_markModified _ _)
  simp only [delRef, m.refL, if_true]
  exact hu.bind hk

theorem Without.remove {k : Val} (h : Without k ks ks') : listRemove k ks = some ks' ∧ pyIn k ks = true ∧ ks'.length + 1 = ks.length := by
  obtain ⟨pre, x, post, rfl, hx, hp, rfl⟩ := h
  refine ⟨?_, ?_, by simp; omega⟩
  · induction pre with
    | nil => simp [listRemove, hx]
    | cons p pre ih =>
      simp only [List.cons_append, listRemove, hp p (by simp), Bool.false_eq_true, if_false]
      rw [ih (fun q hq => hp q (by simp [hq]))]
      rfl
  · simp [pyIn, hx]

theorem pyRemove_eq (v : Val) : ∀ xs : List Val, pyRemove pyEq v xs = listRemove v xs
  | [] => rfl
  | x :: xs => by simp only [pyRemove, listRemove, pyRemove_eq v xs]

/-- `obj.name.remove(v)` -/
theorem runs_remove {a : Nat} {n : String} {v : Val} {vs us : List Val} (hA : A a n = .list vs) (hr : listRemove v vs = some us)
    (hd : Does C (put A a n (.list us)) (olistDel env a n v) A') : Does C A ((FOp.lst n (.remove v)).run env a) A' := by
  show Does C A (listOp env a n (.remove v)) A'
  unfold listOp
  refine Does.look (fun w hw => ?_)
  have h : w.attr a n = .list vs := by rw [hw.2]; exact hA
  have ho : ownedOp pyEq (.remove v) vs = ⟨none, us, [.will, .del v]⟩ := by
    simp only [ownedOp, pyRemove_eq, hr, notified]
  simp only [h, ho]
  refine Does.bind (A₁ := A) ((runs_willChange a n).bind Does.pure) ((runs_rawSet a n _).bind (Does.bind (A₁ := A') ?_ Does.pure))
  exact Does.bind (A₁ := A') hd Does.pure

theorem ManyToMany.mm (R : Relations env) (P : PlainPrimary env) {w : World} (h : ManyToMany env w i j f of) : MM env w.classes i j f of := by
  have hp := R.opp f of h.pair
  have key : ∀ c n g, (env.cls c).field? n = some g → (env.cls c).localKey? n = none := by
    intro c n g hg
    cases hl : (env.cls c).localKey? n with
    | none => rfl
    | some x => exact (R.keys c n x g hl hg).elim
  refine ⟨h.differ, h.left, h.right, key _ _ _ h.left, key _ _ _ h.right, h.pair.2.1, hp.1.2.1, h.pair.2.2, hp.1.2.2, h.lists.1, h.lists.2, h.keys.1,
    h.keys.2, R.keyUniq _ f (field_mem h.left).1 h.keys.1, ?_, ?_⟩
  · intro hn
    refine R.keys _ _ f f (R.keyUniq _ f (field_mem h.left).1 h.keys.1) ?_
    rw [hn]; exact h.left
  · rintro n hn rfl
    have := P _ _ of hn h.right
    rw [hp.1.2.1] at this
    cases this

/-- the three values after the link has ended -/
theorem only_of {w w' : World} {A' : Nat → String → Val} (hs : Holding w' w.classes A')
    (h1 : A' i f.name = .list ((xs.erase j).map .obj)) (h2 : A' i f.refName = .list ks') (h3 : A' j of.name = .list ((ys.erase i).map .obj))
    (h4 : ∀ a n, ¬ (a = i ∧ n = f.name) → ¬ (a = i ∧ n = f.refName) → ¬ (a = j ∧ n = of.name) → A' a n = w.attr a n) :
    OnlyUnlinked w w' i j f of xs ks' ys := by
  refine ⟨fun a => congrFun hs.1 a, ?_, ?_, ?_, ?_⟩ <;> rw [hs.2] <;> assumption

/-! ### Theorems -/

variable {w : World}

/-- **C79**. `i.f.remove(j)` completes and ends the link, with its id, and nothing else. -/
theorem remove_object (R : Relations env) (P : PlainPrimary env) (hfuel : 5 ≤ env.fuel) (h : ManyToMany env w i j f of) (l : LinkedBoth env w i j f of xs ks ks' ys) :
    ∃ w', (FOp.lst f.name (.remove (.obj j))).run env i w = (.ok (), w') ∧ OnlyUnlinked w w' i j f of xs ks' ys := by
  have m := h.mm R P
  obtain ⟨n, hn⟩ : ∃ n, env.fuel = n + 5 := ⟨env.fuel - 5, by omega⟩
  have hlen : (xs.erase j).length + 1 = xs.length := by
    rw [List.length_erase_of_mem l.memL]; have := List.length_pos_of_mem l.memL; omega
  have hk := l.key.remove
  have hji : ¬ (i = j ∧ f.name = of.name) := fun h => m.differ h.1
  have hji' : ¬ (i = j ∧ f.refName = of.name) := fun h => m.differ h.1
  have hij : ∀ s, ¬ (j = i ∧ of.name = s) := fun s h => m.differ h.1.symm
  let A₁ := put w.attr i f.name (.list ((xs.erase j).map .obj))
  let A₂ := put A₁ j of.name (.list ((ys.erase i).map .obj))
  have hid : idIn env w.classes A₂ j = w.id env j := by
    rw [Holding.id (A := w.attr) ⟨rfl, rfl⟩]
    unfold idIn
    cases hp : (env.cls (w.classes j)).primary with
    | none => rfl
    | some n => simp only [A₂, A₁, put, m.prim n hp, and_false, if_false, m.differ.symm, false_and]
  have step : Does w.classes w.attr ((FOp.lst f.name (.remove (.obj j))).run env i) (put A₂ i f.refName (.list ks')) := by
    refine runs_remove l.objs (listRemove_map l.memL) ?_
    unfold olistDel
    rw [hn]
    refine runs_del_left m (A₁ := A₂) ?_ ?_
    · exact runs_unlink_left m (put_same _ _ _) (fun hm => absurd hm (l.once.1.not_mem_erase)) (by rw [put_other (hij _)]; exact l.back) l.memR (n + 1)
    · refine runs_delKey m (xs := xs.erase j) (ks := ks) ?_ ?_ ?_ ?_ ?_ ?_ (n + 3)
      · simp only [A₂, A₁, put_other hji, put_same]
      · simp only [A₂, A₁, put_other hji']; rw [put_other (fun h => m.distinct h.2)]; exact l.ids
      · have := l.count; omega
      · have := l.count; omega
      · rw [hid]; exact hk.2.1
      · rw [hid]; exact hk.1
  obtain ⟨w', h1, h2⟩ := step w ⟨rfl, rfl⟩
  refine ⟨w', h1, only_of h2 ?_ (put_same _ _ _) ?_ ?_⟩
  · rw [put_other (fun h => m.distinct h.2.symm)]; simp only [A₂, A₁, put_other hji, put_same]
  · rw [put_other (hij _)]; exact put_same _ _ _
  · intro a n ha hb hc
    rw [put_other hb]; simp only [A₂, A₁, put_other hc, put_other ha]

/-- **C79**. `i.ids.remove(k)` with the id of `j` (which no other object of the list has) does the
same. -/
theorem remove_id (R : Relations env) (P : PlainPrimary env) (hfuel : 5 ≤ env.fuel) (h : ManyToMany env w i j f of) (l : LinkedBoth env w i j f of xs ks ks' ys)
    (hself : pyEq (w.id env j) (w.id env j) = true) (hother : ∀ b ∈ xs, b ≠ j → pyEq (w.id env b) (w.id env j) = false) :
    ∃ w', (FOp.lst f.refName (.remove (w.id env j))).run env i w = (.ok (), w') ∧ OnlyUnlinked w w' i j f of xs ks' ys := by
  have m := h.mm R P
  obtain ⟨n, hn⟩ : ∃ n, env.fuel = n + 5 := ⟨env.fuel - 5, by omega⟩
  have hlen : (xs.erase j).length + 1 = xs.length := by
    rw [List.length_erase_of_mem l.memL]; have := List.length_pos_of_mem l.memL; omega
  have hk := l.key.remove
  have hji : ¬ (i = j ∧ f.name = of.name) := fun h => m.differ h.1
  have hji' : ¬ (i = j ∧ f.refName = of.name) := fun h => m.differ h.1
  have hij : ∀ s, ¬ (j = i ∧ of.name = s) := fun s h => m.differ h.1.symm
  let A₁ := put w.attr i f.refName (.list ks')
  let A₂ := put A₁ i f.name (.list ((xs.erase j).map .obj))
  let A₃ := put A₂ j of.name (.list ((ys.erase i).map .obj))
  have hid : ∀ b ∈ xs, idIn env w.classes A₁ b = w.id env b := by
    intro b hb
    rw [Holding.id (A := w.attr) ⟨rfl, rfl⟩]
    unfold idIn
    cases hp : (env.cls (w.classes b)).primary with
    | none => rfl
    | some q =>
      refine put_other (fun hc => ?_)
      rw [hc.1] at hp
      have := R.prim _ q hp
      rw [hc.2, m.keyName] at this
      cases this
  have hfind : ∀ w' : World, Holding w' w.classes A₁ → findById env w' (w.id env j) (xs.map .obj) = .ok (some (.obj j)) := by
    intro w' hw'
    have hid' : ∀ b ∈ xs, w'.id env b = w.id env b := fun b hb => by rw [hw'.id, hid b hb]
    have hmem := l.memL
    revert hother hid' hmem
    clear hlen hid h l A₂ A₃
    intro hother hid' hmem
    induction xs with
    | nil => cases hmem
    | cons b bs ih =>
      simp only [List.map_cons, findById, itemId]
      rw [hid' b (by simp)]
      by_cases hb : b = j
      · subst hb; rw [if_pos hself]
      · rw [hother b (by simp) hb]
        exact ih (fun c hc => hother c (by simp [hc])) (fun c hc => hid' c (by simp [hc])) ((List.mem_cons.1 hmem).resolve_left (fun h => hb h.symm))
  have step : Does w.classes w.attr ((FOp.lst f.refName (.remove (w.id env j))).run env i) A₃ := by
    refine runs_remove l.ids hk.1 ?_
    unfold olistDel
    rw [hn, show n + 5 = (n + 4) + 1 from rfl]
    simp only [runU, delBody]
    refine Does.look (fun w₁ hw₁ => ?_)
    rw [hw₁.cdef, m.keyName]
    simp only [delLocal]
    refine (runs_markLocalKey i f).bind (Does.look (fun w₂ hw₂ => ?_))
    have ho : A₁ i f.name = .list (xs.map .obj) := by rw [← l.objs]; exact put_other (fun h => m.distinct h.2.symm)
    have e1 : w₂.attr i f.name = .list (xs.map .obj) := by rw [hw₂.2]; exact ho
    have e2 : w₂.attr i f.refName = .list ks' := by rw [hw₂.2]; exact put_same _ _ _
    simp only [e1, e2]
    refine Does.read (x := ks'.length) (fun _ _ => rfl) ?_
    have hc : (xs.map Val.obj).length ≠ ks'.length := by rw [List.length_map]; have := l.count; omega
    rw [if_pos hc]
    refine Does.read (x := some (.obj j)) (fun _ _ => hfind w₂ hw₂) ?_
    simp only []
    refine runs_listRemoveAttr ho (listRemove_map l.memL) ?_
    refine runs_del_left m (A₁ := A₃) ?_ ?_
    · refine runs_unlink_left m (put_same _ _ _) (fun hm => absurd hm (l.once.1.not_mem_erase)) ?_ l.memR n
      rw [put_other (hij _), put_other (hij _)]; exact l.back
    · refine runs_delKey_keep m (xs := xs.erase j) (ks := ks') ?_ ?_ ?_ _
      · simp only [A₃, A₂, put_other hji, put_same]
      · simp only [A₃, A₂, put_other hji']; rw [put_other (fun h => m.distinct h.2)]; exact put_same _ _ _
      · have := l.count; omega
  obtain ⟨w', h1, h2⟩ := step w ⟨rfl, rfl⟩
  refine ⟨w', h1, only_of h2 ?_ ?_ (put_same _ _ _) ?_⟩
  · simp only [A₃, A₂, put_other hji, put_same]
  · simp only [A₃, A₂, put_other hji']; rw [put_other (fun h => m.distinct h.2)]; exact put_same _ _ _
  · intro a n ha hb hc
    simp only [A₃, A₂, A₁, put_other hc, put_other ha, put_other hb]

/-- **C79**. `j.of.remove(i)`, from the other side, does the same. -/
theorem remove_back (R : Relations env) (P : PlainPrimary env) (hfuel : 5 ≤ env.fuel) (h : ManyToMany env w i j f of) (l : LinkedBoth env w i j f of xs ks ks' ys) :
    ∃ w', (FOp.lst of.name (.remove (.obj i))).run env j w = (.ok (), w') ∧ OnlyUnlinked w w' i j f of xs ks' ys := by
  have m := h.mm R P
  obtain ⟨n, hn⟩ : ∃ n, env.fuel = n + 5 := ⟨env.fuel - 5, by omega⟩
  have hlen : (xs.erase j).length + 1 = xs.length := by
    rw [List.length_erase_of_mem l.memL]; have := List.length_pos_of_mem l.memL; omega
  have hk := l.key.remove
  have hji : ∀ s, ¬ (i = j ∧ s = of.name) := fun s h => m.differ h.1
  have hij : ∀ s, ¬ (j = i ∧ of.name = s) := fun s h => m.differ h.1.symm
  let A₁ := put w.attr j of.name (.list ((ys.erase i).map .obj))
  let A₂ := put A₁ i f.name (.list ((xs.erase j).map .obj))
  let A₃ := put A₂ i f.refName (.list ks')
  have hid : idIn env w.classes A₂ j = w.id env j := by
    rw [Holding.id (A := w.attr) ⟨rfl, rfl⟩]
    unfold idIn
    cases hp : (env.cls (w.classes j)).primary with
    | none => rfl
    | some n => simp only [A₂, A₁, put, m.prim n hp, and_false, if_false, m.differ.symm, false_and]
  have step : Does w.classes w.attr ((FOp.lst of.name (.remove (.obj i))).run env j) A₃ := by
    refine runs_remove l.back (listRemove_map l.memR) ?_
    unfold olistDel
    rw [hn, show n + 5 = (n + 4) + 1 from rfl]
    simp only [runU, delBody]
    refine Does.look (fun w₁ hw₁ => ?_)
    rw [hw₁.cdef, m.plainR, m.right]
    simp only []
    refine Does.bind ?_ (runs_markModified _ _)
    simp only [delRef, m.refR, if_true]
    refine Does.bind (A₁ := A₃) ?_ ?_
    · rw [show n + 4 = (n + 3) + 1 from rfl]
      simp only [runU, unlinkBody, m.oppR, linkItems, m.listR, forItems]
      refine Does.bind ((runs_addUnlinked _ _ _).bind ?_) Does.pure
      unfold unlinkOther
      simp only []
      refine Does.look (fun w₂ hw₂ => ?_)
      have ho : A₁ i f.name = .list (xs.map .obj) := by rw [← l.objs]; exact put_other (hji _)
      have e1 : w₂.attr i f.name = .list (xs.map .obj) := by rw [hw₂.2]; exact ho
      simp only [m.listL, e1, pyIn_obj.2 l.memL, if_true]
      refine Does.bind (A₁ := A₃) (runs_listRemoveAttr ho (listRemove_map l.memL) ?_) (runs_addUnlinked _ _ _)
      refine runs_del_left m (A₁ := A₂) ?_ ?_
      · refine runs_unlink_absent (bs := ys.erase i) m.oppL m.listL m.listR ?_ (l.once.2.not_mem_erase) (n + 1)
        rw [put_other (hij _)]; exact put_same _ _ _
      · refine runs_delKey m (xs := xs.erase j) (ks := ks) (put_same _ _ _) ?_ ?_ ?_ ?_ ?_ (n + 1)
        · rw [put_other (fun h => m.distinct h.2)]; simp only [A₁, put_other (hji _)]; exact l.ids
        · have := l.count; omega
        · have := l.count; omega
        · show pyIn (idIn env w.classes A₂ j) ks = true
          rw [hid]; exact hk.2.1
        · show listRemove (idIn env w.classes A₂ j) ks = some ks'
          rw [hid]; exact hk.1
    · simp only [delKey, if_neg m.keyR]
      exact Does.pure
  obtain ⟨w', h1, h2⟩ := step w ⟨rfl, rfl⟩
  refine ⟨w', h1, only_of h2 ?_ (put_same _ _ _) ?_ ?_⟩
  · exact (put_other (fun h => m.distinct h.2.symm)).trans (put_same _ _ _)
  · exact (put_other (hij _)).trans ((put_other (hij _)).trans (put_same _ _ _))
  · intro a n ha hb hc
    simp only [A₃, A₂, A₁, put_other hc, put_other ha, put_other hb]

end JC
/-! ### The demo program -/
namespace JC.TrackDemo
open JC
open JC.Demo (fId attrsOf)

theorem fields_cases {c : String} {f : Field} (h : f ∈ (env.cls c).fields) : f = fId ∨ f = fTags ∨ f = fCover ∨ f = fArts ∨ f = fArt := by
  rcases env_cases c with hc | hc | hc | hc <;> rw [hc] at h <;> simp only [art, tag, cover, List.mem_cons, List.not_mem_nil, or_false] at h
  · rcases h with h | h | h <;> simp [h]
  · rcases h with h | h <;> simp [h]
  · rcases h with h | h <;> simp [h]

theorem paired_tags : Paired env fTags fArts := ⟨⟨"Art", by simp [env, art]⟩, by rfl, by rfl⟩
theorem paired_arts : Paired env fArts fTags := ⟨⟨"Tag", by simp [env, tag]⟩, by rfl, by rfl⟩
theorem paired_cover : Paired env fCover fArt := ⟨⟨"Art", by simp [env, art]⟩, by rfl, by rfl⟩
theorem paired_art : Paired env fArt fCover := ⟨⟨"Cover", by simp [env, cover]⟩, by rfl, by rfl⟩

theorem relations : Relations env where
  opp := by
    rintro g og ⟨⟨c, hc⟩, hr, ho⟩
    rcases fields_cases hc with rfl | rfl | rfl | rfl | rfl
    · cases hr
    · obtain rfl : fArts = og := Option.some.inj (paired_tags.2.2.symm.trans ho)
      exact ⟨paired_arts, .inr rfl⟩
    · obtain rfl : fArt = og := Option.some.inj (paired_cover.2.2.symm.trans ho)
      exact ⟨paired_art, .inl rfl⟩
    · obtain rfl : fTags = og := Option.some.inj (paired_arts.2.2.symm.trans ho)
      exact ⟨paired_tags, .inr rfl⟩
    · obtain rfl : fCover = og := Option.some.inj (paired_art.2.2.symm.trans ho)
      exact ⟨paired_cover, .inl rfl⟩
  uniq := by
    intro c f hf
    rcases env_cases c with hc | hc | hc | hc <;> rw [hc] at hf ⊢ <;> simp only [art, tag, cover, List.mem_cons, List.not_mem_nil, or_false] at hf
    · rcases hf with rfl | rfl | rfl <;> rfl
    · rcases hf with rfl | rfl <;> rfl
    · rcases hf with rfl | rfl <;> rfl
  keys := by
    intro c n f g hl hf
    have hm := List.mem_of_find?_eq_some hl
    have h2 := List.find?_some hl
    rcases fields_cases hm with rfl | rfl | rfl | rfl | rfl
    · simp [fId] at h2
    · have h3 : "tag_ids" = n := by
        simp only [fTags, decide_true, Bool.true_and] at h2
        exact of_decide_eq_true h2
      subst h3
      rcases env_cases c with hc | hc | hc | hc <;> rw [hc] at hf <;> cases hf
    · simp [fCover] at h2
    · simp [fArts] at h2
    · have h3 : "art_id" = n := by
        simp only [fArt, decide_true, Bool.true_and] at h2
        exact of_decide_eq_true h2
      subst h3
      rcases env_cases c with hc | hc | hc | hc <;> rw [hc] at hf <;> cases hf
  keyUniq := by
    intro c f hf hs
    rcases env_cases c with hc | hc | hc | hc <;> rw [hc] at hf ⊢ <;> simp only [art, tag, cover, List.mem_cons, List.not_mem_nil, or_false] at hf
    · rcases hf with rfl | rfl | rfl
      · cases hs
      · rfl
      · cases hs
    · rcases hf with rfl | rfl <;> cases hs
    · rcases hf with rfl | rfl
      · cases hs
      · rfl
  prim := by
    intro c n hp
    rcases env_cases c with hc | hc | hc | hc <;> rw [hc] at hp ⊢ <;> cases hp <;> rfl

theorem plainPrimary : PlainPrimary env := by
  intro c n f hp hf
  rcases env_cases c with hc | hc | hc | hc <;> rw [hc] at hp hf <;> cases hp <;> cases hf <;> rfl

theorem tagging : ManyToMany env world 0 2 fTags fArts :=
  ⟨by decide, by rfl, by rfl, paired_tags, ⟨rfl, rfl⟩, ⟨rfl, by decide⟩⟩

theorem tagged : LinkedBoth env world 0 2 fTags fArts [1, 2] [.str "t1", .str "t2"] [.str "t1"] [0] where
  objs := by rfl
  ids := by rfl
  back := by rfl
  once := by decide
  memL := by decide
  memR := by decide
  count := by rfl
  key := ⟨[.str "t1"], .str "t2", [], rfl, by rfl, by intro p hp; simp only [List.mem_singleton] at hp; subst hp; rfl, rfl⟩

/-- The hypotheses are met by the persisted article and its second tag: the article keeps the first. -/
example : ∃ w', (FOp.lst "tags" (.remove (.obj 2))).run env 0 world = (.ok (), w') ∧ w'.attr 0 "tags" = .list [.obj 1] ∧ w'.attr 0 "tag_ids" = .list [.str "t1"] ∧
    w'.attr 2 "arts" = .list [] ∧ w'.attr 1 "arts" = .list [.obj 0] := by
  obtain ⟨w', h, h0, h1, h2, h3, h4⟩ := remove_object relations plainPrimary (by decide) tagging tagged
  exact ⟨w', h, h1, h2, h3, (h4 1 "arts" (by decide) (by decide) (by decide)).trans rfl⟩
example := remove_back relations plainPrimary (by decide) tagging tagged
example := remove_id relations plainPrimary (by decide) tagging tagged (by rfl) (by
  intro b hb hne
  simp only [List.mem_cons, List.not_mem_nil, or_false] at hb
  rcases hb with rfl | rfl
  · rfl
  · exact absurd rfl hne)

/-- The article of `world` has a third tag which is not loaded: there are three ids, two objects. -/
def unloaded : World :=
  { world with heap := fun i => if i = 0 then { world.heap 0 with attrs := attrsOf [("id", .str "a"), ("tags", .list [.obj 1, .obj 2]),
      ("tag_ids", .list [.str "t1", .str "t2", .str "t3"]), ("cover", .obj 3)] } else world.heap i }

/-- `article.tag_ids.remove("t1")`: the id goes, but as there are then as many ids as objects, the tag
stays in the list of tags and keeps the article. (`count` above fails.) -/
theorem unloaded_id_removed :
    let r := (FOp.lst "tag_ids" (.remove (.str "t1"))).run env 0 unloaded
    completes r = true ∧ r.2.attr 0 "tag_ids" = .list [.str "t2", .str "t3"] ∧ r.2.attr 0 "tags" = .list [.obj 1, .obj 2] ∧ r.2.attr 1 "arts" = .list [.obj 0] := by
  refine ⟨by decide +kernel, by rfl, by rfl, by rfl⟩

/-- `article.tag_ids.remove("t3")`, the id of the tag which is not loaded, leaves the tags alone; and
`article.tags.remove(tag)` removes its id. -/
theorem unloaded_other_removed :
    let r := (FOp.lst "tag_ids" (.remove (.str "t3"))).run env 0 unloaded
    let s := (FOp.lst "tags" (.remove (.obj 1))).run env 0 unloaded
    completes r = true ∧ r.2.attr 0 "tags" = .list [.obj 1, .obj 2] ∧ completes s = true ∧ s.2.attr 0 "tag_ids" = .list [.str "t2", .str "t3"] := by
  refine ⟨by decide +kernel, by rfl, by decide +kernel, by rfl⟩

end JC.TrackDemo
