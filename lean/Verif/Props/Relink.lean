import Verif.Props.Unlink

/-
C80: making a link between two objects has exactly its effect.
-/
namespace JC
variable {env : Env}

/-! ### Specification -/

/-- `i` and `j` are not linked: `i` holds the objects `xs`, not `j`, and as many ids; `j` holds the
objects `ys`, not `i`. -/
structure Unlinked (w : World) (i j : Nat) (f of : Field) (xs : List Nat) (ks : List Val) (ys : List Nat) : Prop where
  objs : w.attr i f.name = .list (xs.map .obj)
  ids : w.attr i f.refName = .list ks
  back : w.attr j of.name = .list (ys.map .obj)
  outL : j ∉ xs
  outR : i ∉ ys
  count : ks.length = xs.length

/-- Exactly these attributes (of an object, by name) have got these values; all others of all objects
are as before. -/
def OnlyThese (w w' : World) (changes : List (Nat × String × Val)) : Prop :=
  (∀ a, (w'.heap a).cls = (w.heap a).cls) ∧
  (∀ c ∈ changes, w'.attr c.1 c.2.1 = c.2.2) ∧
  ∀ a n, (∀ c ∈ changes, ¬ (a = c.1 ∧ n = c.2.1)) → w'.attr a n = w.attr a n

/-- A one-to-many relation between objects `i` and `j`: `i` refers to one object in field `f` and keeps its
id beside it, `j` keeps a list of objects in field `of`. -/
structure OneToMany (env : Env) (w : World) (i j : Nat) (f of : Field) : Prop where
  differ : i ≠ j
  left : HasField env w i f
  right : HasField env w j of
  pair : Paired env f of
  kinds : f.ftype = .inst ∧ of.ftype = .list
  keys : f.store = .localKey ∧ of.store ≠ .localKey

/-! ### Calculus -/

/-- if the computation completes from a state with attributes `A`, then with attributes `A'` -/
def Ends (C : Nat → String) (A : Nat → String → Val) (m : Py World Unit) (A' : Nat → String → Val) : Prop :=
  ∀ w w', Holding w C A → m w = (.ok (), w') → Holding w' C A'

variable {C : Nat → String} {A A₁ A' : Nat → String → Val}

theorem Does.leads {m : Py World Unit} (h : Does C A m A') : Ends C A m A' := by
  intro w w' hw hr
  obtain ⟨w₁, h1, h2⟩ := h w hw
  rw [hr] at h1
  cases h1
  exact h2

theorem Ends.bind {m k : Py World Unit} (h1 : Ends C A m A₁) (h2 : Ends C A₁ k A') : Ends C A (m >>= fun _ => k) A' := by
  intro w w' hw h
  obtain ⟨u, w₁, e1, e2⟩ := bind_ok h
  exact h2 w₁ w' (h1 w w₁ hw e1) e2

theorem Ends.pure : Ends C A (Pure.pure ()) A := Does.pure.leads

theorem Ends.raise (e : Exc) : Ends C A (Py.raise e) A' := by
  intro w w' _ h
  cases h

theorem Ends.look {k : World → Py World Unit} (h : ∀ w, Holding w C A → Ends C A (k w) A') : Ends C A (Py.get >>= k) A' :=
  fun w w' hw hr => h w hw w w' hw (get_bind_ok hr)

theorem Ends.read {α : Type} {g : World → Except Exc α} {x : α} {k : α → Py World Unit} (hg : ∀ w, Holding w C A → g w = .ok x) (h : Ends C A (k x) A') :
    Ends C A (readW g >>= k) A' := by
  intro w w' hw hr
  rw [Py.bind_run] at hr
  simp only [readW, hg w hw] at hr
  exact h w w' hw hr

theorem runs_delUnlinked (i : Nat) (n : String) (v : Val) : Does C A (delUnlinked i n v) A := runs_updObj (fun _ => rfl) (fun _ => rfl)

theorem leads_linkGraph (i j : Nat) : Ends C A (linkGraph env i j) A := by
  intro w w' hw hr
  unfold linkGraph mergeGraphs at hr
  obtain ⟨h1, -, -⟩ := putSelf_heap (env := env) i w
  have hp : Holding (putSelf env i w) C A := by
    refine ⟨?_, ?_⟩
    · rw [← hw.1]; funext j; simp only [World.classes, h1]
    · rw [← hw.2]; funext j n; simp only [World.attr, h1]
  revert hr
  generalize putSelf env i w = w₁ at hp
  intro hr
  split at hr
  · cases hr; exact hp
  · cases hm : mergeLoop env w₁ ((w₁.graphs (w₁.heap j).graph).map Prod.snd) (w₁.graphs (w₁.heap i).graph) with
    | error e => rw [hm] at hr; cases hr
    | ok g =>
      rw [hm] at hr
      cases hr
      refine ⟨?_, ?_⟩
      · rw [← hp.1]; funext a; simp only [World.classes]; split <;> rfl
      · rw [← hp.2]; funext a n; simp only [World.attr]; split <;> rfl

theorem leads_listAppendAttr {run : LCmd → Py World Unit} {i : Nat} {n : String} {v : Val} {xs : List Val} (ha : A i n = .list xs)
    (hd : Ends C (put A i n (.list (xs ++ [v]))) (run (.add i n xs.length v)) A') : Ends C A (listAppendAttr env run i n v) A' := by
  unfold listAppendAttr
  refine Ends.look (fun w hw => ?_)
  have h : w.attr i n = .list xs := by rw [hw.2]; exact ha
  rw [h]
  simp only []
  exact (runs_willChange i n).leads.bind ((runs_rawSet i n _).leads.bind hd)

variable {i j : Nat} {f of : Field} {xs ys : List Nat} {ks : List Val}

/-- linking an object that is linked back already -/
theorem leads_link_present {a b : Nat} {g og : Field} {bs : List Nat} (ho : env.foreignField g = some og) (hg : g.ftype = .list) (hog : og.ftype = .list)
    (hA : A b og.name = .list (bs.map .obj)) (hb : a ∈ bs) (n : Nat) : Ends C A (runL env (n + 1) (.link a g (.list [.obj b]))) A := by
  simp only [runL, linkBody, ho, linkItems, hg, forItems]
  refine Ends.bind (A₁ := A) ((runs_delUnlinked _ _ _).leads.bind ?_) Ends.pure
  unfold linkOther
  simp only []
  refine Ends.bind (A₁ := A) ?_ (leads_linkGraph _ _)
  unfold linkSide
  refine Ends.look (fun w hw => ?_)
  have h : w.attr b og.name = .list (bs.map .obj) := by rw [hw.2]; exact hA
  simp only [hog, h, pyIn_obj.2 hb, if_true]
  exact Ends.pure

theorem leads_add {n : Nat} {a : Nat} {g : Field} {b : Nat} {idx : Int} (hl : (env.cls (C a)).localKey? g.name = none) (hf : (env.cls (C a)).field? g.name = some g)
    (hr : g.isRef = true) (h1 : Ends C A (runL env n (.link a g (.list [.obj b]))) A₁) (h2 : Ends C A₁ (addKey env (runL env n) a g g.name idx (.obj b)) A') :
    Ends C A (runL env (n + 1) (.add a g.name idx (.obj b))) A' := by
  simp only [runL, addBody]
  refine Ends.look (fun w hw => ?_)
  rw [hw.cdef, hl, hf]
  simp only [addRef, hr, if_true]
  refine Ends.bind (h1.bind h2) ?_
  simp only [addTail]
  exact (runs_markModified _ _).leads

/-- the right side hears that `i` was added, after the left side has got `j` -/
theorem leads_add_right (m : MM env C i j f of) (hx : A i f.name = .list (xs.map .obj)) (hj : j ∈ xs) (idx : Int) (n : Nat) :
    Ends C A (runL env (n + 2) (.add j of.name idx (.obj i))) A := by
  refine leads_add m.plainR m.right m.refR (leads_link_present m.oppR m.listR m.listL hx hj n) ?_
  simp only [addKey, if_neg m.keyR]
  exact Ends.pure

theorem leads_addKey (m : MM env C i j f of) (hx : A i f.name = .list ((xs ++ [j]).map .obj)) (hk : A i f.refName = .list ks) (hl : ks.length = xs.length) (n : Nat) :
    Ends C A (addKey env (runL env (n + 1)) i f f.name xs.length (.obj j)) (put A i f.refName (.list (ks ++ [idIn env C A j]))) := by
  simp only [addKey, m.keyL, if_true]
  refine Ends.look (fun w hw => ?_)
  have h : w.attr i f.name = .list ((xs ++ [j]).map .obj) := by rw [hw.2]; exact hx
  have h' : w.attr i f.refName = .list ks := by rw [hw.2]; exact hk
  simp only [h, h']
  refine Ends.read (x := xs.length + 1) (fun _ _ => by simp [listLen]) ?_
  rw [if_pos (by omega)]
  refine Ends.read (x := idIn env C A j) (fun w' hw' => by simp only [itemId]; rw [hw.id]) ?_
  split
  · exact Ends.raise _
  · have hp : pyInsert ks (xs.length : Int) (idIn env C A j) = ks ++ [idIn env C A j] := by
      unfold pyInsert
      simp only []
      rw [if_neg (by omega)]
      have : min ((xs.length : Int).toNat) ks.length = ks.length := by omega
      rw [this]
      simp
    rw [hp]
    refine (runs_rawSet _ _ _).leads.bind ?_
    simp only [runL, addBody]
    refine Ends.look (fun w hw => ?_)
    rw [hw.cdef, m.keyName]
    exact (runs_markLocalKey _ _).leads

/-- `obj.name.append(v)` -/
theorem leads_append {a : Nat} {n : String} {v : Val} {vs : List Val} (hA : A a n = .list vs)
    (hd : Ends C (put A a n (.list (vs ++ [v]))) (olistAdd env a n vs.length v) A') : Ends C A ((FOp.lst n (.append v)).run env a) A' := by
  show Ends C A (listOp env a n (.append v)) A'
  unfold listOp
  refine Ends.look (fun w hw => ?_)
  have h : w.attr a n = .list vs := by rw [hw.2]; exact hA
  simp only [h, ownedOp]
  refine Ends.bind (A₁ := A) ((runs_willChange a n).leads.bind Ends.pure) ((runs_rawSet a n _).leads.bind (Ends.bind (A₁ := A') ?_ Ends.pure))
  exact Ends.bind (A₁ := A') hd Ends.pure

theorem only_these {w w' : World} {A' : Nat → String → Val} {cs : List (Nat × String × Val)} (hs : Holding w' w.classes A')
    (h1 : ∀ c ∈ cs, A' c.1 c.2.1 = c.2.2) (h2 : ∀ a n, (∀ c ∈ cs, ¬ (a = c.1 ∧ n = c.2.1)) → A' a n = w.attr a n) : OnlyThese w w' cs := by
  refine ⟨fun a => congrFun hs.1 a, ?_, ?_⟩ <;> rw [hs.2] <;> assumption

theorem idIn_put {b a : Nat} {n : String} {v : Val} (h : ∀ q, (env.cls (C b)).primary = some q → ¬ (b = a ∧ q = n)) : idIn env C (put A a n v) b = idIn env C A b := by
  unfold idIn
  cases hp : (env.cls (C b)).primary with
  | none => rfl
  | some q => exact put_other (h q hp)

/-! ### Many to many -/

variable {w w' : World}

/-- **C80**. `i.f.append(j)`, if it completes, links the two: `i` gets `j` and its id, `j` gets `i`, and
nothing else changes. -/
theorem append_object (R : Relations env) (P : PlainPrimary env) (hfuel : 6 ≤ env.fuel) (h : ManyToMany env w i j f of) (l : Unlinked w i j f of xs ks ys)
    (hr : (FOp.lst f.name (.append (.obj j))).run env i w = (.ok (), w')) :
    OnlyThese w w' [(i, f.name, .list ((xs ++ [j]).map .obj)), (i, f.refName, .list (ks ++ [w.id env j])), (j, of.name, .list ((ys ++ [i]).map .obj))] := by
  have m := h.mm R P
  obtain ⟨n, hn⟩ : ∃ n, env.fuel = n + 6 := ⟨env.fuel - 6, by omega⟩
  have hji : ∀ s t : String, ¬ (i = j ∧ s = t) := fun s t h => m.differ h.1
  have hij : ∀ s t : String, ¬ (j = i ∧ s = t) := fun s t h => m.differ h.1.symm
  let A₁ := put w.attr i f.name (.list ((xs ++ [j]).map .obj))
  let A₂ := put A₁ j of.name (.list ((ys ++ [i]).map .obj))
  have hid : idIn env w.classes A₂ j = w.id env j := by
    rw [Holding.id (A := w.attr) ⟨rfl, rfl⟩]
    exact (idIn_put (fun q hq h => m.prim q hq h.2)).trans (idIn_put (fun q _ h => hij _ _ h))
  have hx : A₁ i f.name = .list ((xs ++ [j]).map .obj) := put_same _ _ _
  have hx' : A₂ i f.name = .list ((xs ++ [j]).map .obj) := (put_other (hji _ _)).trans hx
  have step : Ends w.classes w.attr ((FOp.lst f.name (.append (.obj j))).run env i) (put A₂ i f.refName (.list (ks ++ [w.id env j]))) := by
    refine leads_append l.objs ?_
    unfold olistAdd
    rw [hn, show n + 6 = (n + 5) + 1 from rfl]
    have hxe : put w.attr i f.name (.list (xs.map .obj ++ [.obj j])) = A₁ := by simp only [A₁, List.map_append, List.map_cons, List.map_nil]
    rw [hxe, List.length_map]
    refine leads_add (A₁ := A₂) m.plainL m.left m.refL ?_ ?_
    · simp only [runL, linkBody, m.oppL, linkItems, m.listL, forItems]
      refine Ends.bind (A₁ := A₂) ((runs_delUnlinked _ _ _).leads.bind ?_) Ends.pure
      unfold linkOther
      simp only []
      refine Ends.bind (A₁ := A₂) ?_ (leads_linkGraph _ _)
      unfold linkSide
      refine Ends.look (fun v hv => ?_)
      have hb : A₁ j of.name = .list (ys.map .obj) := (put_other (hij _ _)).trans l.back
      have e1 : v.attr j of.name = .list (ys.map .obj) := by rw [hv.2]; exact hb
      have hp : pyIn (.obj i) (ys.map .obj) = false := by
        rw [Bool.eq_false_iff]; exact fun h => l.outR (pyIn_obj.1 h)
      simp only [m.listR, e1, hp]
      refine Ends.bind (A₁ := A₂) (leads_listAppendAttr hb ?_) (runs_delUnlinked _ _ _).leads
      have hye : put A₁ j of.name (.list (ys.map .obj ++ [.obj i])) = A₂ := by simp only [A₂, List.map_append, List.map_cons, List.map_nil]
      rw [hye]
      exact leads_add_right m hx' (by simp) _ (n + 2)
    · rw [← hid]
      refine leads_addKey m hx' ?_ l.count (n + 4)
      exact (put_other (hji _ _)).trans ((put_other (fun h => m.distinct h.2)).trans l.ids)
  refine only_these (step w w' ⟨rfl, rfl⟩ hr) ?_ ?_
  · simp only [List.forall_mem_cons]
    exact ⟨(put_other (fun h => m.distinct h.2.symm)).trans hx', put_same _ _ _, (put_other (hij _ _)).trans (put_same _ _ _), fun _ h => nomatch h⟩
  · intro a n ha
    simp only [List.forall_mem_cons] at ha
    exact (put_other ha.2.1).trans ((put_other ha.2.2.1).trans (put_other ha.1))

/-- **C80**. `j.of.append(i)`, from the other side, does the same. -/
theorem append_back (R : Relations env) (P : PlainPrimary env) (hfuel : 6 ≤ env.fuel) (h : ManyToMany env w i j f of) (l : Unlinked w i j f of xs ks ys)
    (hr : (FOp.lst of.name (.append (.obj i))).run env j w = (.ok (), w')) :
    OnlyThese w w' [(i, f.name, .list ((xs ++ [j]).map .obj)), (i, f.refName, .list (ks ++ [w.id env j])), (j, of.name, .list ((ys ++ [i]).map .obj))] := by
  have m := h.mm R P
  obtain ⟨n, hn⟩ : ∃ n, env.fuel = n + 6 := ⟨env.fuel - 6, by omega⟩
  have hji : ∀ s t : String, ¬ (i = j ∧ s = t) := fun s t h => m.differ h.1
  have hij : ∀ s t : String, ¬ (j = i ∧ s = t) := fun s t h => m.differ h.1.symm
  let A₁ := put w.attr j of.name (.list ((ys ++ [i]).map .obj))
  let A₂ := put A₁ i f.name (.list ((xs ++ [j]).map .obj))
  let A₃ := put A₂ i f.refName (.list (ks ++ [w.id env j]))
  have hid : idIn env w.classes A₂ j = w.id env j := by
    rw [Holding.id (A := w.attr) ⟨rfl, rfl⟩]
    exact (idIn_put (fun q _ h => hij _ _ h)).trans (idIn_put (fun q hq h => m.prim q hq h.2))
  have hx : A₂ i f.name = .list ((xs ++ [j]).map .obj) := put_same _ _ _
  have hy : A₂ j of.name = .list ((ys ++ [i]).map .obj) := (put_other (hij _ _)).trans (put_same _ _ _)
  have step : Ends w.classes w.attr ((FOp.lst of.name (.append (.obj i))).run env j) A₃ := by
    refine leads_append l.back ?_
    unfold olistAdd
    rw [hn, show n + 6 = (n + 5) + 1 from rfl]
    have hye : put w.attr j of.name (.list (ys.map .obj ++ [.obj i])) = A₁ := by simp only [A₁, List.map_append, List.map_cons, List.map_nil]
    rw [hye]
    refine leads_add (A₁ := A₃) m.plainR m.right m.refR ?_ ?_
    · simp only [runL, linkBody, m.oppR, linkItems, m.listR, forItems]
      refine Ends.bind (A₁ := A₃) ((runs_delUnlinked _ _ _).leads.bind ?_) Ends.pure
      unfold linkOther
      simp only []
      refine Ends.bind (A₁ := A₃) ?_ (leads_linkGraph _ _)
      unfold linkSide
      refine Ends.look (fun v hv => ?_)
      have hb : A₁ i f.name = .list (xs.map .obj) := (put_other (hji _ _)).trans l.objs
      have e1 : v.attr i f.name = .list (xs.map .obj) := by rw [hv.2]; exact hb
      have hp : pyIn (.obj j) (xs.map .obj) = false := by
        rw [Bool.eq_false_iff]; exact fun h => l.outL (pyIn_obj.1 h)
      simp only [m.listL, e1, hp]
      refine Ends.bind (A₁ := A₃) (leads_listAppendAttr hb ?_) (runs_delUnlinked _ _ _).leads
      have hxe : put A₁ i f.name (.list (xs.map .obj ++ [.obj j])) = A₂ := by simp only [A₂, List.map_append, List.map_cons, List.map_nil]
      rw [hxe, List.length_map]
      refine leads_add (n := n + 3) (A₁ := A₂) m.plainL m.left m.refL ?_ ?_
      · exact leads_link_present m.oppL m.listL m.listR hy (by simp) (n + 2)
      · show Ends _ A₂ _ (put A₂ i f.refName (.list (ks ++ [w.id env j])))
        rw [← hid]
        refine leads_addKey m hx ?_ l.count (n + 2)
        exact (put_other (fun h => m.distinct h.2)).trans ((put_other (hji _ _)).trans l.ids)
    · simp only [addKey, if_neg m.keyR]
      exact Ends.pure
  refine only_these (step w w' ⟨rfl, rfl⟩ hr) ?_ ?_
  · simp only [List.forall_mem_cons]
    exact ⟨(put_other (fun h => m.distinct h.2.symm)).trans hx, put_same _ _ _, (put_other (hij _ _)).trans hy, fun _ h => nomatch h⟩
  · intro a n ha
    simp only [List.forall_mem_cons] at ha
    exact (put_other ha.2.1).trans ((put_other ha.1).trans (put_other ha.2.2.1))


/-! ### One to many -/

/-- the relation in terms of classes -/
structure OM (env : Env) (C : Nat → String) (i j : Nat) (f of : Field) : Prop where
  differ : i ≠ j
  left : (env.cls (C i)).field? f.name = some f
  right : (env.cls (C j)).field? of.name = some of
  plainL : (env.cls (C i)).localKey? f.name = none
  plainR : (env.cls (C j)).localKey? of.name = none
  refL : f.isRef = true
  refR : of.isRef = true
  oppL : env.foreignField f = some of
  oppR : env.foreignField of = some f
  instL : f.ftype = .inst
  listR : of.ftype = .list
  keyL : f.store = .localKey
  keyR : of.store ≠ .localKey
  keyName : (env.cls (C i)).localKey? f.refName = some f
  distinct : f.refName ≠ f.name
  prim : ∀ n, (env.cls (C j)).primary = some n → n ≠ of.name

theorem OneToMany.om (R : Relations env) (P : PlainPrimary env) {w : World} (h : OneToMany env w i j f of) : OM env w.classes i j f of := by
  have hp := R.opp f of h.pair
  have key : ∀ c n g, (env.cls c).field? n = some g → (env.cls c).localKey? n = none := by
    intro c n g hg
    cases hl : (env.cls c).localKey? n with
    | none => rfl
    | some x => exact (R.keys c n x g hl hg).elim
  refine ⟨h.differ, h.left, h.right, key _ _ _ h.left, key _ _ _ h.right, h.pair.2.1, hp.1.2.1, h.pair.2.2, hp.1.2.2, h.kinds.1, h.kinds.2, h.keys.1,
    h.keys.2, R.keyUniq _ f (field_mem h.left).1 h.keys.1, ?_, ?_⟩
  · intro hn
    refine R.keys _ _ f f (R.keyUniq _ f (field_mem h.left).1 h.keys.1) ?_
    rw [hn]; exact h.left
  · rintro n hn rfl
    have := P _ _ of hn h.right
    rw [hp.1.2.1] at this
    cases this

/-- `i` and its id forgotten, from the list side -/
def forgot (A : Nat → String → Val) (i : Nat) (f : Field) : Nat → String → Val := put (put A i f.name .none) i f.refName .none

/-- the list side hears that `i` was removed while `i` still refers to it -/
theorem runs_del_list (m : OM env C i j f of) (hx : A i f.name = .obj j) (n : Nat) : Does C A (runU env (n + 2) (.del j of.name (.obj i))) (forgot A i f) := by
  simp only [runU, delBody]
  refine Does.look (fun w hw => ?_)
  rw [hw.cdef, m.plainR, m.right]
  simp only []
  refine Does.bind ?_ (runs_markModified _ _)
  simp only [delRef, m.refR, if_true]
  refine Does.bind (A₁ := forgot A i f) ?_ ?_
  · simp only [runU, unlinkBody, m.oppR, linkItems, m.listR, forItems]
    refine Does.bind ((runs_addUnlinked _ _ _).bind ?_) Does.pure
    unfold unlinkOther
    simp only []
    refine Does.look (fun v hv => ?_)
    have h : v.attr i f.name = .obj j := by rw [hv.2]; exact hx
    have hq : pyEq (Val.obj j) (.obj j) = true := by simp [pyEq]
    simp only [m.instL, h, hq, if_true]
    refine (runs_rawSet _ _ _).bind (Does.bind (A₁ := forgot A i f) ?_ (runs_addUnlinked _ _ _))
    simp only [unlinkKey, m.keyL, if_true]
    exact (runs_rawSet _ _ _).bind (runs_updObj (fun _ => rfl) (fun _ => rfl))
  · simp only [delKey, if_neg m.keyR]
    exact Does.pure

/-- unlinking the object `i` refers to -/
theorem runs_unlink_single (m : OM env C i j f of) (hx : A i f.name = .obj j) (hy : A j of.name = .list (ys.map .obj)) (hi : i ∈ ys) (n : Nat) :
    Does C A (runU env (n + 3) (.unlink i f (.obj j))) (forgot (put A j of.name (.list ((ys.erase i).map .obj))) i f) := by
  rw [show n + 3 = (n + 2) + 1 from rfl]
  simp only [runU, unlinkBody, m.oppL, linkItems, m.instL, forItems]
  refine Does.bind ((runs_addUnlinked _ _ _).bind ?_) Does.pure
  unfold unlinkOther
  simp only []
  refine Does.look (fun w hw => ?_)
  have h : w.attr j of.name = .list (ys.map .obj) := by rw [hw.2]; exact hy
  simp only [m.listR, h, pyIn_obj.2 hi, if_true]
  refine Does.bind (runs_listRemoveAttr hy (listRemove_map hi) ?_) (runs_addUnlinked _ _ _)
  exact runs_del_list m ((put_other (fun h => m.differ h.1)).trans hx) n

theorem runs_track (i : Nat) (f : Field) : Does C A (track env i f) A := by
  intro w hw
  refine ⟨_, rfl, ?_, ?_⟩
  · rw [← hw.1]; funext j; simp only [World.classes, World.upd]; split
    · rename_i h; rw [h]; split <;> rfl
    · rfl
  · rw [← hw.2]; funext j n; simp only [World.attr, World.upd]; split
    · rename_i h; rw [h]; split <;> rfl
    · rfl

/-- assignment of an object to the single side -/
theorem leads_set_single (m : OM env C i j f of) (hne : pyEq (.obj j) (A i f.name) = false) (hu : Does C A (unlinkField env i f (A i f.name)) A₁) {n : Nat}
    (hl : Ends C (put (put A₁ i f.name (.obj j)) i f.refName (idIn env C A₁ j)) (runL env n (.link i f (.obj j))) A') :
    Ends C A (runL env (n + 1) (.set i f.name (.obj j))) A' := by
  simp only [runL, setBody]
  refine Ends.look (fun w hw => ?_)
  have hc : f.store ≠ .calculated := by rw [m.keyL]; decide
  have ha : w.attr i f.name = A i f.name := by rw [hw.2]
  rw [hw.cdef, m.left, ha]
  simp only [if_neg hc, hne, m.refL, if_true]
  refine (runs_track i f).leads.bind (hu.leads.bind ((runs_rawSet _ _ _).leads.bind (Ends.bind ?_ hl)))
  simp only [syncKey, m.keyL, ne_eq, not_true, if_false, m.instL]
  refine Ends.look (fun v hv => ?_)
  rw [hv.id, idIn_put (fun q _ h => m.differ h.1.symm)]
  exact (runs_rawSet _ _ _).leads

theorem runs_set_none (m : OM env C i j f of) (hx : A i f.name = .obj j) (hu : Does C A (unlinkField env i f (.obj j)) A₁) (n : Nat) :
    Does C A (runL env (n + 2) (.set i f.name .none)) (put (put A₁ i f.name .none) i f.refName .none) := by
  rw [show n + 2 = (n + 1) + 1 from rfl]
  simp only [runL, setBody]
  refine Does.look (fun w hw => ?_)
  have hc : f.store ≠ .calculated := by rw [m.keyL]; decide
  have ha : w.attr i f.name = .obj j := by rw [hw.2]; exact hx
  have hq : pyEq .none (.obj j) = false := by simp [pyEq]
  rw [hw.cdef, m.left, ha]
  simp only [if_neg hc, hq, m.refL, if_true]
  refine (runs_track i f).bind (hu.bind ((runs_rawSet _ _ _).bind (Does.bind (A₁ := put (put A₁ i f.name .none) i f.refName .none) ?_ ?_)))
  · simp only [syncKey, m.keyL, ne_eq, not_true, if_false, m.instL]
    exact runs_rawSet _ _ _
  · simp only [linkBody, m.oppL, linkItems, m.instL, forItems]
    exact Does.pure

/-- linking an object with a list that does not hold `i` yet -/
theorem leads_link_single (m : OM env C i j f of) (hx : A i f.name = .obj j) (hy : A j of.name = .list (ys.map .obj)) (hi : i ∉ ys) (n : Nat) :
    Ends C A (runL env (n + 3) (.link i f (.obj j))) (put A j of.name (.list ((ys ++ [i]).map .obj))) := by
  rw [show n + 3 = (n + 2) + 1 from rfl]
  simp only [runL, linkBody, m.oppL, linkItems, m.instL, forItems]
  refine Ends.bind ((runs_delUnlinked _ _ _).leads.bind ?_) Ends.pure
  unfold linkOther
  simp only []
  refine Ends.bind ?_ (leads_linkGraph _ _)
  unfold linkSide
  refine Ends.look (fun v hv => ?_)
  have e1 : v.attr j of.name = .list (ys.map .obj) := by rw [hv.2]; exact hy
  have hp : pyIn (.obj i) (ys.map .obj) = false := by
    rw [Bool.eq_false_iff]; exact fun h => hi (pyIn_obj.1 h)
  simp only [m.listR, e1, hp]
  refine Ends.bind (leads_listAppendAttr hy ?_) (runs_delUnlinked _ _ _).leads
  have hye : put A j of.name (.list (ys.map .obj ++ [.obj i])) = put A j of.name (.list ((ys ++ [i]).map .obj)) := by
    simp only [List.map_append, List.map_cons, List.map_nil]
  rw [hye]
  refine leads_add (n := n + 1) (A₁ := put A j of.name (.list ((ys ++ [i]).map .obj))) m.plainR m.right m.refR ?_ ?_
  · simp only [runL, linkBody, m.oppR, linkItems, m.listR, forItems]
    refine Ends.bind ((runs_delUnlinked _ _ _).leads.bind ?_) Ends.pure
    unfold linkOther
    simp only []
    refine Ends.bind ?_ (leads_linkGraph _ _)
    unfold linkSide
    refine Ends.look (fun v hv => ?_)
    have e1 : v.attr i f.name = .obj j := by rw [hv.2]; exact (put_other (fun h => m.differ h.1)).trans hx
    have hq : pyEq (Val.obj j) (.obj j) = true := by simp [pyEq]
    simp only [m.instL, e1, hq, if_true]
    exact Ends.pure
  · simp only [addKey, if_neg m.keyR]
    exact Ends.pure

/-- linking an object whose list holds `i` already -/
theorem leads_link_held (m : OM env C i j f of) (hy : A j of.name = .list (ys.map .obj)) (hi : i ∈ ys) (n : Nat) :
    Ends C A (runL env (n + 1) (.link i f (.obj j))) A := by
  simp only [runL, linkBody, m.oppL, linkItems, m.instL, forItems]
  refine Ends.bind ((runs_delUnlinked _ _ _).leads.bind ?_) Ends.pure
  unfold linkOther
  simp only []
  refine Ends.bind ?_ (leads_linkGraph _ _)
  unfold linkSide
  refine Ends.look (fun v hv => ?_)
  have e1 : v.attr j of.name = .list (ys.map .obj) := by rw [hv.2]; exact hy
  simp only [m.listR, e1, pyIn_obj.2 hi, if_true]
  exact Ends.pure

theorem setAttr_field (m : OM env C i j f of) {v : Val} (h : Ends C A (setField env i f.name v) A') : Ends C A ((FOp.set f.name v).run env i) A' := by
  show Ends C A (setAttr env i f.name v) A'
  unfold setAttr
  refine Ends.look (fun w hw => ?_)
  rw [hw.cdef, m.plainL]
  exact h

theorem setAttr_field' (m : OM env C i j f of) {v : Val} (h : Does C A (setField env i f.name v) A') : Does C A ((FOp.set f.name v).run env i) A' := by
  show Does C A (setAttr env i f.name v) A'
  unfold setAttr
  refine Does.look (fun w hw => ?_)
  rw [hw.cdef, m.plainL]
  exact h

variable {a : Nat} {zs : List Nat}

/-- **C80**. `i.f = j` for an `i` that refers to `a`: if it completes, `i` refers to `j` and keeps its id, `a`
has lost `i`, `j` has got it, and nothing else changes. -/
theorem assign_moves (R : Relations env) (P : PlainPrimary env) (hfuel : 6 ≤ env.fuel) (h : OneToMany env w i j f of) (h' : OneToMany env w i a f of) (hne : a ≠ j)
    (hx : w.attr i f.name = .obj a) (hz : w.attr a of.name = .list (zs.map .obj)) (hiz : i ∈ zs) (hy : w.attr j of.name = .list (ys.map .obj)) (hiy : i ∉ ys)
    (hr : (FOp.set f.name (.obj j)).run env i w = (.ok (), w')) :
    OnlyThese w w' [(i, f.name, .obj j), (i, f.refName, w.id env j), (a, of.name, .list ((zs.erase i).map .obj)), (j, of.name, .list ((ys ++ [i]).map .obj))] := by
  have m := h.om R P
  have m' := h'.om R P
  obtain ⟨n, hn⟩ : ∃ n, env.fuel = n + 6 := ⟨env.fuel - 6, by omega⟩
  have d1 := m.differ
  have d2 := m'.differ
  have d3 := m.distinct
  let A₁ := forgot (put w.attr a of.name (.list ((zs.erase i).map .obj))) i f
  let A₂ := put (put A₁ i f.name (.obj j)) i f.refName (idIn env w.classes A₁ j)
  have hid : idIn env w.classes A₁ j = w.id env j := by
    rw [Holding.id (A := w.attr) ⟨rfl, rfl⟩]
    exact (idIn_put (fun q _ h => d1 h.1.symm)).trans ((idIn_put (fun q _ h => d1 h.1.symm)).trans (idIn_put (fun q _ h => hne h.1.symm)))
  have hx2 : A₂ i f.name = .obj j := (put_other (fun h => d3 h.2.symm)).trans (put_same _ _ _)
  have hy2 : A₂ j of.name = .list (ys.map .obj) := by
    simp [A₂, A₁, forgot, put, d1.symm, hne.symm, hy]
  have step : Ends w.classes w.attr ((FOp.set f.name (.obj j)).run env i) (put A₂ j of.name (.list ((ys ++ [i]).map .obj))) := by
    refine setAttr_field m ?_
    unfold setField
    rw [hn, show n + 6 = (n + 5) + 1 from rfl]
    refine leads_set_single m (A₁ := A₁) ?_ ?_ ?_
    · rw [hx]; simp [pyEq, hne.symm]
    · rw [hx]; unfold unlinkField; rw [hn]; exact runs_unlink_single m' hx hz hiz (n + 3)
    · exact leads_link_single m hx2 hy2 hiy (n + 2)
  refine only_these (step w w' ⟨rfl, rfl⟩ hr) ?_ ?_
  · simp only [List.forall_mem_cons]
    refine ⟨(put_other (fun h => d1 h.1)).trans hx2, (put_other (fun h => d1 h.1)).trans ((put_same _ _ _).trans hid), ?_, put_same _ _ _, fun _ h => nomatch h⟩
    simp [A₂, A₁, forgot, put, d2.symm, hne]
  · intro b n hb
    simp only [List.forall_mem_cons] at hb
    simp only [A₂, A₁, forgot, put_other hb.1, put_other hb.2.1, put_other hb.2.2.1, put_other hb.2.2.2.1]

/-- **C80**. `i.f = j` for an `i` that refers to nothing. -/
theorem assign_first (R : Relations env) (P : PlainPrimary env) (hfuel : 6 ≤ env.fuel) (h : OneToMany env w i j f of)
    (hx : w.attr i f.name = .none) (hy : w.attr j of.name = .list (ys.map .obj)) (hiy : i ∉ ys)
    (hr : (FOp.set f.name (.obj j)).run env i w = (.ok (), w')) :
    OnlyThese w w' [(i, f.name, .obj j), (i, f.refName, w.id env j), (j, of.name, .list ((ys ++ [i]).map .obj))] := by
  have m := h.om R P
  obtain ⟨n, hn⟩ : ∃ n, env.fuel = n + 6 := ⟨env.fuel - 6, by omega⟩
  have d1 := m.differ
  have d3 := m.distinct
  let A₂ := put (put w.attr i f.name (.obj j)) i f.refName (idIn env w.classes w.attr j)
  have hid : idIn env w.classes w.attr j = w.id env j := (Holding.id (A := w.attr) ⟨rfl, rfl⟩ j).symm
  have hx2 : A₂ i f.name = .obj j := (put_other (fun h => d3 h.2.symm)).trans (put_same _ _ _)
  have hy2 : A₂ j of.name = .list (ys.map .obj) := by simp [A₂, put, d1.symm, hy]
  have step : Ends w.classes w.attr ((FOp.set f.name (.obj j)).run env i) (put A₂ j of.name (.list ((ys ++ [i]).map .obj))) := by
    refine setAttr_field m ?_
    unfold setField
    rw [hn, show n + 6 = (n + 5) + 1 from rfl]
    refine leads_set_single m (A₁ := w.attr) ?_ ?_ ?_
    · rw [hx]; simp [pyEq]
    · rw [hx]; unfold unlinkField; rw [hn, show n + 6 = (n + 5) + 1 from rfl]
      simp only [runU, unlinkBody, m.oppL, linkItems, m.instL, forItems]
      exact Does.pure
    · exact leads_link_single m hx2 hy2 hiy (n + 2)
  refine only_these (step w w' ⟨rfl, rfl⟩ hr) ?_ ?_
  · simp only [List.forall_mem_cons]
    exact ⟨(put_other (fun h => d1 h.1)).trans hx2, (put_other (fun h => d1 h.1)).trans ((put_same _ _ _).trans hid), put_same _ _ _, fun _ h => nomatch h⟩
  · intro b n hb
    simp only [List.forall_mem_cons] at hb
    simp only [A₂, put_other hb.1, put_other hb.2.1, put_other hb.2.2.1]

/-- **C80**. `j.of.append(i)` for an `i` that refers to `a`: from the list side, the same. -/
theorem append_moves (R : Relations env) (P : PlainPrimary env) (hfuel : 6 ≤ env.fuel) (h : OneToMany env w i j f of) (h' : OneToMany env w i a f of) (hne : a ≠ j)
    (hx : w.attr i f.name = .obj a) (hz : w.attr a of.name = .list (zs.map .obj)) (hiz : i ∈ zs) (hy : w.attr j of.name = .list (ys.map .obj))
    (hr : (FOp.lst of.name (.append (.obj i))).run env j w = (.ok (), w')) :
    OnlyThese w w' [(i, f.name, .obj j), (i, f.refName, w.id env j), (a, of.name, .list ((zs.erase i).map .obj)), (j, of.name, .list ((ys ++ [i]).map .obj))] := by
  have m := h.om R P
  have m' := h'.om R P
  obtain ⟨n, hn⟩ : ∃ n, env.fuel = n + 6 := ⟨env.fuel - 6, by omega⟩
  have d1 := m.differ
  have d2 := m'.differ
  have d3 := m.distinct
  let A₀ := put w.attr j of.name (.list ((ys ++ [i]).map .obj))
  let A₁ := forgot (put A₀ a of.name (.list ((zs.erase i).map .obj))) i f
  let A₂ := put (put A₁ i f.name (.obj j)) i f.refName (idIn env w.classes A₁ j)
  have hid : idIn env w.classes A₁ j = w.id env j := by
    rw [Holding.id (A := w.attr) ⟨rfl, rfl⟩]
    exact (idIn_put (fun q _ h => d1 h.1.symm)).trans ((idIn_put (fun q _ h => d1 h.1.symm)).trans ((idIn_put (fun q _ h => hne h.1.symm)).trans
      (idIn_put (fun q hq h => m.prim q hq h.2))))
  have hx0 : A₀ i f.name = .obj a := (put_other (fun h => d1 h.1)).trans hx
  have hx2 : A₂ i f.name = .obj j := (put_other (fun h => d3 h.2.symm)).trans (put_same _ _ _)
  have hy2 : A₂ j of.name = .list ((ys ++ [i]).map .obj) := by
    simp [A₂, A₁, A₀, forgot, put, d1.symm, hne.symm]
  have step : Ends w.classes w.attr ((FOp.lst of.name (.append (.obj i))).run env j) A₂ := by
    refine leads_append hy ?_
    unfold olistAdd
    rw [hn, show n + 6 = (n + 5) + 1 from rfl]
    have hye : put w.attr j of.name (.list (ys.map .obj ++ [.obj i])) = A₀ := by simp only [A₀, List.map_append, List.map_cons, List.map_nil]
    rw [hye]
    refine leads_add (A₁ := A₂) m.plainR m.right m.refR ?_ ?_
    · simp only [runL, linkBody, m.oppR, linkItems, m.listR, forItems]
      refine Ends.bind (A₁ := A₂) ((runs_delUnlinked _ _ _).leads.bind ?_) Ends.pure
      unfold linkOther
      simp only []
      refine Ends.bind (A₁ := A₂) ?_ (leads_linkGraph _ _)
      unfold linkSide
      refine Ends.look (fun v hv => ?_)
      have e1 : v.attr i f.name = .obj a := by rw [hv.2]; exact hx0
      have hq : pyEq (Val.obj a) (.obj j) = false := by simp [pyEq, hne]
      simp only [m.instL, e1, hq]
      refine Ends.bind (A₁ := A₂) ?_ (runs_delUnlinked _ _ _).leads
      refine leads_set_single (n := n + 3) m (A₁ := A₁) ?_ ?_ ?_
      · rw [hx0]; simp [pyEq, hne.symm]
      · rw [hx0]; unfold unlinkField; rw [hn]; exact runs_unlink_single m' hx0 ((put_other (fun h => hne h.1)).trans hz) hiz (n + 3)
      · exact leads_link_held m hy2 (by simp) (n + 2)
    · simp only [addKey, if_neg m.keyR]
      exact Ends.pure
  refine only_these (step w w' ⟨rfl, rfl⟩ hr) ?_ ?_
  · simp only [List.forall_mem_cons]
    refine ⟨hx2, (put_same _ _ _).trans hid, ?_, hy2, fun _ h => nomatch h⟩
    simp [A₂, A₁, forgot, put, d2.symm]
  · intro b n hb
    simp only [List.forall_mem_cons] at hb
    simp only [A₂, A₁, A₀, forgot, put_other hb.1, put_other hb.2.1, put_other hb.2.2.1, put_other hb.2.2.2.1]

/-- **C80**. `i.f = None` completes: `i` refers to nothing and keeps no id, `j` has lost `i`, and nothing
else changes. -/
theorem assign_none (R : Relations env) (P : PlainPrimary env) (hfuel : 6 ≤ env.fuel) (h : OneToMany env w i j f of)
    (hx : w.attr i f.name = .obj j) (hy : w.attr j of.name = .list (ys.map .obj)) (hiy : i ∈ ys) :
    ∃ w', (FOp.set f.name .none).run env i w = (.ok (), w') ∧
      OnlyThese w w' [(i, f.name, .none), (i, f.refName, .none), (j, of.name, .list ((ys.erase i).map .obj))] := by
  have m := h.om R P
  obtain ⟨n, hn⟩ : ∃ n, env.fuel = n + 6 := ⟨env.fuel - 6, by omega⟩
  have d1 := m.differ
  have d3 := m.distinct
  let A₁ := forgot (put w.attr j of.name (.list ((ys.erase i).map .obj))) i f
  have step : Does w.classes w.attr ((FOp.set f.name .none).run env i) (put (put A₁ i f.name .none) i f.refName .none) := by
    refine setAttr_field' m ?_
    unfold setField
    rw [hn]
    refine runs_set_none m hx ?_ (n + 4)
    unfold unlinkField; rw [hn]; exact runs_unlink_single m hx hy hiy (n + 3)
  obtain ⟨w', h1, h2⟩ := step w ⟨rfl, rfl⟩
  refine ⟨w', h1, only_these h2 ?_ ?_⟩
  · simp only [List.forall_mem_cons]
    refine ⟨(put_other (fun h => d3 h.2.symm)).trans (put_same _ _ _), put_same _ _ _, ?_, fun _ h => nomatch h⟩
    simp [A₁, forgot, put, d1.symm]
  · intro b n hb
    simp only [List.forall_mem_cons] at hb
    simp only [A₁, forgot, put_other hb.1, put_other hb.2.1, put_other hb.2.2.1]

/-- **C80**. `j.of.remove(i)`, from the list side, does the same. -/
theorem remove_single (R : Relations env) (P : PlainPrimary env) (hfuel : 6 ≤ env.fuel) (h : OneToMany env w i j f of)
    (hx : w.attr i f.name = .obj j) (hy : w.attr j of.name = .list (ys.map .obj)) (hiy : i ∈ ys) :
    ∃ w', (FOp.lst of.name (.remove (.obj i))).run env j w = (.ok (), w') ∧
      OnlyThese w w' [(i, f.name, .none), (i, f.refName, .none), (j, of.name, .list ((ys.erase i).map .obj))] := by
  have m := h.om R P
  obtain ⟨n, hn⟩ : ∃ n, env.fuel = n + 6 := ⟨env.fuel - 6, by omega⟩
  have d1 := m.differ
  have d3 := m.distinct
  have step : Does w.classes w.attr ((FOp.lst of.name (.remove (.obj i))).run env j) (forgot (put w.attr j of.name (.list ((ys.erase i).map .obj))) i f) := by
    refine runs_remove hy (listRemove_map hiy) ?_
    unfold olistDel
    rw [hn]
    exact runs_del_list m ((put_other (fun h => d1 h.1)).trans hx) (n + 4)
  obtain ⟨w', h1, h2⟩ := step w ⟨rfl, rfl⟩
  refine ⟨w', h1, only_these h2 ?_ ?_⟩
  · simp only [List.forall_mem_cons]
    refine ⟨(put_other (fun h => d3 h.2.symm)).trans (put_same _ _ _), put_same _ _ _, ?_, fun _ h => nomatch h⟩
    simp [forgot, put, d1.symm]
  · intro b n hb
    simp only [List.forall_mem_cons] at hb
    simp only [forgot, put_other hb.1, put_other hb.2.1, put_other hb.2.2.1]

/-- **C80**. Assigning another id, `i.key = k`, completes: `i` keeps that id and refers to no object, `j` has
lost `i`, and nothing else changes. -/
theorem assign_key (R : Relations env) (P : PlainPrimary env) (hfuel : 6 ≤ env.fuel) (h : OneToMany env w i j f of)
    (hx : w.attr i f.name = .obj j) (hy : w.attr j of.name = .list (ys.map .obj)) (hiy : i ∈ ys) {k : Val} (hk : pyEq k (w.attr i f.refName) = false) :
    ∃ w', (FOp.set f.refName k).run env i w = (.ok (), w') ∧
      OnlyThese w w' [(i, f.name, .none), (i, f.refName, k), (j, of.name, .list ((ys.erase i).map .obj))] := by
  have m := h.om R P
  obtain ⟨n, hn⟩ : ∃ n, env.fuel = n + 6 := ⟨env.fuel - 6, by omega⟩
  have d1 := m.differ
  have d3 := m.distinct
  let A₀ := put w.attr i f.refName k
  let A₁ := forgot (put A₀ j of.name (.list ((ys.erase i).map .obj))) i f
  let A₂ := put (put A₁ i f.name .none) i f.refName .none
  have hx0 : A₀ i f.name = .obj j := (put_other (fun h => d3 h.2.symm)).trans hx
  have step : Does w.classes w.attr ((FOp.set f.refName k).run env i) (put A₂ i f.refName k) := by
    show Does w.classes w.attr (setAttr env i f.refName k) _
    unfold setAttr
    refine Does.look (fun v hv => ?_)
    rw [hv.cdef, m.keyName]
    simp only [setLocalKey]
    refine Does.look (fun v hv => ?_)
    have e1 : v.attr i f.refName = w.attr i f.refName := by rw [hv.2]
    rw [e1, hk]
    simp only [setLocalKeyField, m.instL]
    refine Does.bind (A₁ := A₂) ((runs_rawSet _ _ _).bind ?_) ((runs_markModified _ _).bind (runs_rawSet _ _ _))
    unfold setField
    rw [hn]
    refine runs_set_none m hx0 ?_ (n + 4)
    unfold unlinkField; rw [hn]
    exact runs_unlink_single m hx0 ((put_other (fun h => d1 h.1.symm)).trans hy) hiy (n + 3)
  obtain ⟨w', h1, h2⟩ := step w ⟨rfl, rfl⟩
  refine ⟨w', h1, only_these h2 ?_ ?_⟩
  · simp only [List.forall_mem_cons]
    refine ⟨(put_other (fun h => d3 h.2.symm)).trans ((put_other (fun h => d3 h.2.symm)).trans (put_same _ _ _)), put_same _ _ _, ?_, fun _ h => nomatch h⟩
    simp [A₂, A₁, forgot, put, d1.symm]
  · intro b n hb
    simp only [List.forall_mem_cons] at hb
    simp only [A₂, A₁, A₀, forgot, put_other hb.1, put_other hb.2.1, put_other hb.2.2.1]


/-! ### One to one -/

/-- A one-to-one relation between objects `i` and `j`: each refers to one object, `i` in field `f` with its id
beside it, `j` in field `of`. -/
structure OneToOne (env : Env) (w : World) (i j : Nat) (f of : Field) : Prop where
  differ : i ≠ j
  left : HasField env w i f
  right : HasField env w j of
  pair : Paired env f of
  kinds : f.ftype = .inst ∧ of.ftype = .inst
  keys : f.store = .localKey ∧ of.store ≠ .localKey ∧ of.store ≠ .calculated

/-- an object or nothing -/
def oneOf : Option Nat → Val
  | some a => .obj a
  | none => .none

/-- `i` refers to `a` (or nothing), which refers back; `j` refers to `c` (or nothing), which refers back. -/
structure Partners (env : Env) (w : World) (i j : Nat) (f of : Field) (a c : Option Nat) : Prop where
  left : w.attr i f.name = oneOf a
  leftBack : ∀ x, a = some x → w.attr x of.name = .obj i ∧ x ≠ i ∧ x ≠ j ∧ HasField env w x of
  right : w.attr j of.name = oneOf c
  rightBack : ∀ x, c = some x → w.attr x f.name = .obj j ∧ x ≠ i ∧ x ≠ j ∧ HasField env w x f

/-- What changes when `i` and `j` become partners: they refer to each other, `i` keeps the id of `j`, and their
former partners, if any, refer to nothing. -/
def paired (env : Env) (w : World) (i j : Nat) (f of : Field) (a c : Option Nat) : List (Nat × String × Val) :=
  [(i, f.name, .obj j), (i, f.refName, w.id env j), (j, of.name, .obj i)] ++
  a.toList.map (fun x => (x, of.name, .none)) ++ c.toList.flatMap (fun x => [(x, f.name, .none), (x, f.refName, .none)])

/-- `of` of the former partner forgotten -/
def clearedL (A : Nat → String → Val) (of : Field) : Option Nat → Nat → String → Val
  | none => A
  | some x => put A x of.name .none

def clearedR (A : Nat → String → Val) (f : Field) : Option Nat → Nat → String → Val
  | none => A
  | some x => forgot A x f

structure O1 (env : Env) (f of : Field) : Prop where
  oppL : env.foreignField f = some of
  oppR : env.foreignField of = some f
  instL : f.ftype = .inst
  instR : of.ftype = .inst
  keyL : f.store = .localKey
  keyR : of.store ≠ .localKey

theorem runs_unlinkL (m : O1 env f of) {a : Option Nat} (hb : ∀ x, a = some x → A x of.name = .obj i) (n : Nat) :
    Does C A (runU env (n + 1) (.unlink i f (oneOf a))) (clearedL A of a) := by
  cases a with
  | none =>
    simp only [runU, unlinkBody, m.oppL, oneOf, linkItems, m.instL, forItems]
    exact Does.pure
  | some x =>
    simp only [runU, unlinkBody, m.oppL, oneOf, linkItems, m.instL, forItems]
    refine Does.bind ((runs_addUnlinked _ _ _).bind ?_) Does.pure
    unfold unlinkOther
    simp only []
    refine Does.look (fun v hv => ?_)
    have h : v.attr x of.name = .obj i := by rw [hv.2]; exact hb x rfl
    have hq : pyEq (Val.obj i) (.obj i) = true := by simp [pyEq]
    simp only [m.instR, h, hq, if_true]
    refine (runs_rawSet _ _ _).bind (Does.bind (A₁ := clearedL A of (some x)) ?_ (runs_addUnlinked _ _ _))
    simp only [unlinkKey, if_neg m.keyR]
    exact Does.pure

theorem runs_unlinkR (m : O1 env f of) {c : Option Nat} (hb : ∀ x, c = some x → A x f.name = .obj j) (n : Nat) :
    Does C A (runU env (n + 1) (.unlink j of (oneOf c))) (clearedR A f c) := by
  cases c with
  | none =>
    simp only [runU, unlinkBody, m.oppR, oneOf, linkItems, m.instR, forItems]
    exact Does.pure
  | some x =>
    simp only [runU, unlinkBody, m.oppR, oneOf, linkItems, m.instR, forItems]
    refine Does.bind ((runs_addUnlinked _ _ _).bind ?_) Does.pure
    unfold unlinkOther
    simp only []
    refine Does.look (fun v hv => ?_)
    have h : v.attr x f.name = .obj j := by rw [hv.2]; exact hb x rfl
    have hq : pyEq (Val.obj j) (.obj j) = true := by simp [pyEq]
    simp only [m.instL, h, hq, if_true]
    refine (runs_rawSet _ _ _).bind (Does.bind (A₁ := clearedR A f (some x)) ?_ (runs_addUnlinked _ _ _))
    simp only [unlinkKey, m.keyL, if_true]
    exact (runs_rawSet _ _ _).bind (runs_updObj (fun _ => rfl) (fun _ => rfl))

/-- linking with an object of a single relation which refers back already -/
theorem leads_link_back {g og : Field} {p q : Nat} (ho : env.foreignField g = some og) (hg : g.ftype = .inst) (hog : og.ftype = .inst)
    (hA : A q og.name = .obj p) (n : Nat) : Ends C A (runL env (n + 1) (.link p g (.obj q))) A := by
  simp only [runL, linkBody, ho, linkItems, hg, forItems]
  refine Ends.bind ((runs_delUnlinked _ _ _).leads.bind ?_) Ends.pure
  unfold linkOther
  simp only []
  refine Ends.bind ?_ (leads_linkGraph _ _)
  unfold linkSide
  refine Ends.look (fun v hv => ?_)
  have e1 : v.attr q og.name = .obj p := by rw [hv.2]; exact hA
  have hq : pyEq (Val.obj p) (.obj p) = true := by simp [pyEq]
  simp only [hog, e1, hq, if_true]
  exact Ends.pure

/-- linking with an object which does not refer back: it is assigned -/
theorem leads_link_assign {g og : Field} {p q : Nat} (ho : env.foreignField g = some og) (hg : g.ftype = .inst) (hog : og.ftype = .inst)
    (hA : pyEq (A q og.name) (.obj p) = false) {n : Nat} (hs : Ends C A (runL env n (.set q og.name (.obj p))) A') :
    Ends C A (runL env (n + 1) (.link p g (.obj q))) A' := by
  simp only [runL, linkBody, ho, linkItems, hg, forItems]
  refine Ends.bind ((runs_delUnlinked _ _ _).leads.bind ?_) Ends.pure
  unfold linkOther
  simp only []
  refine Ends.bind ?_ (leads_linkGraph _ _)
  unfold linkSide
  refine Ends.look (fun v hv => ?_)
  have e1 : v.attr q og.name = A q og.name := by rw [hv.2]
  simp only [hog, e1, hA]
  exact Ends.bind hs (runs_delUnlinked _ _ _).leads

/-- assignment of an object to a single relation -/
theorem leads_set_one {g : Field} {p q : Nat} {A₂ : Nat → String → Val} (hf : (env.cls (C p)).field? g.name = some g) (hc : g.store ≠ .calculated) (hr : g.isRef = true)
    (hne : pyEq (.obj q) (A p g.name) = false) (hu : Does C A (unlinkField env p g (A p g.name)) A₁) {n : Nat}
    (hk : Does C (put A₁ p g.name (.obj q)) (syncKey env p g (.obj q)) A₂) (hl : Ends C A₂ (runL env n (.link p g (.obj q))) A') :
    Ends C A (runL env (n + 1) (.set p g.name (.obj q))) A' := by
  simp only [runL, setBody]
  refine Ends.look (fun w hw => ?_)
  have ha : w.attr p g.name = A p g.name := by rw [hw.2]
  rw [hw.cdef, hf, ha]
  simp only [if_neg hc, hne, hr, if_true]
  exact (runs_track p g).leads.bind (hu.leads.bind ((runs_rawSet _ _ _).leads.bind (hk.leads.bind hl)))

theorem OneToOne.oo (R : Relations env) (P : PlainPrimary env) {w : World} (h : OneToOne env w i j f of) :
    O1 env f of ∧ f.isRef = true ∧ of.isRef = true ∧ (env.cls (w.classes i)).localKey? f.name = none ∧ (env.cls (w.classes j)).localKey? of.name = none ∧
    f.refName ≠ f.name ∧ ∀ n, (env.cls (w.classes j)).primary = some n → n ≠ of.name := by
  have hp := R.opp f of h.pair
  have key : ∀ c n g, (env.cls c).field? n = some g → (env.cls c).localKey? n = none := by
    intro c n g hg
    cases hl : (env.cls c).localKey? n with
    | none => rfl
    | some x => exact (R.keys c n x g hl hg).elim
  refine ⟨⟨h.pair.2.2, hp.1.2.2, h.kinds.1, h.kinds.2, h.keys.1, h.keys.2.1⟩, h.pair.2.1, hp.1.2.1, key _ _ _ h.left, key _ _ _ h.right, ?_, ?_⟩
  · intro hn
    refine R.keys _ _ f f (R.keyUniq _ f (field_mem h.left).1 h.keys.1) ?_
    rw [hn]; exact h.left
  · rintro n hn rfl
    have := P _ _ of hn h.right
    rw [hp.1.2.1] at this
    cases this

theorem runs_syncL (m : O1 env f of) {v : Val} (hv : idIn env C A j = v) : Does C A (syncKey env i f (.obj j)) (put A i f.refName v) := by
  simp only [syncKey, m.keyL, ne_eq, not_true, if_false, m.instL]
  refine Does.look (fun u hu => ?_)
  rw [hu.id, hv]
  exact runs_rawSet _ _ _

theorem runs_syncR (m : O1 env f of) (v : Val) : Does C A (syncKey env j of v) A := by
  simp only [syncKey, ne_eq, m.keyR, not_false_eq_true, if_true]
  exact Does.pure

theorem clearedL_other {A : Nat → String → Val} {a : Option Nat} {x : Nat} {n : String} (h : ∀ y, a = some y → x ≠ y) : clearedL A of a x n = A x n := by
  cases a with
  | none => rfl
  | some y => exact put_other (fun hc => h y rfl hc.1)

theorem clearedR_other {A : Nat → String → Val} {a : Option Nat} {x : Nat} {n : String} (h : ∀ y, a = some y → x ≠ y) : clearedR A f a x n = A x n := by
  cases a with
  | none => rfl
  | some y => exact (put_other (fun hc => h y rfl hc.1)).trans (put_other (fun hc => h y rfl hc.1))

theorem oneOf_ne {a : Option Nat} {x : Nat} (h : ∀ y, a = some y → y ≠ x) : pyEq (.obj x) (oneOf a) = false ∧ pyEq (oneOf a) (.obj x) = false := by
  cases a with
  | none => simp [oneOf, pyEq]
  | some y => simp [oneOf, pyEq, h y rfl, (h y rfl).symm]

/-- the values at the end, in either order -/
theorem paired_values {A' : Nat → String → Val} {a c : Option Nat} (p : Partners env w i j f of a c) (hij : i ≠ j) (hd : f.refName ≠ f.name)
    (hA : ∀ x n, A' x n = if x = i ∧ n = f.refName then w.id env j else if x = i ∧ n = f.name then .obj j else if x = j ∧ n = of.name then .obj i else
      if some x = a ∧ n = of.name then .none else if some x = c ∧ (n = f.name ∨ n = f.refName) then .none else w.attr x n) :
    (∀ d ∈ paired env w i j f of a c, A' d.1 d.2.1 = d.2.2) ∧
    ∀ x n, (∀ d ∈ paired env w i j f of a c, ¬ (x = d.1 ∧ n = d.2.1)) → A' x n = w.attr x n := by
  refine ⟨?_, ?_⟩
  · intro d hd'
    unfold paired at hd'
    simp only [List.mem_append, List.mem_cons, List.not_mem_nil, or_false, List.mem_map, List.mem_flatMap, Option.mem_toList] at hd'
    rcases hd' with ((rfl | rfl | rfl) | ⟨x, hx, rfl⟩) | ⟨x, hx, rfl | rfl⟩
    · simp [hA, hd.symm]
    · simp [hA]
    · simp [hA, hij.symm]
    · have := p.leftBack x hx
      simp [hA, this.2.1, this.2.2.1, hx]
    · have := p.rightBack x hx
      simp [hA, this.2.1, this.2.2.1, hx]
    · have := p.rightBack x hx
      simp [hA, this.2.1, this.2.2.1, hx]
  · intro x n h
    unfold paired at h
    simp only [List.mem_append, List.mem_cons, List.not_mem_nil, or_false, List.mem_map, List.mem_flatMap, Option.mem_toList] at h
    have h1 := h _ (.inl (.inl (.inl rfl)))
    have h2 := h _ (.inl (.inl (.inr (.inl rfl))))
    have h3 := h _ (.inl (.inl (.inr (.inr rfl))))
    rw [hA, if_neg h2, if_neg h1, if_neg h3, if_neg, if_neg]
    · rintro ⟨hc, rfl | rfl⟩
      · exact h (x, f.name, .none) (.inr ⟨x, hc.symm, .inl rfl⟩) ⟨rfl, rfl⟩
      · exact h (x, f.refName, .none) (.inr ⟨x, hc.symm, .inr rfl⟩) ⟨rfl, rfl⟩
    · rintro ⟨ha, rfl⟩
      exact h (x, of.name, .none) (.inl (.inr ⟨x, ha.symm, rfl⟩)) ⟨rfl, rfl⟩

theorem clearedL_apply {A : Nat → String → Val} (a : Option Nat) (x : Nat) (n : String) :
    clearedL A of a x n = if some x = a ∧ n = of.name then .none else A x n := by
  cases a with
  | none => simp [clearedL]
  | some y => simp [clearedL, put]

theorem clearedR_apply {A : Nat → String → Val} (c : Option Nat) (x : Nat) (n : String) :
    clearedR A f c x n = if some x = c ∧ (n = f.name ∨ n = f.refName) then .none else A x n := by
  cases c with
  | none => simp [clearedR]
  | some y =>
    simp only [clearedR, forgot, put, Option.some.injEq]
    by_cases h : x = y <;> by_cases h1 : n = f.name <;> by_cases h2 : n = f.refName <;> simp [h, h1, h2]

/-- the order of the two sides does not matter -/
theorem paired_eq {a c : Option Nat} (p : Partners env w i j f of a c) (hij : i ≠ j) (x : Nat) (n : String) :
    put (clearedR (put (put (clearedL w.attr of a) i f.name (.obj j)) i f.refName (w.id env j)) f c) j of.name (.obj i) x n =
    if x = i ∧ n = f.refName then w.id env j else if x = i ∧ n = f.name then .obj j else if x = j ∧ n = of.name then .obj i else
      if some x = a ∧ n = of.name then .none else if some x = c ∧ (n = f.name ∨ n = f.refName) then .none else w.attr x n := by
  simp only [put, clearedR_apply, clearedL_apply]
  by_cases hi : x = i
  · subst hi
    have ha : ¬ some x = a := fun h => (p.leftBack x h.symm).2.1 rfl
    have hc : ¬ some x = c := fun h => (p.rightBack x h.symm).2.1 rfl
    simp [ha, hc, hij]
  · by_cases hj : x = j
    · subst hj
      have ha : ¬ some x = a := fun h => (p.leftBack x h.symm).2.2.1 rfl
      have hc : ¬ some x = c := fun h => (p.rightBack x h.symm).2.2.1 rfl
      simp [ha, hc, hij.symm]
    · simp only [hi, hj, false_and, if_false]
      split_ifs <;> rfl

theorem paired_eq' {a c : Option Nat} (p : Partners env w i j f of a c) (hij : i ≠ j) (x : Nat) (n : String) :
    put (put (clearedL (put (clearedR w.attr f c) j of.name (.obj i)) of a) i f.name (.obj j)) i f.refName (w.id env j) x n =
    if x = i ∧ n = f.refName then w.id env j else if x = i ∧ n = f.name then .obj j else if x = j ∧ n = of.name then .obj i else
      if some x = a ∧ n = of.name then .none else if some x = c ∧ (n = f.name ∨ n = f.refName) then .none else w.attr x n := by
  simp only [put, clearedR_apply, clearedL_apply]
  by_cases hi : x = i
  · subst hi
    have ha : ¬ some x = a := fun h => (p.leftBack x h.symm).2.1 rfl
    have hc : ¬ some x = c := fun h => (p.rightBack x h.symm).2.1 rfl
    simp [ha, hc, hij]
  · by_cases hj : x = j
    · subst hj
      have ha : ¬ some x = a := fun h => (p.leftBack x h.symm).2.2.1 rfl
      have hc : ¬ some x = c := fun h => (p.rightBack x h.symm).2.2.1 rfl
      simp [ha, hc, hij.symm]
    · simp only [hi, hj, false_and, if_false]

/-- **C80**. `i.f = j` in a one-to-one relation, whoever their former partners were: if it completes, the two
refer to each other, their former partners refer to nothing, and nothing else changes. -/
theorem assign_partner (R : Relations env) (P : PlainPrimary env) (hfuel : 6 ≤ env.fuel) (h : OneToOne env w i j f of) {a c : Option Nat} (p : Partners env w i j f of a c)
    (hr : (FOp.set f.name (.obj j)).run env i w = (.ok (), w')) : OnlyThese w w' (paired env w i j f of a c) := by
  obtain ⟨m, r1, r2, k1, k2, d3, prim⟩ := h.oo R P
  have d1 := h.differ
  obtain ⟨n, hn⟩ : ∃ n, env.fuel = n + 6 := ⟨env.fuel - 6, by omega⟩
  let A₁ := clearedL w.attr of a
  let A₂ := put A₁ i f.name (.obj j)
  let A₃ := put A₂ i f.refName (w.id env j)
  let A₄ := clearedR A₃ f c
  let A₅ := put A₄ j of.name (.obj i)
  have hai : ∀ y, a = some y → i ≠ y := fun y hy => (p.leftBack y hy).2.1.symm
  have haj : ∀ y, a = some y → j ≠ y := fun y hy => (p.leftBack y hy).2.2.1.symm
  have hci : ∀ y, c = some y → i ≠ y := fun y hy => (p.rightBack y hy).2.1.symm
  have hcj : ∀ y, c = some y → j ≠ y := fun y hy => (p.rightBack y hy).2.2.1.symm
  have hid : idIn env w.classes A₂ j = w.id env j := by
    rw [Holding.id (A := w.attr) ⟨rfl, rfl⟩]
    refine (idIn_put (fun q _ h => d1 h.1.symm)).trans ?_
    unfold idIn
    cases hp : (env.cls (w.classes j)).primary with
    | none => rfl
    | some q => exact clearedL_other haj
  have e3 : A₃ j of.name = oneOf c := by
    simp only [A₃, A₂, A₁]
    rw [put_other (fun h => d1 h.1.symm), put_other (fun h => d1 h.1.symm), clearedL_other haj]
    exact p.right
  have e5 : A₅ i f.name = .obj j := by
    simp only [A₅, A₄, A₃, A₂]
    rw [put_other (fun h => d1 h.1), clearedR_other hci, put_other (fun h => d3 h.2.symm), put_same]
  have step : Ends w.classes w.attr ((FOp.set f.name (.obj j)).run env i) A₅ := by
    show Ends _ _ (setAttr env i f.name (.obj j)) _
    unfold setAttr
    refine Ends.look (fun v hv => ?_)
    rw [hv.cdef, k1]
    simp only []
    unfold setField
    rw [hn, show n + 6 = (n + 5) + 1 from rfl]
    refine leads_set_one (A₁ := A₁) (A₂ := A₃) (show (env.cls (w.classes i)).field? f.name = some f from h.left) (by rw [m.keyL]; decide) r1 ?_ ?_ (runs_syncL m hid) ?_
    · rw [p.left]; exact (oneOf_ne (fun y hy => (haj y hy).symm)).1
    · rw [p.left]; unfold unlinkField; rw [hn]; exact runs_unlinkL m (fun x hx => (p.leftBack x hx).1) (n + 5)
    · refine leads_link_assign m.oppL m.instL m.instR ?_ (n := n + 4) ?_
      · rw [e3]; exact (oneOf_ne (fun y hy => (hci y hy).symm)).2
      · refine leads_set_one (A₁ := A₄) (A₂ := A₅) (show (env.cls (w.classes j)).field? of.name = some of from h.right) h.keys.2.2 r2 ?_ ?_ (runs_syncR m _) ?_
        · rw [e3]; exact (oneOf_ne (fun y hy => (hci y hy).symm)).1
        · rw [e3]; unfold unlinkField; rw [hn]
          refine runs_unlinkR m (fun x hx => ?_) (n + 5)
          obtain ⟨b1, b2, -, -⟩ := p.rightBack x hx
          simp only [A₃, A₂, A₁]
          rw [put_other (fun h => b2 h.1), put_other (fun h => b2 h.1)]
          rw [clearedL_apply, if_neg]
          · exact b1
          · rintro ⟨q1, q2⟩
            -- a former partner of both: `x.of` is `i`, `x.f` is `j`, of one name
            have := (p.leftBack x q1.symm).1
            rw [← q2, b1] at this
            cases this
            exact d1 rfl
        · exact leads_link_back m.oppR m.instR m.instL e5 (n + 2)
  have hv := paired_values (env := env) (A' := A₅) p d1 d3 (paired_eq p d1)
  exact only_these (step w w' ⟨rfl, rfl⟩ hr) hv.1 hv.2

/-- **C80**. `j.of = i`, from the side without the id, does the same. -/
theorem assign_partner_back (R : Relations env) (P : PlainPrimary env) (hfuel : 6 ≤ env.fuel) (h : OneToOne env w i j f of) {a c : Option Nat}
    (p : Partners env w i j f of a c) (hr : (FOp.set of.name (.obj i)).run env j w = (.ok (), w')) : OnlyThese w w' (paired env w i j f of a c) := by
  obtain ⟨m, r1, r2, k1, k2, d3, prim⟩ := h.oo R P
  have d1 := h.differ
  obtain ⟨n, hn⟩ : ∃ n, env.fuel = n + 6 := ⟨env.fuel - 6, by omega⟩
  let A₁ := clearedR w.attr f c
  let A₂ := put A₁ j of.name (.obj i)
  let A₃ := clearedL A₂ of a
  let A₄ := put A₃ i f.name (.obj j)
  let A₅ := put A₄ i f.refName (w.id env j)
  have hai : ∀ y, a = some y → i ≠ y := fun y hy => (p.leftBack y hy).2.1.symm
  have haj : ∀ y, a = some y → j ≠ y := fun y hy => (p.leftBack y hy).2.2.1.symm
  have hci : ∀ y, c = some y → i ≠ y := fun y hy => (p.rightBack y hy).2.1.symm
  have hcj : ∀ y, c = some y → j ≠ y := fun y hy => (p.rightBack y hy).2.2.1.symm
  have hid : idIn env w.classes A₄ j = w.id env j := by
    rw [Holding.id (A := w.attr) ⟨rfl, rfl⟩]
    refine (idIn_put (fun q _ h => d1 h.1.symm)).trans ?_
    unfold idIn
    cases hp : (env.cls (w.classes j)).primary with
    | none => rfl
    | some q => exact (clearedL_other haj).trans ((put_other (fun h => prim q hp h.2)).trans (clearedR_other hcj))
  have e2 : A₂ i f.name = oneOf a := by
    simp only [A₂, A₁]
    rw [put_other (fun h => d1 h.1), clearedR_other hci]
    exact p.left
  have e5 : A₅ j of.name = .obj i := by
    simp only [A₅, A₄, A₃, A₂]
    rw [put_other (fun h => d1 h.1.symm), put_other (fun h => d1 h.1.symm), clearedL_other haj, put_same]
  have step : Ends w.classes w.attr ((FOp.set of.name (.obj i)).run env j) A₅ := by
    show Ends _ _ (setAttr env j of.name (.obj i)) _
    unfold setAttr
    refine Ends.look (fun v hv => ?_)
    rw [hv.cdef, k2]
    simp only []
    unfold setField
    rw [hn, show n + 6 = (n + 5) + 1 from rfl]
    refine leads_set_one (A₁ := A₁) (A₂ := A₂) (show (env.cls (w.classes j)).field? of.name = some of from h.right) h.keys.2.2 r2 ?_ ?_ (runs_syncR m _) ?_
    · rw [p.right]; exact (oneOf_ne (fun y hy => (hci y hy).symm)).1
    · rw [p.right]; unfold unlinkField; rw [hn]; exact runs_unlinkR m (fun x hx => (p.rightBack x hx).1) (n + 5)
    · refine leads_link_assign m.oppR m.instR m.instL ?_ (n := n + 4) ?_
      · rw [e2]; exact (oneOf_ne (fun y hy => (haj y hy).symm)).2
      · refine leads_set_one (A₁ := A₃) (A₂ := A₅) (show (env.cls (w.classes i)).field? f.name = some f from h.left) (by rw [m.keyL]; decide) r1 ?_ ?_
          (runs_syncL m hid) ?_
        · rw [e2]; exact (oneOf_ne (fun y hy => (haj y hy).symm)).1
        · rw [e2]; unfold unlinkField; rw [hn]
          refine runs_unlinkL m (fun x hx => ?_) (n + 5)
          obtain ⟨b1, -, b3, b4⟩ := p.leftBack x hx
          simp only [A₂, A₁]
          rw [put_other (fun h => b3 h.1), clearedR_apply, if_neg]
          · exact b1
          · rintro ⟨q1, q2 | q2⟩
            · have := (p.rightBack x q1.symm).1
              rw [← q2, b1] at this
              cases this
              exact d1 rfl
            · have hf := (p.rightBack x q1.symm).2.2.2
              refine R.keys _ _ f of (R.keyUniq _ f (field_mem hf).1 m.keyL) ?_
              rw [← q2]; exact b4
        · exact leads_link_back m.oppL m.instL m.instR e5 (n + 2)
  have hv := paired_values (env := env) (A' := A₅) p d1 d3 (paired_eq' p d1)
  exact only_these (step w w' ⟨rfl, rfl⟩ hr) hv.1 hv.2

/-- assignment of `None` to a single relation -/
theorem runs_set_nothing {g og : Field} {p : Nat} {A₂ : Nat → String → Val} {x : Nat} (hf : (env.cls (C p)).field? g.name = some g) (hc : g.store ≠ .calculated)
    (hr : g.isRef = true) (hg : g.ftype = .inst) (ho : env.foreignField g = some og) (hx : A p g.name = .obj x) (hu : Does C A (unlinkField env p g (.obj x)) A₁) (n : Nat)
    (hk : Does C (put A₁ p g.name .none) (syncKey env p g .none) A₂) : Does C A (runL env (n + 2) (.set p g.name .none)) A₂ := by
  rw [show n + 2 = (n + 1) + 1 from rfl]
  simp only [runL, setBody]
  refine Does.look (fun w hw => ?_)
  have ha : w.attr p g.name = .obj x := by rw [hw.2]; exact hx
  have hq : pyEq .none (.obj x) = false := by simp [pyEq]
  rw [hw.cdef, hf, ha]
  simp only [if_neg hc, hq, hr, if_true]
  refine (runs_track p g).bind (hu.bind ((runs_rawSet _ _ _).bind (hk.bind ?_)))
  simp only [linkBody, ho, linkItems, hg, forItems]
  exact Does.pure

/-- **C80**. `i.f = None` in a one-to-one relation completes: both refer to nothing, `i` keeps no id, and
nothing else changes. -/
theorem leave_partner (R : Relations env) (P : PlainPrimary env) (hfuel : 6 ≤ env.fuel) (h : OneToOne env w i j f of)
    (hx : w.attr i f.name = .obj j) (hy : w.attr j of.name = .obj i) :
    ∃ w', (FOp.set f.name .none).run env i w = (.ok (), w') ∧ OnlyThese w w' [(i, f.name, .none), (i, f.refName, .none), (j, of.name, .none)] := by
  obtain ⟨m, r1, r2, k1, k2, d3, prim⟩ := h.oo R P
  have d1 := h.differ
  obtain ⟨n, hn⟩ : ∃ n, env.fuel = n + 6 := ⟨env.fuel - 6, by omega⟩
  let A₁ := put w.attr j of.name .none
  let A₂ := put (put A₁ i f.name .none) i f.refName .none
  have step : Does w.classes w.attr ((FOp.set f.name .none).run env i) A₂ := by
    show Does _ _ (setAttr env i f.name .none) _
    unfold setAttr
    refine Does.look (fun v hv => ?_)
    rw [hv.cdef, k1]
    simp only []
    unfold setField
    rw [hn]
    refine runs_set_nothing (A₁ := A₁) (show (env.cls (w.classes i)).field? f.name = some f from h.left) (by rw [m.keyL]; decide) r1 m.instL m.oppL hx ?_ (n + 4) ?_
    · unfold unlinkField; rw [hn]; exact runs_unlinkL m (a := some j) (fun x hx => by cases hx; exact hy) (n + 5)
    · simp only [syncKey, m.keyL, ne_eq, not_true, if_false, m.instL]
      exact runs_rawSet _ _ _
  obtain ⟨w', h1, h2⟩ := step w ⟨rfl, rfl⟩
  refine ⟨w', h1, only_these h2 ?_ ?_⟩
  · simp only [List.forall_mem_cons]
    refine ⟨(put_other (fun h => d3 h.2.symm)).trans (put_same _ _ _), put_same _ _ _, ?_, fun _ h => nomatch h⟩
    simp [A₂, A₁, put, d1.symm]
  · intro b n hb
    simp only [List.forall_mem_cons] at hb
    simp only [A₂, A₁, put_other hb.1, put_other hb.2.1, put_other hb.2.2.1]

/-- **C80**. `j.of = None`, from the side without the id, does the same. -/
theorem leave_partner_back (R : Relations env) (P : PlainPrimary env) (hfuel : 6 ≤ env.fuel) (h : OneToOne env w i j f of)
    (hx : w.attr i f.name = .obj j) (hy : w.attr j of.name = .obj i) :
    ∃ w', (FOp.set of.name .none).run env j w = (.ok (), w') ∧ OnlyThese w w' [(i, f.name, .none), (i, f.refName, .none), (j, of.name, .none)] := by
  obtain ⟨m, r1, r2, k1, k2, d3, prim⟩ := h.oo R P
  have d1 := h.differ
  obtain ⟨n, hn⟩ : ∃ n, env.fuel = n + 6 := ⟨env.fuel - 6, by omega⟩
  let A₁ := forgot w.attr i f
  let A₂ := put A₁ j of.name .none
  have step : Does w.classes w.attr ((FOp.set of.name .none).run env j) A₂ := by
    show Does _ _ (setAttr env j of.name .none) _
    unfold setAttr
    refine Does.look (fun v hv => ?_)
    rw [hv.cdef, k2]
    simp only []
    unfold setField
    rw [hn]
    refine runs_set_nothing (A₁ := A₁) (show (env.cls (w.classes j)).field? of.name = some of from h.right) h.keys.2.2 r2 m.instR m.oppR hy ?_ (n + 4) (runs_syncR m _)
    unfold unlinkField; rw [hn]; exact runs_unlinkR m (c := some i) (fun x hx' => by cases hx'; exact hx) (n + 5)
  obtain ⟨w', h1, h2⟩ := step w ⟨rfl, rfl⟩
  refine ⟨w', h1, only_these h2 ?_ ?_⟩
  · simp only [List.forall_mem_cons]
    refine ⟨?_, ?_, put_same _ _ _, fun _ h => nomatch h⟩
    · simp [A₂, A₁, forgot, put, d1]
    · simp [A₂, A₁, forgot, put, d1]
  · intro b n hb
    simp only [List.forall_mem_cons] at hb
    simp only [A₂, A₁, forgot, put_other hb.1, put_other hb.2.1, put_other hb.2.2.1]

end JC

/-! ### The demo programs -/
namespace JC.TrackDemo
open JC
open JC.Demo (fId attrsOf)

/-- An article with one tag; another tag without articles; two covers, each with its article. -/
def shelf : World where
  heap := fun i => match i with
    | 0 => { cls := "Art", isNew := false, graph := 0, attrs := attrsOf [("id", .str "a"), ("tags", .list [.obj 1]), ("tag_ids", .list [.str "t1"]), ("cover", .obj 3)] }
    | 1 => { cls := "Tag", isNew := false, graph := 0, attrs := attrsOf [("id", .str "t1"), ("arts", .list [.obj 0])] }
    | 2 => { cls := "Tag", isNew := false, graph := 0, attrs := attrsOf [("id", .str "t2"), ("arts", .list [])] }
    | 3 => { cls := "Cover", isNew := false, graph := 0, attrs := attrsOf [("id", .str "c"), ("art", .obj 0), ("art_id", .str "a")] }
    | 4 => { cls := "Art", isNew := false, graph := 0, attrs := attrsOf [("id", .str "b"), ("tags", .list []), ("tag_ids", .list []), ("cover", .obj 5)] }
    | 5 => { cls := "Cover", isNew := false, graph := 0, attrs := attrsOf [("id", .str "d"), ("art", .obj 4), ("art_id", .str "b")] }
    | _ => {}
  next := 6

theorem taggable : ManyToMany env shelf 0 2 fTags fArts := ⟨by decide, by rfl, by rfl, paired_tags, ⟨rfl, rfl⟩, ⟨rfl, by decide⟩⟩
theorem untagged : Unlinked shelf 0 2 fTags fArts [1] [.str "t1"] [] := ⟨by rfl, by rfl, by rfl, by decide, by decide, rfl⟩

/-- `article.tags.append(tag)` and `tag.arts.append(article)` complete, with the same effect. -/
example : OnlyThese shelf ((FOp.lst "tags" (.append (.obj 2))).run env 0 shelf).2
    [(0, "tags", .list [.obj 1, .obj 2]), (0, "tag_ids", .list [.str "t1", .str "t2"]), (2, "arts", .list [.obj 0])] :=
  append_object relations plainPrimary (by decide) taggable untagged (completes_eq (by decide +kernel))
example : OnlyThese shelf ((FOp.lst "arts" (.append (.obj 0))).run env 2 shelf).2
    [(0, "tags", .list [.obj 1, .obj 2]), (0, "tag_ids", .list [.str "t1", .str "t2"]), (2, "arts", .list [.obj 0])] :=
  append_back relations plainPrimary (by decide) taggable untagged (completes_eq (by decide +kernel))

theorem covers : OneToOne env shelf 3 4 fArt fCover := ⟨by decide, by rfl, by rfl, paired_art, ⟨rfl, rfl⟩, ⟨rfl, by decide, by decide⟩⟩
theorem covered : Partners env shelf 3 4 fArt fCover (some 0) (some 5) :=
  ⟨by rfl, (by rintro x h; cases h; exact ⟨by rfl, by decide, by decide, by rfl⟩), by rfl, (by rintro x h; cases h; exact ⟨by rfl, by decide, by decide, by rfl⟩)⟩

/-- `cover.art = other` and `other.cover = cover`: the former partners are left alone. -/
example : OnlyThese shelf ((FOp.set "art" (.obj 4)).run env 3 shelf).2 [(3, "art", .obj 4), (3, "art_id", .str "b"), (4, "cover", .obj 3),
    (0, "cover", .none), (5, "art", .none), (5, "art_id", .none)] :=
  assign_partner relations plainPrimary (by decide) covers covered (completes_eq (by decide +kernel))
example : OnlyThese shelf ((FOp.set "cover" (.obj 3)).run env 4 shelf).2 [(3, "art", .obj 4), (3, "art_id", .str "b"), (4, "cover", .obj 3),
    (0, "cover", .none), (5, "art", .none), (5, "art_id", .none)] :=
  assign_partner_back relations plainPrimary (by decide) covers covered (completes_eq (by decide +kernel))
example := leave_partner relations plainPrimary (by decide) (w := shelf) (i := 3) (j := 0) (f := fArt) (of := fCover)
  ⟨by decide, by rfl, by rfl, paired_art, ⟨rfl, rfl⟩, ⟨rfl, by decide, by decide⟩⟩ (by rfl) (by rfl)
example := leave_partner_back relations plainPrimary (by decide) (w := shelf) (i := 3) (j := 0) (f := fArt) (of := fCover)
  ⟨by decide, by rfl, by rfl, paired_art, ⟨rfl, rfl⟩, ⟨rfl, by decide, by decide⟩⟩ (by rfl) (by rfl)

end JC.TrackDemo

namespace JC.SymDemo
open JC
open JC.Demo (user post fId fPosts fAuthor attrsOf)

/-- Post 2 and post 3 are by user 0, none is by user 1. -/
def blog : World where
  heap := fun i => match i with
    | 0 => { cls := "User", isNew := false, graph := 0, attrs := attrsOf [("id", .str "u0"), ("posts", .list [.obj 2, .obj 3])] }
    | 1 => { cls := "User", isNew := false, graph := 0, attrs := attrsOf [("id", .str "u1"), ("posts", .list [])] }
    | 2 => { cls := "Post", isNew := false, graph := 0, attrs := attrsOf [("id", .str "p2"), ("author", .obj 0), ("author_id", .str "u0")] }
    | 3 => { cls := "Post", isNew := false, graph := 0, attrs := attrsOf [("id", .str "p3"), ("author", .obj 0), ("author_id", .str "u0")] }
    | 4 => { cls := "Post", isNew := false, graph := 0, attrs := attrsOf [("id", .str "p4"), ("author", .none), ("author_id", .none)] }
    | _ => {}
  next := 5

theorem by0 : OneToMany Demo.env blog 2 0 fAuthor fPosts := ⟨by decide, by rfl, by rfl, paired_author, ⟨rfl, rfl⟩, ⟨rfl, by decide⟩⟩
theorem by1 : OneToMany Demo.env blog 2 1 fAuthor fPosts := ⟨by decide, by rfl, by rfl, paired_author, ⟨rfl, rfl⟩, ⟨rfl, by decide⟩⟩

/-- `post.author = user1`, `user1.posts.append(post)`: the post moves; the other post stays. -/
example : OnlyThese blog ((FOp.set "author" (.obj 1)).run Demo.env 2 blog).2
    [(2, "author", .obj 1), (2, "author_id", .str "u1"), (0, "posts", .list [.obj 3]), (1, "posts", .list [.obj 2])] :=
  assign_moves relations plainPrimary (by decide) by1 by0 (by decide) (by rfl) (zs := [2, 3]) (by rfl) (by decide) (ys := []) (by rfl) (by decide)
    (TrackDemo.completes_eq (by decide +kernel))
example : OnlyThese blog ((FOp.lst "posts" (.append (.obj 2))).run Demo.env 1 blog).2
    [(2, "author", .obj 1), (2, "author_id", .str "u1"), (0, "posts", .list [.obj 3]), (1, "posts", .list [.obj 2])] :=
  append_moves relations plainPrimary (by decide) by1 by0 (by decide) (by rfl) (zs := [2, 3]) (by rfl) (by decide) (ys := []) (by rfl)
    (TrackDemo.completes_eq (by decide +kernel))
example : OnlyThese blog ((FOp.set "author" (.obj 1)).run Demo.env 4 blog).2
    [(4, "author", .obj 1), (4, "author_id", .str "u1"), (1, "posts", .list [.obj 4])] :=
  assign_first relations plainPrimary (by decide) ⟨by decide, by rfl, by rfl, paired_author, ⟨rfl, rfl⟩, ⟨rfl, by decide⟩⟩ (by rfl) (ys := []) (by rfl) (by decide)
    (TrackDemo.completes_eq (by decide +kernel))
example := assign_none relations plainPrimary (by decide) by0 (by rfl) (ys := [2, 3]) (by rfl) (by decide)
example := remove_single relations plainPrimary (by decide) by0 (by rfl) (ys := [2, 3]) (by rfl) (by decide)
example := assign_key relations plainPrimary (by decide) by0 (by rfl) (ys := [2, 3]) (by rfl) (by decide) (k := .str "u9") (by rfl)

end JC.SymDemo
