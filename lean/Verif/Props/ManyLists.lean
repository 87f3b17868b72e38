import Verif.Props.Regroup
import Mathlib.Data.List.Nodup

/-
C85: what a change of a list of a many-to-many relation does, for lists of any length.
-/
namespace JC
variable {env : Env}

/-! ### Specification -/

/-- The ids of these objects can be told apart: each equals itself, and no other. -/
def ProperIds (env : Env) (w : World) (xs : List Nat) : Prop :=
  ∀ x ∈ xs, ∀ y ∈ xs, pyEq (w.id env x) (w.id env y) = true ↔ x = y

/-- `i` holds the objects `xs` in field `f`, each once, and their ids beside it. -/
structure Holds (env : Env) (w : World) (i : Nat) (f : Field) (xs : List Nat) : Prop where
  objs : w.attr i f.name = .list (xs.map .obj)
  ids : w.attr i f.refName = .list (xs.map (w.id env))
  once : xs.Nodup
  proper : ProperIds env w xs

/-- `i` holds `xs`, and each of them, `x`, holds the objects `Y x`, `i` once among them. -/
structure Tagged (env : Env) (w : World) (i : Nat) (f of : Field) (xs : List Nat) (Y : Nat → List Nat) : Prop where
  holds : Holds env w i f xs
  rel : ∀ x ∈ xs, ManyToMany env w i x f of
  back : ∀ x ∈ xs, w.attr x of.name = .list ((Y x).map .obj) ∧ (Y x).Nodup ∧ i ∈ Y x

/-- `z` holds the objects `Y z`, and `i` is not among them. -/
structure Fresh (env : Env) (w : World) (i : Nat) (f of : Field) (Y : Nat → List Nat) (z : Nat) : Prop where
  rel : ManyToMany env w i z f of
  back : w.attr z of.name = .list ((Y z).map .obj)
  out : i ∉ Y z

/-- what an object that left, joined, or both, holds in the end -/
def after (i : Nat) (D E : List Nat) (Y : Nat → List Nat) (x : Nat) : List Nat :=
  (if x ∈ D then (Y x).erase i else Y x) ++ (if x ∈ E then [i] else [])

/-- `i` holds exactly `zs` and their ids; those that left have lost `i`, those that joined have got it at the
end of their lists (also if they left before); nothing else has changed. -/
structure Retagged (env : Env) (w w' : World) (i : Nat) (f of : Field) (Y : Nat → List Nat) (D E zs : List Nat) : Prop where
  classes : ∀ a, (w'.heap a).cls = (w.heap a).cls
  list : w'.attr i f.name = .list (zs.map .obj)
  ids : w'.attr i f.refName = .list (zs.map (w.id env))
  others : ∀ x, x ∈ D ∨ x ∈ E → w'.attr x of.name = .list ((after i D E Y x).map .obj)
  frame : ∀ x n, ¬ (x = i ∧ (n = f.name ∨ n = f.refName)) → ¬ ((x ∈ D ∨ x ∈ E) ∧ n = of.name) → w'.attr x n = w.attr x n

/-- `j` holds the objects `ys`, each once, and each of them, `y`, holds the objects `X y` and their ids, `j` among them. -/
structure Listed (env : Env) (w : World) (j : Nat) (f of : Field) (ys : List Nat) (X : Nat → List Nat) : Prop where
  objs : w.attr j of.name = .list (ys.map .obj)
  once : ys.Nodup
  rel : ∀ y ∈ ys, ManyToMany env w y j f of
  back : ∀ y ∈ ys, Holds env w y f (X y) ∧ j ∈ X y

/-- `z` holds the objects `X z` and their ids, and `j` is not among them. -/
structure Welcome (env : Env) (w : World) (j : Nat) (f of : Field) (X : Nat → List Nat) (z : Nat) : Prop where
  rel : ManyToMany env w z j f of
  objs : w.attr z f.name = .list ((X z).map .obj)
  ids : w.attr z f.refName = .list ((X z).map (w.id env))
  out : j ∉ X z

/-- `j` holds exactly `zs`; those that left have lost `j` and its id, those that joined have got them at the end of
their lists (also if they left before); nothing else has changed. -/
structure Relisted (env : Env) (w w' : World) (j : Nat) (f of : Field) (X : Nat → List Nat) (D E zs : List Nat) : Prop where
  classes : ∀ a, (w'.heap a).cls = (w.heap a).cls
  list : w'.attr j of.name = .list (zs.map .obj)
  others : ∀ x, x ∈ D ∨ x ∈ E → w'.attr x f.name = .list ((after j D E X x).map .obj) ∧ w'.attr x f.refName = .list ((after j D E X x).map (w.id env))
  frame : ∀ x n, ¬ (x = j ∧ n = of.name) → ¬ ((x ∈ D ∨ x ∈ E) ∧ (n = f.name ∨ n = f.refName)) → w'.attr x n = w.attr x n

/-! ### The side with the ids: attributes on the way -/

variable {C : Nat → String} {A A' : Nat → String → Val} {i j : Nat} {f of : Field} {D E zs xs cur : List Nat} {ks : List Val} {X Y : Nat → List Nat}

def midF (A : Nat → String → Val) (i : Nat) (f of : Field) (Y : Nat → List Nat) (cur : List Nat) (ks : List Val) (D E : List Nat) : Nat → String → Val := fun x n =>
  if x = i ∧ n = f.name then .list (cur.map .obj)
  else if x = i ∧ n = f.refName then .list ks
  else if n = of.name ∧ (x ∈ D ∨ x ∈ E) then .list ((after i D E Y x).map .obj)
  else A x n

theorem midF_cur (cur' : List Nat) : put (midF A i f of Y cur ks D E) i f.name (.list (cur'.map .obj)) = midF A i f of Y cur' ks D E := by
  funext x n
  simp only [put, midF]
  split <;> rfl

theorem midF_ids (h : f.refName ≠ f.name) (ks' : List Val) : put (midF A i f of Y cur ks D E) i f.refName (.list ks') = midF A i f of Y cur ks' D E := by
  funext x n
  simp only [put, midF]
  by_cases c : x = i ∧ n = f.refName
  · simp [c, h]
  · simp [c]

theorem midF_leave {x : Nat} (hx : x ≠ i) (hD : x ∉ D) : put (midF A i f of Y cur ks D []) x of.name (.list (((Y x).erase i).map .obj)) = midF A i f of Y cur ks (D ++ [x]) [] := by
  funext y n
  simp only [put, midF]
  by_cases c : y = x ∧ n = of.name
  · obtain ⟨rfl, rfl⟩ := c
    simp [hx, after]
  · rw [if_neg c]
    by_cases c1 : y = i ∧ n = f.name
    · simp [c1]
    by_cases c2 : y = i ∧ n = f.refName
    · rw [if_neg c1, if_neg c1, if_pos c2, if_pos c2]
    rw [if_neg c1, if_neg c1, if_neg c2, if_neg c2]
    by_cases c3 : n = of.name
    · have hy : y ≠ x := fun h => c ⟨h, c3⟩
      simp [c3, hy, after]
    · simp [c3]

theorem midF_join {x : Nat} (hx : x ≠ i) (hE : x ∉ E) :
    put (midF A i f of Y cur ks D E) x of.name (.list ((after i D E Y x ++ [i]).map .obj)) = midF A i f of Y cur ks D (E ++ [x]) := by
  funext y n
  simp only [put, midF]
  by_cases c : y = x ∧ n = of.name
  · obtain ⟨rfl, rfl⟩ := c
    simp [hx, hE, after]
  · rw [if_neg c]
    by_cases c1 : y = i ∧ n = f.name
    · simp [c1]
    by_cases c2 : y = i ∧ n = f.refName
    · rw [if_neg c1, if_neg c1, if_pos c2, if_pos c2]
    rw [if_neg c1, if_neg c1, if_neg c2, if_neg c2]
    by_cases c3 : n = of.name
    · have hy : y ≠ x := fun h => c ⟨h, c3⟩
      simp [c3, hy, after]
    · simp [c3]

theorem midF_start (h1 : A i f.name = .list (xs.map .obj)) (h2 : A i f.refName = .list ks) : midF A i f of Y xs ks [] [] = A := by
  funext x n
  simp only [midF, List.not_mem_nil, or_false, and_false, if_false]
  split
  · rename_i c; rw [c.1, c.2, h1]
  · split
    · rename_i c; rw [c.1, c.2, h2]
    · rfl

theorem midF_objs : midF A i f of Y cur ks D E i f.name = .list (cur.map .obj) := by simp [midF]
theorem midF_refs (h : f.refName ≠ f.name) : midF A i f of Y cur ks D E i f.refName = .list ks := by simp [midF, h]
theorem midF_back {x : Nat} (hx : x ≠ i) (h : A x of.name = .list ((Y x).map .obj)) : midF A i f of Y cur ks D E x of.name = .list ((after i D E Y x).map .obj) := by
  unfold midF
  rw [if_neg (fun c => hx c.1), if_neg (fun c => hx c.1)]
  split
  · rfl
  · rename_i c
    have h1 : x ∉ D := fun h => c ⟨rfl, .inl h⟩
    have h2 : x ∉ E := fun h => c ⟨rfl, .inr h⟩
    simp [after, h1, h2, h]

theorem idIn_midF {x : Nat} (m : MM env C i x f of) : idIn env C (midF A i f of Y cur ks D E) x = idIn env C A x := by
  unfold idIn
  cases hp : (env.cls (C x)).primary with
  | none => rfl
  | some n => simp [midF, m.prim n hp, m.differ.symm]

/-! ### Ids -/

theorem without_map {g : Nat → Val} {xs : List Nat} {j : Nat} (hj : j ∈ xs) (hp : ∀ x ∈ xs, pyEq (g x) (g j) = true ↔ x = j) :
    Without (g j) (xs.map g) ((xs.erase j).map g) := by
  induction xs with
  | nil => cases hj
  | cons x xs ih =>
    by_cases hx : x = j
    · subst hx
      exact ⟨[], g x, xs.map g, rfl, (hp x (by simp)).2 rfl, by simp, by simp⟩
    · have hm : j ∈ xs := by simpa [Ne.symm hx] using hj
      obtain ⟨pre, y, post, h1, h2, h3, h4⟩ := ih hm (fun z hz => hp z (by simp [hz]))
      refine ⟨g x :: pre, y, post, by simp [h1], h2, ?_, ?_⟩
      · intro p hpp
        rcases List.mem_cons.1 hpp with rfl | hpp
        · rw [Bool.eq_false_iff]
          exact fun h => hx ((hp x (by simp)).1 h)
        · exact h3 p hpp
      · rw [List.erase_cons_tail (by simpa using hx)]
        simp [h4]

/-! ### Steps -/

/-- `j` hears that `i` was removed from its list while `i` still holds `j` -/
theorem runs_del_back (m : MM env C i j f of) {ys xs : List Nat} {ks ks' : List Val} (hx : A i f.name = .list (xs.map .obj)) (hk : A i f.refName = .list ks)
    (hy : A j of.name = .list (ys.map .obj)) (hi : i ∉ ys) (hj : j ∈ xs) (hl : ks.length = xs.length) (hw : Without (idIn env C A j) ks ks') (n : Nat) :
    Does C A (runU env (n + 5) (.del j of.name (.obj i))) (put (put A i f.name (.list ((xs.erase j).map .obj))) i f.refName (.list ks')) := by
  have hlen : (xs.erase j).length + 1 = xs.length := by
    rw [List.length_erase_of_mem hj]; have := List.length_pos_of_mem hj; omega
  have hk' := hw.remove
  have hid : idIn env C (put A i f.name (.list ((xs.erase j).map .obj))) j = idIn env C A j := idIn_put (fun _ _ h => m.differ h.1.symm)
  rw [show n + 5 = (n + 4) + 1 from rfl]
  simp only [runU, delBody]
  refine Does.look (fun w₁ hw₁ => ?_)
  rw [hw₁.cdef, m.plainR, m.right]
  simp only []
  refine Does.bind ?_ (runs_markModified _ _)
  simp only [delRef, m.refR, if_true]
  refine Does.bind (A₁ := put (put A i f.name (.list ((xs.erase j).map .obj))) i f.refName (.list ks')) ?_ ?_
  · rw [show n + 4 = (n + 3) + 1 from rfl]
    simp only [runU, unlinkBody, m.oppR, linkItems, m.listR, forItems]
    refine Does.bind ((runs_addUnlinked _ _ _).bind ?_) Does.pure
    unfold unlinkOther
    simp only []
    refine Does.look (fun w₂ hw₂ => ?_)
    have e1 : w₂.attr i f.name = .list (xs.map .obj) := by rw [hw₂.2]; exact hx
    simp only [m.listL, e1, pyIn_obj.2 hj, if_true]
    refine Does.bind (runs_listRemoveAttr hx (listRemove_map hj) ?_) (runs_addUnlinked _ _ _)
    refine runs_del_left m (A₁ := put A i f.name (.list ((xs.erase j).map .obj))) ?_ ?_
    · refine runs_unlink_absent (bs := ys) m.oppL m.listL m.listR ?_ hi (n + 1)
      rw [put_other (fun h => m.differ h.1.symm)]; exact hy
    · refine runs_delKey m (xs := xs.erase j) (ks := ks) (put_same _ _ _) ?_ ?_ ?_ ?_ ?_ (n + 1)
      · rw [put_other (fun h => m.distinct h.2)]; exact hk
      · omega
      · omega
      · rw [hid]; exact hk'.2.1
      · rw [hid]; exact hk'.1
  · simp only [delKey, if_neg m.keyR]
    exact Does.pure

/-- what is known about the objects concerned, in terms of attributes -/
structure MidOk (env : Env) (C : Nat → String) (A : Nat → String → Val) (i : Nat) (f of : Field) (Y : Nat → List Nat) (D E : List Nat) : Prop where
  rel : ∀ x, x ∈ D ∨ x ∈ E → MM env C i x f of
  back : ∀ x, x ∈ D ∨ x ∈ E → A x of.name = .list ((Y x).map .obj)
  held : ∀ x ∈ D, (Y x).Nodup ∧ i ∈ Y x
  out : ∀ x ∈ E, x ∉ D → i ∉ Y x

/-- one object is unlinked in the course of an assignment -/
theorem stepF_leave {x : Nat} (m : MM env C i x f of) (hD : x ∉ D) (hb : A x of.name = .list ((Y x).map .obj)) (hY : (Y x).Nodup ∧ i ∈ Y x) (hc : x ∈ cur)
    (hp : ∀ y ∈ cur, pyEq (idIn env C A y) (idIn env C A x) = true ↔ y = x) (n : Nat) :
    Does C (midF A i f of Y cur (cur.map (idIn env C A)) D []) (do addUnlinked i f.name (.obj x); unlinkOther env (runU env (n + 5)) i of (.obj x))
      (midF A i f of Y (cur.erase x) ((cur.erase x).map (idIn env C A)) (D ++ [x]) []) := by
  have hxi : x ≠ i := m.differ.symm
  have ha : after i D [] Y x = Y x := by simp [after, hD]
  refine (runs_addUnlinked _ _ _).bind ?_
  unfold unlinkOther
  simp only []
  refine Does.look (fun v hv => ?_)
  have hb' : midF A i f of Y cur (cur.map (idIn env C A)) D [] x of.name = .list ((Y x).map .obj) := by rw [midF_back hxi hb, ha]
  have e1 : v.attr x of.name = .list ((Y x).map .obj) := by rw [hv.2]; exact hb'
  simp only [m.listR, e1, pyIn_obj.2 hY.2, if_true]
  refine Does.bind (runs_listRemoveAttr hb' (listRemove_map hY.2) ?_) (runs_addUnlinked _ _ _)
  rw [midF_leave hxi hD]
  have := runs_del_back (A := midF A i f of Y cur (cur.map (idIn env C A)) (D ++ [x]) []) (ks' := (cur.erase x).map (idIn env C A)) m midF_objs (midF_refs m.distinct)
    (midF_back hxi hb) (by simpa [after] using hY.1.not_mem_erase) hc (by simp) (by rw [idIn_midF m]; exact without_map hc hp) n
  rwa [midF_cur, midF_ids m.distinct] at this

/-- one object is linked -/
theorem stepF_join {x : Nat} (m : MM env C i x f of) (hE : x ∉ E) (hb : A x of.name = .list ((Y x).map .obj)) (ho : i ∉ after i D E Y x) (hc : x ∈ cur) (n : Nat) :
    Ends C (midF A i f of Y cur ks D E) (linkOther env (runL env (n + 2)) i of (.obj x)) (midF A i f of Y cur ks D (E ++ [x])) := by
  have hxi : x ≠ i := m.differ.symm
  unfold linkOther
  simp only []
  refine Ends.bind ?_ (leads_linkGraph _ _)
  unfold linkSide
  refine Ends.look (fun v hv => ?_)
  have hb' : midF A i f of Y cur ks D E x of.name = .list ((after i D E Y x).map .obj) := midF_back hxi hb
  have e1 : v.attr x of.name = .list ((after i D E Y x).map .obj) := by rw [hv.2]; exact hb'
  have hp : pyIn (.obj i) ((after i D E Y x).map .obj) = false := by
    rw [Bool.eq_false_iff]; exact fun h => ho (pyIn_obj.1 h)
  simp only [m.listR, e1, hp]
  refine Ends.bind (leads_listAppendAttr hb' ?_) (runs_delUnlinked _ _ _).leads
  have he : put (midF A i f of Y cur ks D E) x of.name (.list ((after i D E Y x).map .obj ++ [.obj i])) = midF A i f of Y cur ks D (E ++ [x]) := by
    rw [← midF_join hxi hE]; simp
  rw [he]
  exact leads_add_right m midF_objs hc _ n


/-! ### Assignment from the side with the ids -/

theorem itemIds_objs (w : World) (zs : List Nat) : itemIds env w (zs.map .obj) = .ok (zs.map (w.id env)) := by
  induction zs with
  | nil => rfl
  | cons z zs ih => simp [itemIds, itemId, ih]

theorem map_idIn {B : Nat → String → Val} {zs : List Nat} (h : ∀ z ∈ zs, idIn env C B z = idIn env C A z) : zs.map (idIn env C B) = zs.map (idIn env C A) :=
  List.map_congr_left h

theorem leads_assignF {x n : Nat} (mx : MM env C i x f of) (hn : env.fuel = n + 6) (h1 : A i f.name = .list (xs.map .obj)) (h2 : A i f.refName = .list (xs.map (idIn env C A)))
    (hx : xs.Nodup) (hz : zs.Nodup) (hne : zs ≠ xs) (hp : ∀ x ∈ xs, ∀ y ∈ xs, pyEq (idIn env C A x) (idIn env C A y) = true ↔ x = y) (N : MidOk env C A i f of Y xs zs) :
    Ends C A (setField env i f.name (.list (zs.map .obj))) (midF A i f of Y zs (zs.map (idIn env C A)) xs zs) := by
  unfold setField
  rw [hn]
  simp only [runL, setBody]
  refine Ends.look (fun w hw => ?_)
  have ha : w.attr i f.name = .list (xs.map .obj) := by rw [hw.2]; exact h1
  have hq : pyEq (Val.list (zs.map .obj)) (.list (xs.map .obj)) = false := by
    rw [Bool.eq_false_iff]
    intro h
    simp only [pyEq] at h
    exact hne (pyEqList_objs zs xs h)
  have hcalc : f.store ≠ .calculated := by rw [mx.keyL]; decide
  rw [hw.cdef, mx.left, ha]
  simp only [if_neg hcalc, hq, mx.refL, if_true]
  refine (runs_track i f).leads.bind (Ends.bind (A₁ := midF A i f of Y [] [] xs []) (Does.leads ?_) ((runs_rawSet _ _ _).leads.bind (Ends.bind (A₁ := midF A i f of Y zs (zs.map (idIn env C A)) xs []) ?_ ?_)))
  · unfold unlinkField
    rw [hn]
    simp only [runU, unlinkBody, mx.oppL, linkItems, mx.listL]
    have go : ∀ (F D : List Nat), (D ++ F).Nodup → F ⊆ xs → Does C (midF A i f of Y F (F.map (idIn env C A)) D [])
        (forItems (F.map .obj) (fun item => do addUnlinked i f.name item; unlinkOther env (runU env (n + 5)) i of item)) (midF A i f of Y [] [] (D ++ F) []) := by
      intro F
      induction F with
      | nil => intro D _ _; simp only [List.map_nil, forItems, List.append_nil]; exact Does.pure
      | cons y F ih =>
        intro D hnd hsub
        simp only [List.map_cons, forItems]
        have hy : y ∉ D := fun h => (List.nodup_append.1 hnd).2.2 y h y (by simp) rfl
        have hyx : y ∈ xs := hsub (by simp)
        have hs := stepF_leave (cur := y :: F) (D := D) (N.rel y (.inl hyx)) hy (N.back y (.inl hyx)) (N.held y hyx) (by simp) (fun z hz => hp z (hsub hz) y hyx) n
        rw [List.erase_cons_head] at hs
        refine Does.bind hs ?_
        have he : D ++ y :: F = D ++ [y] ++ F := by simp
        rw [he] at hnd ⊢
        exact ih (D ++ [y]) hnd (fun z hz => hsub (by simp [hz]))
    have := go xs [] (by simpa using hx) (fun _ h => h)
    rw [midF_start h1 h2] at this
    simpa using this
  · simp only [syncKey, mx.keyL, ne_eq, not_true, if_false, mx.listL, midF_cur]
    refine Ends.read (x := zs.map (idIn env C A)) (fun v hv => ?_) ?_
    · rw [itemIds_objs]
      congr 1
      refine List.map_congr_left fun z hz => ?_
      rw [hv.id, idIn_midF (N.rel z (.inr hz))]
    · have := (runs_rawSet (C := C) (A := midF A i f of Y zs [] xs []) i f.refName (.list (zs.map (idIn env C A)))).leads
      rwa [midF_ids mx.distinct] at this
  · simp only [linkBody, mx.oppL, linkItems, mx.listL]
    have go : ∀ (F E : List Nat), (E ++ F).Nodup → F ⊆ zs → Ends C (midF A i f of Y zs (zs.map (idIn env C A)) xs E)
        (forItems (F.map .obj) (fun item => do delUnlinked i f.name item; linkOther env (runL env (n + 4)) i of item)) (midF A i f of Y zs (zs.map (idIn env C A)) xs (E ++ F)) := by
      intro F
      induction F with
      | nil => intro E _ _; simp only [List.map_nil, forItems, List.append_nil]; exact Ends.pure
      | cons y F ih =>
        intro E hnd hsub
        simp only [List.map_cons, forItems]
        have hy : y ∉ E := fun h => (List.nodup_append.1 hnd).2.2 y h y (by simp) rfl
        have hyz : y ∈ zs := hsub (by simp)
        refine Ends.bind ((runs_delUnlinked _ _ _).leads.bind (stepF_join (n := n + 2) (N.rel y (.inr hyz)) hy (N.back y (.inr hyz)) ?_ hyz)) ?_
        · by_cases hyx : y ∈ xs
          · simpa [after, hyx, hy] using (N.held y hyx).1.not_mem_erase
          · simpa [after, hyx, hy] using N.out y hyz hyx
        · have he : E ++ y :: F = E ++ [y] ++ F := by simp
          rw [he] at hnd ⊢
          exact ih (E ++ [y]) hnd (fun z hz => hsub (by simp [hz]))
    have := go zs [] (by simpa using hz) (fun _ h => h)
    simpa using this

/-! ### Removals from the side with the ids -/

theorem findById_none {w : World} {k : Val} {cur : List Nat} (h : ∀ y ∈ cur, pyEq (w.id env y) k = false) : findById env w k (cur.map .obj) = .ok none := by
  induction cur with
  | nil => rfl
  | cons y cur ih => simp [findById, itemId, h y (by simp), ih (fun z hz => h z (by simp [hz]))]

theorem runs_del_key (m : MM env C i j f of) (hx : A i f.name = .list (cur.map .obj)) (hk : A i f.refName = .list ks) {v : Val}
    (hf : ∀ y ∈ cur, pyEq (idIn env C A y) v = false) (n : Nat) : Does C A (runU env (n + 1) (.del i f.refName v)) A := by
  simp only [runU, delBody]
  refine Does.look (fun w hw => ?_)
  rw [hw.cdef, m.keyName]
  simp only [delLocal]
  refine (runs_markLocalKey i f).bind (Does.look (fun w hw => ?_))
  have h : w.attr i f.name = .list (cur.map .obj) := by rw [hw.2]; exact hx
  have h' : w.attr i f.refName = .list ks := by rw [hw.2]; exact hk
  simp only [h, h']
  refine Does.read (x := ks.length) (fun _ _ => rfl) ?_
  split
  · refine Does.read (x := none) (fun _ _ => findById_none (fun y hy => by rw [hw.id]; exact hf y hy)) ?_
    exact Does.pure
  · exact Does.pure

theorem runs_delKey_gone (m : MM env C i j f of) (hx : A i f.name = .list (cur.map .obj)) (hk : A i f.refName = .list ks) {ks' : List Val}
    (hl : ks.length ≠ cur.length) (hw : Without (idIn env C A j) ks ks') (hf : ∀ y ∈ cur, MM env C i y f of ∧ pyEq (idIn env C A y) (idIn env C A j) = false) (n : Nat) :
    Does C A (delKey env (runU env (n + 1)) i f f.name (.obj j)) (put A i f.refName (.list ks')) := by
  have hr := hw.remove
  simp only [delKey, m.keyL, if_true]
  refine Does.look (fun w hw => ?_)
  have h : w.attr i f.name = .list (cur.map .obj) := by rw [hw.2]; exact hx
  have h' : w.attr i f.refName = .list ks := by rw [hw.2]; exact hk
  simp only [h, h']
  refine Does.read (x := cur.length) (fun _ _ => by simp [listLen]) ?_
  have hc : (decide (ks.length ≠ cur.length) && !(Val.obj j).isNone) = true := by simp [hl, Val.isNone]
  simp only [hc, if_true]
  refine Does.read (x := idIn env C A j) (fun w' hw' => by simp only [itemId]; rw [hw.id]) ?_
  simp only [hr.2.1, if_true]
  refine runs_listRemoveAttr hk hr.1 ?_
  refine runs_del_key m (cur := cur) (ks := ks') ?_ (put_same _ _ _) ?_ n
  · rw [put_other (fun h => m.distinct h.2.symm)]; exact hx
  · intro y hy
    rw [idIn_put (fun _ _ h => (hf y hy).1.differ h.1.symm)]
    exact (hf y hy).2

/-- the owner hears that an object was removed from its list -/
theorem stepF_del {x : Nat} {F : List Nat} (m : MM env C i x f of) (hD : x ∉ D) (hb : A x of.name = .list ((Y x).map .obj)) (hY : (Y x).Nodup ∧ i ∈ Y x) (hc : x ∉ cur)
    (hxF : x ∈ F) (hF : cur ⊆ F) (hrel : ∀ y ∈ cur, MM env C i y f of) (hl : F.length ≠ cur.length)
    (hp : ∀ y ∈ F, pyEq (idIn env C A y) (idIn env C A x) = true ↔ y = x) (n : Nat) :
    Does C (midF A i f of Y cur (F.map (idIn env C A)) D []) (runU env (n + 5) (.del i f.name (.obj x)))
      (midF A i f of Y cur ((F.erase x).map (idIn env C A)) (D ++ [x]) []) := by
  have hxi : x ≠ i := m.differ.symm
  have hb' : midF A i f of Y cur (F.map (idIn env C A)) D [] x of.name = .list ((Y x).map .obj) := by rw [midF_back hxi hb]; simp [after, hD]
  refine runs_del_left m (A₁ := midF A i f of Y cur (F.map (idIn env C A)) (D ++ [x]) []) ?_ ?_
  · rw [← midF_leave hxi hD]
    exact runs_unlink_left m midF_objs hc hb' hY.2 (n + 1)
  · have := runs_delKey_gone (A := midF A i f of Y cur (F.map (idIn env C A)) (D ++ [x]) []) (ks' := (F.erase x).map (idIn env C A)) m midF_objs (midF_refs m.distinct) (by simpa using hl)
      (by rw [idIn_midF m]; exact without_map hxF hp)
      (fun y hy => ⟨hrel y hy, by
        rw [idIn_midF m, idIn_midF (hrel y hy), Bool.eq_false_iff]
        exact fun h => hc ((hp y (hF hy)).1 h ▸ hy)⟩) (n + 3)
    rwa [midF_ids m.distinct] at this

theorem runs_removalF {n : Nat} {op : LOp Val} {log : List (LEv Val)} (hn : env.fuel = n + 6) (h1 : A i f.name = .list (xs.map .obj)) (h2 : A i f.refName = .list (xs.map (idIn env C A)))
    (hp : ∀ x ∈ xs, ∀ y ∈ xs, pyEq (idIn env C A x) (idIn env C A y) = true ↔ x = y) (hx : xs.Nodup) (N : MidOk env C A i f of Y xs [])
    (hzs : zs = xs.filter (fun x => decide (x ∉ D))) (hop : ownedOp pyEq op (xs.map .obj) = ⟨none, zs.map .obj, log⟩)
    (hlog : log.filter (fun e => !e.isWill) = D.map fun y => LEv.del (.obj y)) (hD : D ⊆ xs) (hDn : D.Nodup) :
    Does C A (listOp env i f.name op) (midF A i f of Y zs (zs.map (idIn env C A)) D []) := by
  unfold listOp
  refine Does.look (fun v hv => ?_)
  have ha : v.attr i f.name = .list (xs.map .obj) := by rw [hv.2]; exact h1
  rw [ha]
  simp only [hop, hlog]
  refine (runs_wills log).bind ((runs_rawSet _ _ _).bind (Does.bind ?_ Does.pure))
  have hstart : put A i f.name (.list (zs.map .obj)) = midF A i f of Y zs (xs.map (idIn env C A)) [] [] := by
    conv_lhs => rw [← midF_start (A := A) (f := f) (of := of) (Y := Y) h1 h2]
    exact midF_cur zs
  rw [hstart]
  have go : ∀ (G D' : List Nat), D' ++ G = D → Does C (midF A i f of Y zs ((xs.filter (fun x => decide (x ∉ D'))).map (idIn env C A)) D' [])
      (forEvs (ownerLEv env i f.name) (G.map fun y => LEv.del (.obj y))) (midF A i f of Y zs (zs.map (idIn env C A)) D []) := by
    intro G
    induction G with
    | nil =>
      intro D' h
      rw [List.append_nil] at h
      subst h
      subst hzs
      exact Does.pure
    | cons x G ih =>
      intro D' h
      have hxD : x ∈ D := by rw [← h]; simp
      have hxx : x ∈ xs := hD hxD
      have hxD' : x ∉ D' := by
        intro hx'
        rw [← h] at hDn
        exact (List.nodup_append.1 hDn).2.2 x hx' x (by simp) rfl
      have hxF : x ∈ xs.filter (fun x => decide (x ∉ D')) := by simp [hxx, hxD']
      have hxz : x ∉ zs := by rw [hzs]; simp [hxD]
      have hzF : zs = (xs.filter (fun x => decide (x ∉ D'))).filter (fun x => decide (x ∉ D)) := by
        rw [hzs, List.filter_filter]
        apply List.filter_congr
        intro y _
        by_cases hy : y ∈ D
        · simp [hy]
        · have : y ∉ D' := fun hy' => hy (by rw [← h]; simp [hy'])
          simp [hy, this]
      simp only [List.map_cons, forEvs]
      refine Does.bind (A₁ := midF A i f of Y zs ((xs.filter (fun y => decide (y ∉ D' ++ [x]))).map (idIn env C A)) (D' ++ [x]) []) ?_ (ih (D' ++ [x]) (by rw [← h]; simp))
      show Does _ _ (olistDel env i f.name (.obj x)) _
      unfold olistDel
      rw [hn, ← erase_filter hx]
      refine stepF_del (N.rel x (.inl hxx)) hxD' (N.back x (.inl hxx)) (N.held x hxx) hxz hxF (by rw [hzF]; exact fun y hy => (List.mem_filter.1 hy).1)
        (fun y hy => N.rel y (.inl (by rw [hzs] at hy; exact (List.mem_filter.1 hy).1))) ?_ (fun y hy => hp y (List.mem_filter.1 hy).1 x hxx) (n + 1)
      have : zs.length < (xs.filter (fun x => decide (x ∉ D'))).length := by
        rw [hzF]
        exact List.length_filter_lt_length_iff_exists.2 ⟨x, hxF, by simp [hxD]⟩
      omega
  have := go D [] rfl
  simpa using this


/-! ### Additions from the side with the ids -/

theorem leads_addKey_at (m : MM env C i j f of) (hx : A i f.name = .list (cur.map .obj)) (hk : A i f.refName = .list ks) (hl : ks.length ≠ cur.length) (idx : Int) (n : Nat) :
    Ends C A (addKey env (runL env (n + 1)) i f f.name idx (.obj j)) (put A i f.refName (.list (pyInsert ks idx (idIn env C A j)))) := by
  simp only [addKey, m.keyL, if_true]
  refine Ends.look (fun w hw => ?_)
  have h : w.attr i f.name = .list (cur.map .obj) := by rw [hw.2]; exact hx
  have h' : w.attr i f.refName = .list ks := by rw [hw.2]; exact hk
  simp only [h, h']
  refine Ends.read (x := cur.length) (fun _ _ => by simp [listLen]) ?_
  rw [if_pos hl]
  refine Ends.read (x := idIn env C A j) (fun w' hw' => by simp only [itemId]; rw [hw.id]) ?_
  split
  · exact Ends.raise _
  · refine (runs_rawSet _ _ _).leads.bind ?_
    simp only [runL, addBody]
    refine Ends.look (fun w hw => ?_)
    rw [hw.cdef, m.keyName]
    exact (runs_markLocalKey _ _).leads

/-- the owner hears that an object was added to its list -/
theorem stepF_add {x : Nat} {idx : Int} (m : MM env C i x f of) (hE : x ∉ E) (hb : A x of.name = .list ((Y x).map .obj)) (ho : i ∉ Y x) (hc : x ∈ cur) (hl : ks.length ≠ cur.length) (n : Nat) :
    Ends C (midF A i f of Y cur ks [] E) (runL env (n + 5) (.add i f.name idx (.obj x))) (midF A i f of Y cur (pyInsert ks idx (idIn env C A x)) [] (E ++ [x])) := by
  refine leads_add (n := n + 4) (A₁ := midF A i f of Y cur ks [] (E ++ [x])) m.plainL m.left m.refL ?_ ?_
  · simp only [runL, linkBody, m.oppL, linkItems, m.listL, forItems]
    refine Ends.bind ((runs_delUnlinked _ _ _).leads.bind ?_) Ends.pure
    exact stepF_join (n := n + 1) m hE hb (by simpa [after, hE] using ho) hc
  · have := leads_addKey_at (A := midF A i f of Y cur ks [] (E ++ [x])) m midF_objs (midF_refs m.distinct) hl idx (n + 3)
    rwa [midF_ids m.distinct, idIn_midF m] at this

/-- the ids after these additions -/
def insertAll (g : Nat → Val) (ks : List Val) (es : List (Int × Nat)) : List Val := es.foldl (fun ks p => pyInsert ks p.1 (g p.2)) ks

theorem pyInsert_length {α : Type} (xs : List α) (k : Int) (v : α) : (pyInsert xs k v).length = xs.length + 1 := by
  unfold pyInsert
  simp only [List.length_append, List.length_cons, List.length_take, List.length_drop]
  omega

theorem leads_additionF {n : Nat} {op : LOp Val} {es : List (Int × Nat)} {log : List (LEv Val)} (hn : env.fuel = n + 6) (h1 : A i f.name = .list (xs.map .obj))
    (h2 : A i f.refName = .list (xs.map (idIn env C A))) (N : MidOk env C A i f of Y [] (es.map Prod.snd)) (hop : ownedOp pyEq op (xs.map .obj) = ⟨none, zs.map .obj, log⟩)
    (hlog : log.filter (fun e => !e.isWill) = es.map fun p => LEv.add p.1 (.obj p.2)) (hEn : (es.map Prod.snd).Nodup) (hEz : es.map Prod.snd ⊆ zs) (hl : zs.length = xs.length + es.length) :
    Ends C A (listOp env i f.name op) (midF A i f of Y zs (insertAll (idIn env C A) (xs.map (idIn env C A)) es) [] (es.map Prod.snd)) := by
  unfold listOp
  refine Ends.look (fun v hv => ?_)
  have ha : v.attr i f.name = .list (xs.map .obj) := by rw [hv.2]; exact h1
  rw [ha]
  simp only [hop, hlog]
  refine (runs_wills log).leads.bind ((runs_rawSet _ _ _).leads.bind (Ends.bind ?_ Ends.pure))
  have hstart : put A i f.name (.list (zs.map .obj)) = midF A i f of Y zs (xs.map (idIn env C A)) [] [] := by
    conv_lhs => rw [← midF_start (A := A) (f := f) (of := of) (Y := Y) h1 h2]
    exact midF_cur zs
  rw [hstart]
  have go : ∀ (gs : List (Int × Nat)) (E : List Nat) (ks : List Val), (E ++ gs.map Prod.snd).Nodup → gs.map Prod.snd ⊆ es.map Prod.snd → ks.length + gs.length = zs.length →
      Ends C (midF A i f of Y zs ks [] E) (forEvs (ownerLEv env i f.name) (gs.map fun p => LEv.add p.1 (.obj p.2))) (midF A i f of Y zs (insertAll (idIn env C A) ks gs) [] (E ++ gs.map Prod.snd)) := by
    intro gs
    induction gs with
    | nil => intro E ks _ _ _; simp only [List.map_nil, forEvs, List.append_nil]; exact Ends.pure
    | cons p gs ih =>
      intro E ks hnd hsub hlen
      obtain ⟨k, x⟩ := p
      simp only [List.map_cons, List.length_cons] at hnd hsub hlen ⊢
      have hx : x ∉ E := fun hx => (List.nodup_append.1 hnd).2.2 x hx x (by simp) rfl
      have hxm : x ∈ es.map Prod.snd := hsub (by simp)
      have he : E ++ x :: gs.map Prod.snd = E ++ [x] ++ gs.map Prod.snd := by simp
      rw [he] at hnd ⊢
      simp only [forEvs]
      refine Ends.bind ?_ (ih (E ++ [x]) (pyInsert ks k (idIn env C A x)) hnd (fun y hy => hsub (by simp [hy])) (by rw [pyInsert_length]; omega))
      show Ends _ _ (olistAdd env i f.name k (.obj x)) _
      unfold olistAdd
      rw [hn]
      exact stepF_add (n := n + 1) (N.rel x (.inr hxm)) hx (N.back x (.inr hxm)) (N.out x hxm (by simp)) (hEz hxm) (by omega)
  have := go es [] (xs.map (idIn env C A)) (by simpa using hEn) (fun _ h => h) (by simp [hl])
  simpa using this

/-! ### The side without ids: attributes on the way -/

def midO (g : Nat → Val) (A : Nat → String → Val) (j : Nat) (f of : Field) (X : Nat → List Nat) (cur : List Nat) (D E : List Nat) : Nat → String → Val := fun x n =>
  if x = j ∧ n = of.name then .list (cur.map .obj)
  else if n = f.name ∧ (x ∈ D ∨ x ∈ E) then .list ((after j D E X x).map .obj)
  else if n = f.refName ∧ (x ∈ D ∨ x ∈ E) then .list ((after j D E X x).map g)
  else A x n

variable {g : Nat → Val}

theorem midO_cur (cur' : List Nat) : put (midO g A j f of X cur D E) j of.name (.list (cur'.map .obj)) = midO g A j f of X cur' D E := by
  funext x n
  simp only [put, midO]
  split <;> rfl

theorem midO_leave {x : Nat} (hx : x ≠ j) (hD : x ∉ D) (hd : f.refName ≠ f.name) :
    put (put (midO g A j f of X cur D []) x f.name (.list (((X x).erase j).map .obj))) x f.refName (.list (((X x).erase j).map g)) = midO g A j f of X cur (D ++ [x]) [] := by
  funext y n
  simp only [put, midO]
  by_cases hy : y = x
  · subst hy
    by_cases c1 : n = f.refName
    · simp [c1, hx, hd, after]
    by_cases c2 : n = f.name
    · subst c2; simp [hx, c1, after]
    simp [c1, c2]
  · simp only [hy, false_and, if_false, after, List.mem_append, List.mem_singleton, or_false, List.not_mem_nil, List.append_nil]

theorem midO_join {x : Nat} (hx : x ≠ j) (hE : x ∉ E) (hd : f.refName ≠ f.name) :
    put (put (midO g A j f of X cur D E) x f.name (.list ((after j D E X x ++ [j]).map .obj))) x f.refName (.list ((after j D E X x ++ [j]).map g)) = midO g A j f of X cur D (E ++ [x]) := by
  funext y n
  simp only [put, midO]
  by_cases hy : y = x
  · subst hy
    by_cases c1 : n = f.refName
    · simp [c1, hx, hd, after, hE]
    by_cases c2 : n = f.name
    · subst c2; simp [hx, c1, after, hE]
    simp [c1, c2]
  · simp only [hy, false_and, if_false, after, List.mem_append, List.mem_singleton, or_false]

theorem midO_start (h : A j of.name = .list (xs.map .obj)) : midO g A j f of X xs [] [] = A := by
  funext x n
  simp only [midO, List.not_mem_nil, or_false, and_false, if_false]
  split
  · rename_i c; rw [c.1, c.2, h]
  · rfl

theorem midO_back : midO g A j f of X cur D E j of.name = .list (cur.map .obj) := by simp [midO]
theorem midO_objs {x : Nat} (hx : x ≠ j) (h : A x f.name = .list ((X x).map .obj)) : midO g A j f of X cur D E x f.name = .list ((after j D E X x).map .obj) := by
  unfold midO
  rw [if_neg (fun c => hx c.1)]
  split
  · rfl
  · rename_i c
    have h1 : x ∉ D := fun h => c ⟨rfl, .inl h⟩
    have h2 : x ∉ E := fun h => c ⟨rfl, .inr h⟩
    rw [if_neg (fun c' => c ⟨rfl, c'.2⟩), h]
    simp [after, h1, h2]
theorem midO_refs {x : Nat} (hx : x ≠ j) (hd : f.refName ≠ f.name) (h : A x f.refName = .list ((X x).map g)) : midO g A j f of X cur D E x f.refName = .list ((after j D E X x).map g) := by
  unfold midO
  rw [if_neg (fun c => hx c.1), if_neg (fun c => hd c.1)]
  split
  · rfl
  · rename_i c
    have h1 : x ∉ D := fun h => c ⟨rfl, .inl h⟩
    have h2 : x ∉ E := fun h => c ⟨rfl, .inr h⟩
    simp [after, h1, h2, h]

theorem idIn_midO {x : Nat} (m : MM env C x j f of) (hj : j ∉ D ∧ j ∉ E) : idIn env C (midO g A j f of X cur D E) j = idIn env C A j := by
  unfold idIn
  cases hp : (env.cls (C j)).primary with
  | none => rfl
  | some n => simp [midO, m.prim n hp, hj.1, hj.2]

/-- what is known about the objects concerned -/
structure MidOkO (env : Env) (C : Nat → String) (A : Nat → String → Val) (j : Nat) (f of : Field) (X : Nat → List Nat) (D E : List Nat) : Prop where
  rel : ∀ x, x ∈ D ∨ x ∈ E → MM env C x j f of
  objs : ∀ x, x ∈ D ∨ x ∈ E → A x f.name = .list ((X x).map .obj) ∧ A x f.refName = .list ((X x).map (idIn env C A))
  held : ∀ x ∈ D, (X x).Nodup ∧ j ∈ X x ∧ ∀ y ∈ X x, pyEq (idIn env C A y) (idIn env C A j) = true ↔ y = j
  out : ∀ x ∈ E, x ∉ D → j ∉ X x

theorem MidOkO.self (N : MidOkO env C A j f of X D E) : j ∉ D ∧ j ∉ E :=
  ⟨fun h => (N.rel j (.inl h)).differ rfl, fun h => (N.rel j (.inr h)).differ rfl⟩

/-- one object is unlinked in the course of an assignment -/
theorem stepO_leave {x : Nat} {D₀ E₀ : List Nat} (N : MidOkO env C A j f of X D₀ E₀) (hx0 : x ∈ D₀) (hD0 : D ⊆ D₀) (hD : x ∉ D) (hc : x ∈ cur) (n : Nat) :
    Does C (midO (idIn env C A) A j f of X cur D []) (do addUnlinked j of.name (.obj x); unlinkOther env (runU env (n + 5)) j f (.obj x))
      (midO (idIn env C A) A j f of X (cur.erase x) (D ++ [x]) []) := by
  have m := N.rel x (.inl hx0)
  have hxj : x ≠ j := m.differ
  obtain ⟨hnd, hjx, hp⟩ := N.held x hx0
  obtain ⟨ho, hk⟩ := N.objs x (.inl hx0)
  have ha : after j D [] X x = X x := by simp [after, hD]
  have hjD : j ∉ D ∧ j ∉ ([] : List Nat) := ⟨fun h => N.self.1 (hD0 h), by simp⟩
  have ho' := midO_objs (g := idIn env C A) (of := of) (cur := cur) (D := D) (E := []) hxj ho
  have hk' := midO_refs (of := of) (cur := cur) (D := D) (E := []) hxj m.distinct hk
  rw [ha] at ho' hk'
  have hlen : ((X x).erase j).length + 1 = (X x).length := by
    rw [List.length_erase_of_mem hjx]; have := List.length_pos_of_mem hjx; omega
  refine (runs_addUnlinked _ _ _).bind ?_
  unfold unlinkOther
  simp only []
  refine Does.look (fun v hv => ?_)
  have e1 : v.attr x f.name = .list ((X x).map .obj) := by rw [hv.2]; exact ho'
  simp only [m.listL, e1, pyIn_obj.2 hjx, if_true]
  refine Does.bind (runs_listRemoveAttr ho' (listRemove_map hjx) ?_) (runs_addUnlinked _ _ _)
  have hback : put (midO (idIn env C A) A j f of X cur D []) x f.name (.list (((X x).erase j).map .obj)) j of.name = .list (cur.map .obj) :=
    (put_other (fun h => hxj h.1.symm)).trans midO_back
  refine runs_del_left m (runs_unlink_left m (put_same _ _ _) hnd.not_mem_erase hback hc (n + 1)) ?_
  have hid : idIn env C (put (put (midO (idIn env C A) A j f of X cur D []) x f.name (.list (((X x).erase j).map .obj))) j of.name (.list ((cur.erase x).map .obj))) j = idIn env C A j := by
    rw [idIn_put (fun q hq h => m.prim q hq h.2), idIn_put (fun q _ h => hxj h.1.symm), idIn_midO m hjD]
  have hw := (without_map hjx hp).remove
  have := runs_delKey m (xs := (X x).erase j) (ks := (X x).map (idIn env C A)) (ks' := ((X x).erase j).map (idIn env C A))
    (A := put (put (midO (idIn env C A) A j f of X cur D []) x f.name (.list (((X x).erase j).map .obj))) j of.name (.list ((cur.erase x).map .obj)))
    ((put_other (fun h => hxj h.1)).trans (put_same _ _ _)) ((put_other (fun h => hxj h.1)).trans ((put_other (fun h => m.distinct h.2)).trans hk')) (by simp; omega) (by simp)
    (by rw [hid]; exact hw.2.1) (by rw [hid]; exact hw.1) (n + 3)
  have he : put (put (put (midO (idIn env C A) A j f of X cur D []) x f.name (.list (((X x).erase j).map .obj))) j of.name (.list ((cur.erase x).map .obj))) x f.refName (.list (((X x).erase j).map (idIn env C A)))
      = midO (idIn env C A) A j f of X (cur.erase x) (D ++ [x]) [] := by
    rw [← midO_leave hxj hD m.distinct, ← midO_cur (cur := cur) (cur.erase x)]
    funext y n
    simp only [put]
    by_cases c1 : y = j ∧ n = of.name
    · simp [c1, hxj.symm]
    · simp [c1]
  rwa [he] at this

/-- `j` hears that an object was removed from its list -/
theorem stepO_del {x : Nat} {D₀ E₀ : List Nat} (N : MidOkO env C A j f of X D₀ E₀) (hx0 : x ∈ D₀) (hD0 : D ⊆ D₀) (hD : x ∉ D) (hc : x ∉ cur) (n : Nat) :
    Does C (midO (idIn env C A) A j f of X cur D []) (runU env (n + 5) (.del j of.name (.obj x))) (midO (idIn env C A) A j f of X cur (D ++ [x]) []) := by
  have m := N.rel x (.inl hx0)
  have hxj : x ≠ j := m.differ
  obtain ⟨hnd, hjx, hp⟩ := N.held x hx0
  obtain ⟨ho, hk⟩ := N.objs x (.inl hx0)
  have ha : after j D [] X x = X x := by simp [after, hD]
  have hjD : j ∉ D ∧ j ∉ ([] : List Nat) := ⟨fun h => N.self.1 (hD0 h), by simp⟩
  have ho' := midO_objs (g := idIn env C A) (of := of) (cur := cur) (D := D) (E := []) hxj ho
  have hk' := midO_refs (of := of) (cur := cur) (D := D) (E := []) hxj m.distinct hk
  rw [ha] at ho' hk'
  have := runs_del_back m ho' hk' midO_back hc hjx (by simp) (by rw [idIn_midO m hjD]; exact without_map hjx hp) n
  rwa [midO_leave hxj hD m.distinct] at this

/-- one object is linked -/
theorem stepO_join {x : Nat} {D₀ E₀ : List Nat} (N : MidOkO env C A j f of X D₀ E₀) (hx0 : x ∈ E₀) (hD0 : D ⊆ D₀) (hE0 : E ⊆ E₀) (hE : x ∉ E) (ho : j ∉ after j D E X x) (hc : x ∈ cur) (n : Nat) :
    Ends C (midO (idIn env C A) A j f of X cur D E) (linkOther env (runL env (n + 3)) j f (.obj x)) (midO (idIn env C A) A j f of X cur D (E ++ [x])) := by
  have m := N.rel x (.inr hx0)
  have hxj : x ≠ j := m.differ
  have hjD : j ∉ D ∧ j ∉ E := ⟨fun h => N.self.1 (hD0 h), fun h => N.self.2 (hE0 h)⟩
  obtain ⟨hob, hk⟩ := N.objs x (.inr hx0)
  have ho' := midO_objs (g := idIn env C A) (of := of) (cur := cur) (D := D) (E := E) hxj hob
  have hk' := midO_refs (of := of) (cur := cur) (D := D) (E := E) hxj m.distinct hk
  unfold linkOther
  simp only []
  refine Ends.bind ?_ (leads_linkGraph _ _)
  unfold linkSide
  refine Ends.look (fun v hv => ?_)
  have e1 : v.attr x f.name = .list ((after j D E X x).map .obj) := by rw [hv.2]; exact ho'
  have hp : pyIn (.obj j) ((after j D E X x).map .obj) = false := by
    rw [Bool.eq_false_iff]; exact fun h => ho (pyIn_obj.1 h)
  simp only [m.listL, e1, hp]
  refine Ends.bind (leads_listAppendAttr ho' ?_) (runs_delUnlinked _ _ _).leads
  have he : put (midO (idIn env C A) A j f of X cur D E) x f.name (.list ((after j D E X x).map .obj ++ [.obj j])) = put (midO (idIn env C A) A j f of X cur D E) x f.name (.list ((after j D E X x ++ [j]).map .obj)) := by simp
  rw [he, List.length_map]
  refine leads_add (n := n + 2) (A₁ := put (midO (idIn env C A) A j f of X cur D E) x f.name (.list ((after j D E X x ++ [j]).map .obj))) m.plainL m.left m.refL ?_ ?_
  · exact leads_link_present m.oppL m.listL m.listR ((put_other (fun h => hxj h.1.symm)).trans midO_back) hc (n + 1)
  · have := leads_addKey m (A := put (midO (idIn env C A) A j f of X cur D E) x f.name (.list ((after j D E X x ++ [j]).map .obj))) (put_same _ _ _) ((put_other (fun h => m.distinct h.2)).trans hk') (by simp) (n + 1)
    rw [idIn_put (fun q _ h => hxj h.1.symm), idIn_midO m hjD] at this
    have h2 : (after j D E X x).map (idIn env C A) ++ [idIn env C A j] = (after j D E X x ++ [j]).map (idIn env C A) := by simp
    rwa [h2, midO_join hxj hE m.distinct] at this


/-! ### Assignment and methods from the side without ids -/

theorem leads_assignO {x n : Nat} {ys : List Nat} (mx : MM env C x j f of) (hn : env.fuel = n + 6) (h1 : A j of.name = .list (ys.map .obj)) (hy : ys.Nodup) (hz : zs.Nodup) (hne : zs ≠ ys)
    (N : MidOkO env C A j f of X ys zs) : Ends C A (setField env j of.name (.list (zs.map .obj))) (midO (idIn env C A) A j f of X zs ys zs) := by
  unfold setField
  rw [hn]
  simp only [runL, setBody]
  refine Ends.look (fun w hw => ?_)
  have ha : w.attr j of.name = .list (ys.map .obj) := by rw [hw.2]; exact h1
  have hq : pyEq (Val.list (zs.map .obj)) (.list (ys.map .obj)) = false := by
    rw [Bool.eq_false_iff]
    intro h
    simp only [pyEq] at h
    exact hne (pyEqList_objs zs ys h)
  rw [hw.cdef, mx.right, ha]
  by_cases hcalc : of.store = .calculated
  · simp only [if_pos hcalc]
    exact Ends.raise _
  simp only [if_neg hcalc, hq, mx.refR, if_true]
  refine (runs_track j of).leads.bind (Ends.bind (A₁ := midO (idIn env C A) A j f of X [] ys []) (Does.leads ?_) ((runs_rawSet _ _ _).leads.bind (Ends.bind (A₁ := midO (idIn env C A) A j f of X zs ys []) ?_ ?_)))
  · unfold unlinkField
    rw [hn]
    simp only [runU, unlinkBody, mx.oppR, linkItems, mx.listR]
    have go : ∀ (F D : List Nat), D ++ F = ys → Does C (midO (idIn env C A) A j f of X F D [])
        (forItems (F.map .obj) (fun item => do addUnlinked j of.name item; unlinkOther env (runU env (n + 5)) j f item)) (midO (idIn env C A) A j f of X [] ys []) := by
      intro F
      induction F with
      | nil => intro D h; rw [List.append_nil] at h; subst h; simp only [List.map_nil, forItems]; exact Does.pure
      | cons y F ih =>
        intro D h
        simp only [List.map_cons, forItems]
        have hy' : y ∉ D := fun h' => by
          rw [← h] at hy
          exact (List.nodup_append.1 hy).2.2 y h' y (by simp) rfl
        have hs := stepO_leave (cur := y :: F) (D := D) N (x := y) (by rw [← h]; simp) (by rw [← h]; simp) hy' (by simp) n
        rw [List.erase_cons_head] at hs
        exact Does.bind hs (ih (D ++ [y]) (by rw [← h]; simp))
    have := go ys [] rfl
    rwa [midO_start h1] at this
  · simp only [syncKey, mx.keyR, ne_eq, not_false_eq_true, if_true, midO_cur]
    exact Ends.pure
  · simp only [linkBody, mx.oppR, linkItems, mx.listR]
    have go : ∀ (F E : List Nat), E ++ F = zs → Ends C (midO (idIn env C A) A j f of X zs ys E)
        (forItems (F.map .obj) (fun item => do delUnlinked j of.name item; linkOther env (runL env (n + 4)) j f item)) (midO (idIn env C A) A j f of X zs ys zs) := by
      intro F
      induction F with
      | nil => intro E h; rw [List.append_nil] at h; subst h; simp only [List.map_nil, forItems]; exact Ends.pure
      | cons y F ih =>
        intro E h
        simp only [List.map_cons, forItems]
        have hyE : y ∉ E := fun h' => by
          rw [← h] at hz
          exact (List.nodup_append.1 hz).2.2 y h' y (by simp) rfl
        have hyz : y ∈ zs := by rw [← h]; simp
        refine Ends.bind ((runs_delUnlinked _ _ _).leads.bind (stepO_join (n := n + 1) N hyz (fun _ h => h) (by rw [← h]; simp) hyE ?_ hyz)) (ih (E ++ [y]) (by rw [← h]; simp))
        by_cases hyy : y ∈ ys
        · simpa [after, hyy, hyE] using (N.held y hyy).1.not_mem_erase
        · simpa [after, hyy, hyE] using N.out y hyz hyy
    have := go zs [] rfl
    simpa using this

theorem runs_reportsO {n : Nat} {D₀ E₀ : List Nat} (hn : env.fuel = n + 6) (N : MidOkO env C A j f of X D₀ E₀) (hDn : D₀.Nodup) (hc : ∀ x ∈ D₀, x ∉ cur) :
    Does C (midO (idIn env C A) A j f of X cur [] []) (forEvs (ownerLEv env j of.name) (D₀.map fun y => LEv.del (.obj y))) (midO (idIn env C A) A j f of X cur D₀ []) := by
  have go : ∀ (G D' : List Nat), D' ++ G = D₀ → Does C (midO (idIn env C A) A j f of X cur D' [])
      (forEvs (ownerLEv env j of.name) (G.map fun y => LEv.del (.obj y))) (midO (idIn env C A) A j f of X cur D₀ []) := by
    intro G
    induction G with
    | nil => intro D' h; rw [List.append_nil] at h; subst h; exact Does.pure
    | cons x G ih =>
      intro D' h
      have hx0 : x ∈ D₀ := by rw [← h]; simp
      have hxD : x ∉ D' := fun h' => by
        rw [← h] at hDn
        exact (List.nodup_append.1 hDn).2.2 x h' x (by simp) rfl
      simp only [List.map_cons, forEvs]
      refine Does.bind (A₁ := midO (idIn env C A) A j f of X cur (D' ++ [x]) []) ?_ (ih (D' ++ [x]) (by rw [← h]; simp))
      show Does _ _ (olistDel env j of.name (.obj x)) _
      unfold olistDel
      rw [hn]
      exact stepO_del N hx0 (by rw [← h]; simp) hxD (hc x hx0) (n + 1)
  exact go D₀ [] rfl

theorem forEvs_two {ε : Type} (h : ε → Py World Unit) (xs ys : List ε) : forEvs h (xs ++ ys) = (do forEvs h xs; forEvs h ys) := by
  induction xs with
  | nil => rfl
  | cons x xs ih =>
    simp only [List.cons_append, forEvs, ih]
    funext w
    simp only [Py.bind_run]
    rcases h x w with ⟨⟨⟩, w⟩ <;> rfl

theorem leads_methodO {n : Nat} {ys : List Nat} {op : LOp Val} {es : List (Int × Nat)} {log : List (LEv Val)} (hn : env.fuel = n + 6) (h1 : A j of.name = .list (ys.map .obj))
    (N : MidOkO env C A j f of X D (es.map Prod.snd)) (hop : ownedOp pyEq op (ys.map .obj) = ⟨none, zs.map .obj, log⟩)
    (hlog : log.filter (fun e => !e.isWill) = (D.map fun y => LEv.del (.obj y)) ++ es.map fun p => LEv.add p.1 (.obj p.2)) (hDn : D.Nodup) (hDz : ∀ x ∈ D, x ∉ zs)
    (hEn : (es.map Prod.snd).Nodup) (hEz : es.map Prod.snd ⊆ zs) :
    Ends C A (listOp env j of.name op) (midO (idIn env C A) A j f of X zs D (es.map Prod.snd)) := by
  unfold listOp
  refine Ends.look (fun v hv => ?_)
  have ha : v.attr j of.name = .list (ys.map .obj) := by rw [hv.2]; exact h1
  rw [ha]
  simp only [hop, hlog, forEvs_two]
  refine (runs_wills log).leads.bind ((runs_rawSet _ _ _).leads.bind (Ends.bind ?_ Ends.pure))
  have hstart : put A j of.name (.list (zs.map .obj)) = midO (idIn env C A) A j f of X zs [] [] := by
    conv_lhs => rw [← midO_start (g := idIn env C A) (A := A) (f := f) (of := of) (X := X) h1]
    exact midO_cur zs
  rw [hstart]
  refine (runs_reportsO hn N hDn hDz).leads.bind ?_
  have go : ∀ (gs : List (Int × Nat)) (E : List Nat), E ++ gs.map Prod.snd = es.map Prod.snd →
      Ends C (midO (idIn env C A) A j f of X zs D E) (forEvs (ownerLEv env j of.name) (gs.map fun p => LEv.add p.1 (.obj p.2))) (midO (idIn env C A) A j f of X zs D (es.map Prod.snd)) := by
    intro gs
    induction gs with
    | nil => intro E h; rw [List.map_nil, List.append_nil] at h; rw [h]; exact Ends.pure
    | cons p gs ih =>
      intro E h
      obtain ⟨k, x⟩ := p
      simp only [List.map_cons] at h ⊢
      have hxE : x ∉ E := fun h' => by
        rw [← h] at hEn
        exact (List.nodup_append.1 hEn).2.2 x h' x (by simp) rfl
      have hxm : x ∈ es.map Prod.snd := by rw [← h]; simp
      have hxz := hEz hxm
      have hxD : x ∉ D := fun hx => hDz x hx hxz
      have m := N.rel x (.inr hxm)
      simp only [forEvs]
      refine Ends.bind (A₁ := midO (idIn env C A) A j f of X zs D (E ++ [x])) ?_ (ih (E ++ [x]) (by rw [← h]; simp))
      show Ends _ _ (olistAdd env j of.name k (.obj x)) _
      unfold olistAdd
      rw [hn]
      refine leads_add (n := n + 5) (A₁ := midO (idIn env C A) A j f of X zs D (E ++ [x])) m.plainR m.right m.refR ?_ ?_
      · simp only [runL, linkBody, m.oppR, linkItems, m.listR, forItems]
        refine Ends.bind ((runs_delUnlinked _ _ _).leads.bind ?_) Ends.pure
        exact stepO_join (n := n + 1) N hxm (fun _ h => h) (by rw [← h]; simp) hxE (by simpa [after, hxD, hxE] using N.out x hxm hxD) hxz
      · simp only [addKey, if_neg m.keyR]
        exact Ends.pure
  exact go es [] rfl

/-! ### From states to attributes -/

theorem id_eq {w : World} (x : Nat) : w.id env x = idIn env w.classes w.attr x := Holding.id ⟨rfl, rfl⟩ x

theorem ids_eq {w : World} (xs : List Nat) : xs.map (w.id env) = xs.map (idIn env w.classes w.attr) := List.map_congr_left fun x _ => id_eq x

theorem midOk {w : World} (R : Relations env) (P : PlainPrimary env) (T : Tagged env w i f of xs Y) (hD : D ⊆ xs) (hE : ∀ z ∈ E, z ∈ D ∨ Fresh env w i f of Y z) : MidOk env w.classes w.attr i f of Y D E := by
  refine ⟨?_, ?_, fun x hx => (T.back x (hD hx)).2, ?_⟩
  · rintro x (hx | hx)
    · exact (T.rel x (hD hx)).mm R P
    · rcases hE x hx with h | h
      · exact (T.rel x (hD h)).mm R P
      · exact h.rel.mm R P
  · rintro x (hx | hx)
    · exact (T.back x (hD hx)).1
    · rcases hE x hx with h | h
      · exact (T.back x (hD h)).1
      · exact h.back
  · intro x hx hxD
    rcases hE x hx with h | h
    · exact (hxD h).elim
    · exact h.out

theorem retagged {w w' : World} (N : MidOk env w.classes w.attr i f of Y D E) (hd : zs = [] ∨ f.refName ≠ f.name)
    (h : Holding w' w.classes (midF w.attr i f of Y zs (zs.map (w.id env)) D E)) : Retagged env w w' i f of Y D E zs := by
  refine ⟨fun a => congrFun h.1 a, ?_, ?_, ?_, ?_⟩
  · rw [h.2]; exact midF_objs
  · rw [h.2]
    rcases hd with rfl | hd
    · unfold midF
      split <;> simp
    · exact midF_refs hd
  · intro x hx
    rw [h.2]
    exact midF_back (N.rel x hx).differ.symm (N.back x hx)
  · intro x n c1 c2
    rw [h.2]
    unfold midF
    rw [if_neg (fun c => c1 ⟨c.1, .inl c.2⟩), if_neg (fun c => c1 ⟨c.1, .inr c.2⟩), if_neg (fun c => c2 ⟨c.2, c.1⟩)]

theorem midOkO {w : World} {ys : List Nat} (R : Relations env) (P : PlainPrimary env) (T : Listed env w j f of ys X) (hD : D ⊆ ys) (hE : ∀ z ∈ E, z ∈ D ∨ Welcome env w j f of X z) :
    MidOkO env w.classes w.attr j f of X D E := by
  refine ⟨?_, ?_, ?_, ?_⟩
  · rintro x (hx | hx)
    · exact (T.rel x (hD hx)).mm R P
    · rcases hE x hx with h | h
      · exact (T.rel x (hD h)).mm R P
      · exact h.rel.mm R P
  · rintro x (hx | hx)
    · have := (T.back x (hD hx)).1
      exact ⟨this.objs, by rw [← ids_eq]; exact this.ids⟩
    · rcases hE x hx with h | h
      · have := (T.back x (hD h)).1
        exact ⟨this.objs, by rw [← ids_eq]; exact this.ids⟩
      · exact ⟨h.objs, by rw [← ids_eq]; exact h.ids⟩
  · intro x hx
    obtain ⟨h1, h2⟩ := T.back x (hD hx)
    exact ⟨h1.once, h2, fun y hy => by rw [← id_eq, ← id_eq]; exact h1.proper y hy j h2⟩
  · intro x hx hxD
    rcases hE x hx with h | h
    · exact (hxD h).elim
    · exact h.out

theorem relisted {w w' : World} (N : MidOkO env w.classes w.attr j f of X D E) (h : Holding w' w.classes (midO (idIn env w.classes w.attr) w.attr j f of X zs D E)) :
    Relisted env w w' j f of X D E zs := by
  refine ⟨fun a => congrFun h.1 a, ?_, ?_, ?_⟩
  · rw [h.2]; exact midO_back
  · intro x hx
    have m := N.rel x hx
    rw [h.2, ids_eq]
    exact ⟨midO_objs m.differ (N.objs x hx).1, midO_refs m.differ m.distinct (N.objs x hx).2⟩
  · intro x n c1 c2
    rw [h.2]
    unfold midO
    rw [if_neg c1, if_neg (fun c => c2 ⟨c.2, .inl c.1⟩), if_neg (fun c => c2 ⟨c.2, .inr c.1⟩)]


/-! ### What the methods of lists do -/

theorem op_pop {i : Option Int} {k y : Nat} {ys : List Nat} (hp : AtPos ys.length k (i.getD (-1))) (hy : ys[k]? = some y) :
    ownedOp pyEq (.pop i) (ys.map Val.obj) = ⟨none, (ys.eraseIdx k).map .obj, [.will, .del (.obj y)]⟩ := by
  have hn : normIdx (ys.map Val.obj).length (i.getD (-1)) = some k := by rw [List.length_map]; exact hp.norm
  simp only [ownedOp, withIdx, hn, notified, getIdxs_one hy, dels]
  rw [eraseIdx_objs]
  rfl

theorem op_delete {i : Int} {k y : Nat} {ys : List Nat} (hp : AtPos ys.length k i) (hy : ys[k]? = some y) :
    ownedOp pyEq (.delIdx i) (ys.map Val.obj) = ⟨none, (ys.eraseIdx k).map .obj, [.will, .del (.obj y)]⟩ := by
  have hn : normIdx (ys.map Val.obj).length i = some k := by rw [List.length_map]; exact hp.norm
  simp only [ownedOp, withIdx, hn, notified, getIdxs_one hy, dels]
  rw [eraseIdx_objs]
  rfl

theorem eraseIdx_filter {k y : Nat} {ys : List Nat} (hn : ys.Nodup) (hy : ys[k]? = some y) : ys.eraseIdx k = ys.filter (fun x => decide (x ∉ [y])) := by
  obtain ⟨hk, rfl⟩ := List.getElem?_eq_some_iff.1 hy
  rw [← List.Nodup.erase_getElem hn k hk, hn.erase_eq_filter]
  apply List.filter_congr
  intro x _
  by_cases h : x = ys[k] <;> simp [h]

theorem pyInsert_at {α : Type} {xs : List α} {k : Nat} {i : Int} {v : α} (hp : BeforePos xs.length k i) : pyInsert xs i v = xs.take k ++ v :: xs.drop k := by
  have hk : (if i < 0 then (i + xs.length).toNat else min i.toNat xs.length) = k := by
    rcases hp with ⟨h1, h2⟩ | ⟨h1, h2⟩
    · rw [if_neg (by omega)]; omega
    · rw [if_pos h1]; omega
  simp [pyInsert, hk]

theorem pyInsert_min {α : Type} {xs : List α} {k : Nat} {i : Int} {v : α} (hp : BeforePos xs.length k i) : pyInsert xs (min xs.length i) v = xs.take k ++ v :: xs.drop k := by
  refine pyInsert_at ?_
  rcases hp with ⟨h1, h2⟩ | ⟨h1, h2⟩
  · exact .inl ⟨by omega, by omega⟩
  · exact .inr ⟨by omega, by omega⟩

theorem op_insert {i : Int} {k z : Nat} {ys : List Nat} (hp : BeforePos ys.length k i) :
    ownedOp pyEq (.insert i (.obj z)) (ys.map Val.obj) = ⟨none, (ys.take k ++ z :: ys.drop k).map .obj, [.will, .add (min (ys.map Val.obj).length i) (.obj z)]⟩ := by
  have := pyInsert_at (v := Val.obj z) (xs := ys.map Val.obj) (by rw [List.length_map]; exact hp)
  simp [ownedOp, this]

/-- the additions reported for objects put at the end of a list of length `k` -/
def atEnd : Nat → List Nat → List (Int × Nat)
  | _, [] => []
  | k, z :: zs => ((k : Int), z) :: atEnd (k + 1) zs

theorem atEnd_objs (zs : List Nat) : ∀ k, (atEnd k zs).map Prod.snd = zs := by
  induction zs with
  | nil => exact fun _ => rfl
  | cons z zs ih => intro k; simp [atEnd, ih]

theorem atEnd_length (zs : List Nat) (k : Nat) : (atEnd k zs).length = zs.length := by
  have := congrArg List.length (atEnd_objs zs k)
  simpa using this

theorem atEnd_adds (zs : List Nat) : ∀ k : Nat, addsFrom 1 (k : Int) (zs.map Val.obj) = (atEnd k zs).map fun p => LEv.add p.1 (.obj p.2) := by
  induction zs with
  | nil => exact fun _ => rfl
  | cons z zs ih =>
    intro k
    have := ih (k + 1)
    simp only [List.map_cons, addsFrom, atEnd]
    rw [← this]
    simp

theorem atEnd_ids (g : Nat → Val) (zs : List Nat) : ∀ xs : List Nat, insertAll g (xs.map g) (atEnd xs.length zs) = (xs ++ zs).map g := by
  induction zs with
  | nil => intro xs; simp [insertAll, atEnd]
  | cons z zs ih =>
    intro xs
    have h : pyInsert (xs.map g) (xs.length : Int) (g z) = (xs ++ [z]).map g := by
      rw [pyInsert_at (k := xs.length) (.inl ⟨by omega, by simp⟩), List.take_of_length_le (by simp), List.drop_of_length_le (by simp)]
      simp
    have := ih (xs ++ [z])
    simp only [insertAll, atEnd, List.foldl_cons, h] at this ⊢
    simpa using this

theorem op_extend {op : LOp Val} {ys : List Nat} (hop : op = .extend (.seq (zs.map .obj)) ∨ op = .iadd (.seq (zs.map .obj))) :
    ∃ log, ownedOp pyEq op (ys.map Val.obj) = ⟨none, (ys ++ zs).map .obj, log⟩ ∧ log.filter (fun e => !e.isWill) = (atEnd ys.length zs).map fun p => LEv.add p.1 (.obj p.2) := by
  refine ⟨(if (zs.map Val.obj).length > 0 then [LEv.will] else []) ++ addsFrom 1 ((ys.map Val.obj).length : Int) (zs.map Val.obj), ?_, ?_⟩
  · rcases hop with rfl | rfl <;> simp only [ownedOp, ownedExtend, ItArg.items, ItArg.again, List.map_append] <;> rfl
  · have : (if (zs.map Val.obj).length > 0 then [LEv.will] else ([] : List (LEv Val))).filter (fun e => !e.isWill) = [] := by split <;> rfl
    rw [List.filter_append, this, List.nil_append, List.length_map (as := ys), atEnd_adds]
    refine List.filter_eq_self.2 fun a ha => ?_
    obtain ⟨p, _, rfl⟩ := List.mem_map.1 ha
    rfl

theorem op_replace {i : Int} {k y z : Nat} {ys : List Nat} (hp : AtPos ys.length k i) (hy : ys[k]? = some y) :
    ownedOp pyEq (.setIdx i (.obj z)) (ys.map Val.obj) = ⟨none, (ys.set k z).map .obj, [.will, .del (.obj y), .add (if i < 0 then (ys.map Val.obj).length + i else i) (.obj z)]⟩ := by
  have hn : normIdx (ys.map Val.obj).length i = some k := by rw [List.length_map]; exact hp.norm
  simp only [ownedOp, withIdx, hn, notified, getIdxs_one hy, dels]
  simp [List.map_set]

/-! ### The theorems: the side with the ids -/

theorem proper_eq {w : World} (h : ProperIds env w xs) : ∀ x ∈ xs, ∀ y ∈ xs, pyEq (idIn env w.classes w.attr x) (idIn env w.classes w.attr y) = true ↔ x = y := by
  intro x hx y hy
  rw [← id_eq, ← id_eq]
  exact h x hx y hy

theorem setField_of {w w' : World} {g : Field} {v : Val} {x : Nat} (hp : (env.cls (w.classes x)).localKey? g.name = none) (h : (FOp.set g.name v).run env x w = (.ok (), w')) :
    setField env x g.name v w = (.ok (), w') := by
  have hw : Holding w w.classes w.attr := ⟨rfl, rfl⟩
  change setAttr env x g.name v w = _ at h
  unfold setAttr at h
  have := get_bind_ok h
  rw [hw.cdef, hp] at this
  exact this

/-- **C85**. `i.f = zs`. -/
theorem assign_keyed_effect (R : Relations env) (P : PlainPrimary env) {w w' : World} (hfuel : 6 ≤ env.fuel) (T : Tagged env w i f of xs Y) (hz : zs.Nodup)
    (hne : zs ≠ xs) (hzs : ∀ z ∈ zs, z ∈ xs ∨ Fresh env w i f of Y z) (h : (FOp.set f.name (.list (zs.map .obj))).run env i w = (.ok (), w')) :
    Retagged env w w' i f of Y xs zs zs := by
  obtain ⟨n, hn⟩ : ∃ n, env.fuel = n + 6 := ⟨env.fuel - 6, by omega⟩
  have N := midOk R P T (fun _ h => h) hzs
  obtain ⟨x, hx⟩ : ∃ x, x ∈ xs ∨ x ∈ zs := by
    cases xs with
    | cons y ys => exact ⟨y, by simp⟩
    | nil => cases zs with
      | cons z zs => exact ⟨z, by simp⟩
      | nil => exact (hne rfl).elim
  refine retagged N (.inr (N.rel x hx).distinct) ?_
  rw [ids_eq]
  exact leads_assignF (N.rel x hx) hn T.holds.objs (by rw [← ids_eq]; exact T.holds.ids) T.holds.once hz hne (proper_eq T.holds.proper) N w w' ⟨rfl, rfl⟩ (setField_of (N.rel x hx).plainL h)

/-- **C85**. Any method of the list that only takes objects out. -/
theorem keyed_removal_effect (R : Relations env) (P : PlainPrimary env) {w : World} {op : LOp Val} {log : List (LEv Val)} (hfuel : 6 ≤ env.fuel) (T : Tagged env w i f of xs Y)
    (hop : ownedOp pyEq op (xs.map .obj) = ⟨none, zs.map .obj, log⟩) (hlog : log.filter (fun e => !e.isWill) = D.map fun y => LEv.del (.obj y)) (hD : D ⊆ xs) (hDn : D.Nodup)
    (hzs : zs = xs.filter (fun x => decide (x ∉ D))) : ∃ w', (FOp.lst f.name op).run env i w = (.ok (), w') ∧ Retagged env w w' i f of Y D [] zs := by
  obtain ⟨n, hn⟩ : ∃ n, env.fuel = n + 6 := ⟨env.fuel - 6, by omega⟩
  obtain ⟨w', h1, h2⟩ := runs_removalF hn T.holds.objs (by rw [← ids_eq]; exact T.holds.ids) (proper_eq T.holds.proper) T.holds.once (midOk R P T (fun _ h => h) (by simp)) hzs hop hlog hD hDn w ⟨rfl, rfl⟩
  refine ⟨w', h1, retagged (midOk R P T hD (by simp)) ?_ (by rw [ids_eq]; exact h2)⟩
  cases zs with
  | nil => exact .inl rfl
  | cons z zs => exact .inr ((T.rel z (List.mem_of_mem_filter (hzs ▸ List.mem_cons_self))).mm R P).distinct

/-- **C85**. `i.f.clear()`. -/
theorem keyed_clear_effect (R : Relations env) (P : PlainPrimary env) {w : World} (hfuel : 6 ≤ env.fuel) (T : Tagged env w i f of xs Y) :
    ∃ w', (FOp.lst f.name .clear).run env i w = (.ok (), w') ∧ Retagged env w w' i f of Y xs [] [] := by
  refine keyed_removal_effect R P hfuel T (zs := []) (log := .will :: dels (xs.map .obj)) rfl ?_ (fun _ h => h) T.holds.once ?_
  · simp [dels, LEv.isWill, List.filter_map, Function.comp_def]
  · symm
    rw [List.filter_eq_nil_iff]
    intro x hx
    simpa using hx

/-- **C85**. `i.f.pop(p)`. -/
theorem keyed_pop_effect (R : Relations env) (P : PlainPrimary env) {w : World} {p : Option Int} {k x : Nat} (hfuel : 6 ≤ env.fuel) (T : Tagged env w i f of xs Y)
    (hp : AtPos xs.length k (p.getD (-1))) (hx : xs[k]? = some x) :
    ∃ w', (FOp.lst f.name (.pop p)).run env i w = (.ok (), w') ∧ Retagged env w w' i f of Y [x] [] (xs.eraseIdx k) :=
  keyed_removal_effect R P hfuel T (op_pop hp hx) rfl (by simpa using List.mem_of_getElem? hx) (by simp) (eraseIdx_filter T.holds.once hx)

/-- **C85**. `del i.f[p]`. -/
theorem keyed_delete_effect (R : Relations env) (P : PlainPrimary env) {w : World} {p : Int} {k x : Nat} (hfuel : 6 ≤ env.fuel) (T : Tagged env w i f of xs Y)
    (hp : AtPos xs.length k p) (hx : xs[k]? = some x) :
    ∃ w', (FOp.lst f.name (.delIdx p)).run env i w = (.ok (), w') ∧ Retagged env w w' i f of Y [x] [] (xs.eraseIdx k) :=
  keyed_removal_effect R P hfuel T (op_delete hp hx) rfl (by simpa using List.mem_of_getElem? hx) (by simp) (eraseIdx_filter T.holds.once hx)

/-- **C85**. `i.f.insert(p, z)`: the id gets the position of the object. -/
theorem keyed_insert_effect (R : Relations env) (P : PlainPrimary env) {w w' : World} {p : Int} {k z : Nat} (hfuel : 6 ≤ env.fuel) (T : Tagged env w i f of xs Y)
    (hp : BeforePos xs.length k p) (hz : Fresh env w i f of Y z) (h : (FOp.lst f.name (.insert p (.obj z))).run env i w = (.ok (), w')) :
    Retagged env w w' i f of Y [] [z] (xs.take k ++ z :: xs.drop k) := by
  obtain ⟨n, hn⟩ : ∃ n, env.fuel = n + 6 := ⟨env.fuel - 6, by omega⟩
  have N : MidOk env w.classes w.attr i f of Y [] [z] := midOk R P T (by simp) (fun x hx => .inr (by rw [List.mem_singleton.1 hx]; exact hz))
  have hk : k ≤ xs.length := by rcases hp with ⟨h1, h2⟩ | ⟨h1, h2⟩ <;> omega
  have := leads_additionF (es := [(min (xs.map Val.obj).length p, z)]) hn T.holds.objs (by rw [← ids_eq]; exact T.holds.ids) N (op_insert hp) rfl (by simp) (by simp) (by simp; omega) w w' ⟨rfl, rfl⟩ h
  refine retagged N (.inr (N.rel z (by simp)).distinct) ?_
  have hi : insertAll (idIn env w.classes w.attr) (xs.map (idIn env w.classes w.attr)) [(((min ((xs.map Val.obj).length : Int) p)), z)] = (xs.take k ++ z :: xs.drop k).map (w.id env) := by
    rw [ids_eq]
    simp only [insertAll, List.foldl_cons, List.foldl_nil, List.length_map]
    have := pyInsert_min (xs := xs.map (idIn env w.classes w.attr)) (k := k) (i := p) (v := idIn env w.classes w.attr z) (by rw [List.length_map]; exact hp)
    rw [List.length_map] at this
    rw [this]
    simp
  rw [← hi]
  exact this

/-- **C85**. `i.f.extend(zs)` and `i.f += zs`. -/
theorem keyed_extend_effect (R : Relations env) (P : PlainPrimary env) {w w' : World} {op : LOp Val} (hop : op = .extend (.seq (zs.map .obj)) ∨ op = .iadd (.seq (zs.map .obj)))
    (hfuel : 6 ≤ env.fuel) (T : Tagged env w i f of xs Y) (hn : zs.Nodup) (hz : ∀ z ∈ zs, Fresh env w i f of Y z) (h : (FOp.lst f.name op).run env i w = (.ok (), w')) :
    Retagged env w w' i f of Y [] zs (xs ++ zs) := by
  obtain ⟨n, hf⟩ : ∃ n, env.fuel = n + 6 := ⟨env.fuel - 6, by omega⟩
  have N : MidOk env w.classes w.attr i f of Y [] zs := midOk R P T (by simp) (fun z h => .inr (hz z h))
  obtain ⟨log, h1, h2⟩ := op_extend (ys := xs) hop
  have := leads_additionF (es := atEnd xs.length zs) (Y := Y) (of := of) hf T.holds.objs (by rw [← ids_eq]; exact T.holds.ids) (by rw [atEnd_objs]; exact N) h1 h2 (by rw [atEnd_objs]; exact hn) (by rw [atEnd_objs]; simp)
    (by simp [atEnd_length]) w w' ⟨rfl, rfl⟩ h
  rw [atEnd_objs, atEnd_ids, ← ids_eq] at this
  refine retagged N ?_ this
  cases hx : xs ++ zs with
  | nil => exact .inl rfl
  | cons z l =>
    have : z ∈ xs ++ zs := by rw [hx]; simp
    rcases List.mem_append.1 this with h | h
    · exact .inr ((T.rel z h).mm R P).distinct
    · exact .inr ((hz z h).rel.mm R P).distinct

/-- **C85**. After each of them the list, the ids and the other side agree again. -/
theorem retagged_tagged {w w' : World} (R : Relations env) (P : PlainPrimary env) (H : Retagged env w w' i f of Y D E zs) (T : Tagged env w i f of xs Y) (hz : zs.Nodup)
    (hp : ProperIds env w zs) (hE : ∀ z ∈ E, z ∈ D ∨ Fresh env w i f of Y z ∧ (Y z).Nodup) (hD : D ⊆ xs) (hzs : ∀ z ∈ zs, z ∈ E ∨ z ∈ xs ∧ z ∉ D) :
    Tagged env w' i f of zs (after i D E Y) := by
  have hf : ∀ i g, HasField env w i g → HasField env w' i g := by
    intro i g h
    unfold HasField World.cdef at h ⊢
    rw [H.classes]
    exact h
  have ho : ∀ z ∈ zs, ManyToMany env w i z f of := fun z hz => (hzs z hz).elim (fun h => (hE z h).elim (fun h => T.rel z (hD h)) (fun h => h.1.rel)) (fun h => T.rel z h.1)
  have hid : ∀ z ∈ zs, w'.id env z = w.id env z := by
    intro z hz
    have m := (ho z hz).mm R P
    have hc : w'.cdef env z = w.cdef env z := by unfold World.cdef; rw [H.classes]
    unfold World.id
    rw [hc]
    split
    · rename_i n hn
      exact H.frame z n (fun h => m.differ h.1.symm) (fun h => m.prim n hn h.2)
    · rfl
  refine ⟨⟨H.list, ?_, hz, ?_⟩, fun z hz => ?_, fun z hz => ?_⟩
  · rw [H.ids]
    exact congrArg _ (List.map_congr_left fun z h => (hid z h).symm)
  · intro x hx y hy
    rw [hid x hx, hid y hy]
    exact hp x hx y hy
  · have := ho z hz
    exact ⟨this.differ, hf _ _ this.left, hf _ _ this.right, this.pair, this.lists, this.keys⟩
  · rcases hzs z hz with h | ⟨h1, h2⟩
    · refine ⟨H.others z (.inr h), ?_, by simp [after, h]⟩
      rcases hE z h with h' | ⟨h', h''⟩
      · obtain ⟨_, h4, _⟩ := T.back z (hD h')
        simp only [after, h, h', if_true]
        exact List.nodup_append.2 ⟨h4.erase i, by simp, by simpa using fun a ha e => h4.not_mem_erase (e ▸ ha)⟩
      · by_cases h3 : z ∈ D
        · simp only [after, h, h3, if_true]
          exact List.nodup_append.2 ⟨h''.erase i, by simp, by simpa using fun a ha e => h''.not_mem_erase (e ▸ ha)⟩
        · simp only [after, h, h3, if_true, if_false]
          exact List.nodup_append.2 ⟨h'', by simp, fun a ha b hb e => h'.out (by rw [List.mem_singleton] at hb; rw [← hb, ← e]; exact ha)⟩
    · obtain ⟨h3, h4, h5⟩ := T.back z h1
      by_cases h6 : z ∈ E
      · refine ⟨H.others z (.inr h6), ?_, by simp [after, h6]⟩
        rcases hE z h6 with h' | ⟨h', _⟩
        · exact (h2 h').elim
        · exact (h'.out h5).elim
      · have m := (T.rel z h1).mm R P
        have : after i D E Y z = Y z := by simp [after, h2, h6]
        rw [this, H.frame z of.name (fun h => m.differ h.1.symm) (fun h => h.1.elim h2 h6)]
        exact ⟨h3, h4, h5⟩

/-! ### The theorems: the side without ids -/

/-- **C85**. `j.of = zs`. -/
theorem assign_unkeyed_effect (R : Relations env) (P : PlainPrimary env) {w w' : World} {ys : List Nat} (hfuel : 6 ≤ env.fuel) (T : Listed env w j f of ys X) (hz : zs.Nodup)
    (hne : zs ≠ ys) (hzs : ∀ z ∈ zs, z ∈ ys ∨ Welcome env w j f of X z) (h : (FOp.set of.name (.list (zs.map .obj))).run env j w = (.ok (), w')) :
    Relisted env w w' j f of X ys zs zs := by
  obtain ⟨n, hn⟩ : ∃ n, env.fuel = n + 6 := ⟨env.fuel - 6, by omega⟩
  have N := midOkO R P T (fun _ h => h) hzs
  obtain ⟨x, hx⟩ : ∃ x, x ∈ ys ∨ x ∈ zs := by
    cases ys with
    | cons y ys => exact ⟨y, by simp⟩
    | nil => cases zs with
      | cons z zs => exact ⟨z, by simp⟩
      | nil => exact (hne rfl).elim
  exact relisted N (leads_assignO (N.rel x hx) hn T.objs T.once hz hne N w w' ⟨rfl, rfl⟩ (setField_of (N.rel x hx).plainR h))

/-- **C85**. Any method of the list that takes the objects `D` out and puts others in. -/
theorem unkeyed_method_effect (R : Relations env) (P : PlainPrimary env) {w w' : World} {ys : List Nat} {op : LOp Val} {es : List (Int × Nat)} {log : List (LEv Val)} (hfuel : 6 ≤ env.fuel)
    (T : Listed env w j f of ys X) (hop : ownedOp pyEq op (ys.map .obj) = ⟨none, zs.map .obj, log⟩)
    (hlog : log.filter (fun e => !e.isWill) = (D.map fun y => LEv.del (.obj y)) ++ es.map fun p => LEv.add p.1 (.obj p.2))
    (hD : D ⊆ ys) (hDn : D.Nodup) (hDz : ∀ x ∈ D, x ∉ zs) (hEn : (es.map Prod.snd).Nodup) (hEz : es.map Prod.snd ⊆ zs) (hE : ∀ z ∈ es.map Prod.snd, Welcome env w j f of X z)
    (h : (FOp.lst of.name op).run env j w = (.ok (), w')) : Relisted env w w' j f of X D (es.map Prod.snd) zs := by
  obtain ⟨n, hn⟩ : ∃ n, env.fuel = n + 6 := ⟨env.fuel - 6, by omega⟩
  have N := midOkO (E := es.map Prod.snd) R P T hD (fun z h => .inr (hE z h))
  exact relisted N (leads_methodO hn T.objs N hop hlog hDn hDz hEn hEz w w' ⟨rfl, rfl⟩ h)

/-- **C85**. Any method of the list that only takes objects out. -/
theorem unkeyed_removal_effect (R : Relations env) (P : PlainPrimary env) {w : World} {ys : List Nat} {op : LOp Val} {log : List (LEv Val)} (hfuel : 6 ≤ env.fuel)
    (T : Listed env w j f of ys X) (hop : ownedOp pyEq op (ys.map .obj) = ⟨none, zs.map .obj, log⟩) (hlog : log.filter (fun e => !e.isWill) = D.map fun y => LEv.del (.obj y))
    (hD : D ⊆ ys) (hDn : D.Nodup) (hDz : ∀ x ∈ D, x ∉ zs) : ∃ w', (FOp.lst of.name op).run env j w = (.ok (), w') ∧ Relisted env w w' j f of X D [] zs := by
  obtain ⟨n, hn⟩ : ∃ n, env.fuel = n + 6 := ⟨env.fuel - 6, by omega⟩
  have N : MidOkO env w.classes w.attr j f of X D [] := midOkO R P T hD (by simp)
  have hd : Does w.classes w.attr (listOp env j of.name op) (midO (idIn env w.classes w.attr) w.attr j f of X zs D []) := by
    unfold listOp
    refine Does.look (fun v hv => ?_)
    have ha : v.attr j of.name = .list (ys.map .obj) := by rw [hv.2]; exact T.objs
    rw [ha]
    simp only [hop, hlog]
    refine (runs_wills log).bind ((runs_rawSet _ _ _).bind (Does.bind ?_ Does.pure))
    have hstart : put w.attr j of.name (.list (zs.map .obj)) = midO (idIn env w.classes w.attr) w.attr j f of X zs [] [] := by
      conv_lhs => rw [← midO_start (g := idIn env w.classes w.attr) (A := w.attr) (f := f) (of := of) (X := X) T.objs]
      exact midO_cur zs
    rw [hstart]
    exact runs_reportsO hn N hDn hDz
  obtain ⟨w', h1, h2⟩ := hd w ⟨rfl, rfl⟩
  exact ⟨w', h1, relisted N h2⟩

/-- **C85**. `j.of.clear()`. -/
theorem unkeyed_clear_effect (R : Relations env) (P : PlainPrimary env) {w : World} {ys : List Nat} (hfuel : 6 ≤ env.fuel) (T : Listed env w j f of ys X) :
    ∃ w', (FOp.lst of.name .clear).run env j w = (.ok (), w') ∧ Relisted env w w' j f of X ys [] [] := by
  refine unkeyed_removal_effect R P hfuel T (zs := []) (log := .will :: dels (ys.map .obj)) rfl ?_ (fun _ h => h) T.once (by simp)
  simp [dels, LEv.isWill, List.filter_map, Function.comp_def]

theorem gone_eraseIdx {k y : Nat} {ys : List Nat} (hn : ys.Nodup) (hy : ys[k]? = some y) : ∀ x ∈ [y], x ∉ ys.eraseIdx k := by
  rw [eraseIdx_filter hn hy]
  simp

/-- **C85**. `j.of.pop(p)`. -/
theorem unkeyed_pop_effect (R : Relations env) (P : PlainPrimary env) {w : World} {ys : List Nat} {p : Option Int} {k y : Nat} (hfuel : 6 ≤ env.fuel) (T : Listed env w j f of ys X)
    (hp : AtPos ys.length k (p.getD (-1))) (hy : ys[k]? = some y) :
    ∃ w', (FOp.lst of.name (.pop p)).run env j w = (.ok (), w') ∧ Relisted env w w' j f of X [y] [] (ys.eraseIdx k) :=
  unkeyed_removal_effect R P hfuel T (op_pop hp hy) rfl (by simpa using List.mem_of_getElem? hy) (by simp) (gone_eraseIdx T.once hy)

/-- **C85**. `del j.of[p]`. -/
theorem unkeyed_delete_effect (R : Relations env) (P : PlainPrimary env) {w : World} {ys : List Nat} {p : Int} {k y : Nat} (hfuel : 6 ≤ env.fuel) (T : Listed env w j f of ys X)
    (hp : AtPos ys.length k p) (hy : ys[k]? = some y) :
    ∃ w', (FOp.lst of.name (.delIdx p)).run env j w = (.ok (), w') ∧ Relisted env w w' j f of X [y] [] (ys.eraseIdx k) :=
  unkeyed_removal_effect R P hfuel T (op_delete hp hy) rfl (by simpa using List.mem_of_getElem? hy) (by simp) (gone_eraseIdx T.once hy)

/-- **C85**. `j.of.insert(p, z)`. -/
theorem unkeyed_insert_effect (R : Relations env) (P : PlainPrimary env) {w w' : World} {ys : List Nat} {p : Int} {k z : Nat} (hfuel : 6 ≤ env.fuel) (T : Listed env w j f of ys X)
    (hp : BeforePos ys.length k p) (hz : Welcome env w j f of X z) (h : (FOp.lst of.name (.insert p (.obj z))).run env j w = (.ok (), w')) :
    Relisted env w w' j f of X [] [z] (ys.take k ++ z :: ys.drop k) :=
  unkeyed_method_effect (es := [(min (ys.map Val.obj).length p, z)]) (D := []) R P hfuel T (op_insert hp) rfl (by simp) (by simp) (by simp) (by simp) (by simp) (by simpa using hz) h

/-- **C85**. `j.of.extend(zs)` and `j.of += zs`. -/
theorem unkeyed_extend_effect (R : Relations env) (P : PlainPrimary env) {w w' : World} {ys : List Nat} {op : LOp Val} (hop : op = .extend (.seq (zs.map .obj)) ∨ op = .iadd (.seq (zs.map .obj)))
    (hfuel : 6 ≤ env.fuel) (T : Listed env w j f of ys X) (hn : zs.Nodup) (hz : ∀ z ∈ zs, Welcome env w j f of X z) (h : (FOp.lst of.name op).run env j w = (.ok (), w')) :
    Relisted env w w' j f of X [] zs (ys ++ zs) := by
  obtain ⟨log, h1, h2⟩ := op_extend (ys := ys) hop
  have := unkeyed_method_effect (es := atEnd ys.length zs) (D := []) R P hfuel T h1 h2 (by simp) (by simp) (by simp) (by rw [atEnd_objs]; exact hn) (by rw [atEnd_objs]; simp) (by rw [atEnd_objs]; exact hz) h
  rwa [atEnd_objs] at this

/-- **C85**. `j.of[p] = z`. -/
theorem unkeyed_replace_effect (R : Relations env) (P : PlainPrimary env) {w w' : World} {ys : List Nat} {p : Int} {k y z : Nat} (hfuel : 6 ≤ env.fuel) (T : Listed env w j f of ys X)
    (hp : AtPos ys.length k p) (hy : ys[k]? = some y) (hz : Welcome env w j f of X z) (h : (FOp.lst of.name (.setIdx p (.obj z))).run env j w = (.ok (), w')) :
    Relisted env w w' j f of X [y] [z] (ys.set k z) := by
  have hzy : z ≠ y := by
    rintro rfl
    have := T.back z (List.mem_of_getElem? hy)
    exact hz.out this.2
  refine unkeyed_method_effect (es := [(if p < 0 then (ys.map Val.obj).length + p else p, z)]) (D := [y]) R P hfuel T (op_replace hp hy) rfl (by simpa using List.mem_of_getElem? hy) (by simp) ?_ (by simp) ?_ (by simpa using hz) h
  · intro x hx
    rw [List.mem_singleton] at hx
    subst hx
    intro hm
    obtain ⟨m, hm', e⟩ := List.mem_iff_getElem.1 hm
    rw [List.getElem_set] at e
    split at e
    · exact hzy e
    · rename_i hkm
      obtain ⟨hk, e'⟩ := List.getElem?_eq_some_iff.1 hy
      exact hkm ((List.nodup_iff_injective_get.1 T.once |> fun H => Fin.mk.inj (@H ⟨k, hk⟩ ⟨m, by simpa using hm'⟩ (e'.trans e.symm))))
  · have hk := hp.1
    simpa using List.mem_set hk z

end JC

/-! ### The demo program -/
namespace JC.TrackDemo
open JC
open JC.Demo (fId attrsOf)

/-- Two articles and three tags: article 0 has tags 2 and 3, article 1 tag 3, tag 4 is unused. -/
def library : World where
  heap := fun i => match i with
    | 0 => { cls := "Art", isNew := false, graph := 0, attrs := attrsOf [("id", .str "a"), ("tags", .list [.obj 2, .obj 3]), ("tag_ids", .list [.str "t2", .str "t3"])] }
    | 1 => { cls := "Art", isNew := false, graph := 0, attrs := attrsOf [("id", .str "b"), ("tags", .list [.obj 3]), ("tag_ids", .list [.str "t3"])] }
    | 2 => { cls := "Tag", isNew := false, graph := 0, attrs := attrsOf [("id", .str "t2"), ("arts", .list [.obj 0])] }
    | 3 => { cls := "Tag", isNew := false, graph := 0, attrs := attrsOf [("id", .str "t3"), ("arts", .list [.obj 0, .obj 1])] }
    | 4 => { cls := "Tag", isNew := false, graph := 0, attrs := attrsOf [("id", .str "t4"), ("arts", .list [])] }
    | _ => {}
  next := 5

/-- the articles of the tags -/
def artsOf : Nat → List Nat
  | 2 => [0]
  | 3 => [0, 1]
  | _ => []

/-- the tags of the articles -/
def tagsOf : Nat → List Nat
  | 0 => [2, 3]
  | 1 => [3]
  | _ => []

theorem taggable_lib {i x : Nat} (hi : i = 0 ∨ i = 1) (hx : x = 2 ∨ x = 3 ∨ x = 4) : ManyToMany env library i x fTags fArts := by
  rcases hi with rfl | rfl <;> rcases hx with rfl | rfl | rfl <;> exact ⟨by decide, by rfl, by rfl, paired_tags, ⟨rfl, rfl⟩, ⟨rfl, by decide⟩⟩

theorem proper_lib : ProperIds env library [2, 3, 4] := by
  intro x hx y hy
  simp only [List.mem_cons, List.not_mem_nil, or_false] at hx hy
  rcases hx with rfl | rfl | rfl <;> rcases hy with rfl | rfl | rfl <;> decide +kernel

theorem proper_sub {xs ys : List Nat} {w : World} (h : ProperIds env w ys) (hs : xs ⊆ ys) : ProperIds env w xs := fun x hx y hy => h x (hs hx) y (hs hy)

theorem holds0 : Holds env library 0 fTags (tagsOf 0) := ⟨by rfl, by rfl, by decide, proper_sub proper_lib (by simp [tagsOf])⟩
theorem holds1 : Holds env library 1 fTags (tagsOf 1) := ⟨by rfl, by rfl, by decide, proper_sub proper_lib (by simp [tagsOf])⟩

theorem tagged0 : Tagged env library 0 fTags fArts [2, 3] artsOf where
  holds := holds0
  rel := by
    intro x hx
    simp only [List.mem_cons, List.not_mem_nil, or_false] at hx
    exact taggable_lib (.inl rfl) (by tauto)
  back := by
    intro x hx
    simp only [List.mem_cons, List.not_mem_nil, or_false] at hx
    rcases hx with rfl | rfl
    · exact ⟨by rfl, by decide, by decide⟩
    · exact ⟨by rfl, by decide, by decide⟩

theorem fresh0 : Fresh env library 0 fTags fArts artsOf 4 := ⟨taggable_lib (.inl rfl) (by tauto), by rfl, by decide⟩

theorem listed3 : Listed env library 3 fTags fArts [0, 1] tagsOf where
  objs := by rfl
  once := by decide
  rel := by
    intro y hy
    simp only [List.mem_cons, List.not_mem_nil, or_false] at hy
    exact taggable_lib hy (by tauto)
  back := by
    intro y hy
    simp only [List.mem_cons, List.not_mem_nil, or_false] at hy
    rcases hy with rfl | rfl
    · exact ⟨holds0, by decide⟩
    · exact ⟨holds1, by decide⟩

theorem listed2 : Listed env library 2 fTags fArts [0] tagsOf where
  objs := by rfl
  once := by decide
  rel := fun y hy => taggable_lib (.inl (by simpa using hy)) (by tauto)
  back := by
    intro y hy
    rw [List.mem_singleton] at hy
    subst hy
    exact ⟨holds0, by decide⟩

theorem welcome2 : Welcome env library 2 fTags fArts tagsOf 1 := ⟨taggable_lib (.inr rfl) (by tauto), by rfl, by rfl, by decide⟩

/-- `article0.tags = [tag4, tag3]`: tag 2 loses the article, tag 3 keeps it (now last), tag 4 gets it. -/
theorem retag0 : Retagged env library ((FOp.set "tags" (.list [.obj 4, .obj 3])).run env 0 library).2 0 fTags fArts artsOf [2, 3] [4, 3] [4, 3] :=
  assign_keyed_effect relations plainPrimary (by decide) tagged0 (by decide) (by decide)
    (by
      intro z hz
      simp only [List.mem_cons, List.not_mem_nil, or_false] at hz
      rcases hz with rfl | rfl
      · exact .inr fresh0
      · exact .inl (by simp))
    (completes_eq (by decide +kernel))
example : ((FOp.set "tags" (.list [.obj 4, .obj 3])).run env 0 library).2.attr 0 "tag_ids" = .list [.str "t4", .str "t3"] := retag0.ids
example : ((FOp.set "tags" (.list [.obj 4, .obj 3])).run env 0 library).2.attr 2 "arts" = .list [] := retag0.others 2 (by simp)
example : ((FOp.set "tags" (.list [.obj 4, .obj 3])).run env 0 library).2.attr 3 "arts" = .list [.obj 1, .obj 0] := retag0.others 3 (by simp)
example : Tagged env ((FOp.set "tags" (.list [.obj 4, .obj 3])).run env 0 library).2 0 fTags fArts [4, 3] (after 0 [2, 3] [4, 3] artsOf) :=
  retagged_tagged relations plainPrimary retag0 tagged0 (by decide) (proper_sub proper_lib (by simp))
    (by
      intro z hz
      simp only [List.mem_cons, List.not_mem_nil, or_false] at hz
      rcases hz with rfl | rfl
      · exact .inr ⟨fresh0, by decide⟩
      · exact .inl (by simp)) (by simp) (by simp)

example := keyed_clear_effect relations plainPrimary (by decide) tagged0
example := keyed_pop_effect relations plainPrimary (p := none) (k := 1) (x := 3) (by decide) tagged0 ⟨by decide, by decide⟩ rfl
example := keyed_delete_effect relations plainPrimary (p := 0) (k := 0) (x := 2) (by decide) tagged0 ⟨by decide, by decide⟩ rfl
example : Retagged env library ((FOp.lst "tags" (.insert 1 (.obj 4))).run env 0 library).2 0 fTags fArts artsOf [] [4] [2, 4, 3] :=
  keyed_insert_effect relations plainPrimary (p := 1) (k := 1) (by decide) tagged0 (.inl (by decide)) fresh0 (completes_eq (by decide +kernel))
example : Retagged env library ((FOp.lst "tags" (.extend (.seq [.obj 4]))).run env 0 library).2 0 fTags fArts artsOf [] [4] [2, 3, 4] :=
  keyed_extend_effect relations plainPrimary (zs := [4]) (.inl rfl) (by decide) tagged0 (by decide) (by simpa using fresh0) (completes_eq (by decide +kernel))
/-- `del article0.tags[0:2]` through the general theorem -/
example := keyed_removal_effect relations plainPrimary (op := .delSlice ⟨some 0, some 2, none⟩) (zs := []) (D := [2, 3]) (by decide) tagged0 (log := [.will, .del (.obj 2), .del (.obj 3)]) (by rfl) rfl (by simp) (by decide) (by decide)

/-- `tag2.arts = [article1, article0]`: article 1 gets the tag and its id, article 0 keeps it (now last). -/
theorem relist2 : Relisted env library ((FOp.set "arts" (.list [.obj 1, .obj 0])).run env 2 library).2 2 fTags fArts tagsOf [0] [1, 0] [1, 0] :=
  assign_unkeyed_effect relations plainPrimary (by decide) listed2 (by decide) (by decide)
    (by
      intro z hz
      simp only [List.mem_cons, List.not_mem_nil, or_false] at hz
      rcases hz with rfl | rfl
      · exact .inr welcome2
      · exact .inl (by simp))
    (completes_eq (by decide +kernel))
example : ((FOp.set "arts" (.list [.obj 1, .obj 0])).run env 2 library).2.attr 1 "tag_ids" = .list [.str "t3", .str "t2"] := (relist2.others 1 (by simp)).2
example : ((FOp.set "arts" (.list [.obj 1, .obj 0])).run env 2 library).2.attr 0 "tag_ids" = .list [.str "t3", .str "t2"] := (relist2.others 0 (by simp)).2

example := unkeyed_clear_effect relations plainPrimary (by decide) listed3
example := unkeyed_pop_effect relations plainPrimary (p := none) (k := 1) (y := 1) (by decide) listed3 ⟨by decide, by decide⟩ rfl
example := unkeyed_delete_effect relations plainPrimary (p := 0) (k := 0) (y := 0) (by decide) listed3 ⟨by decide, by decide⟩ rfl
example : Relisted env library ((FOp.lst "arts" (.insert 0 (.obj 1))).run env 2 library).2 2 fTags fArts tagsOf [] [1] [1, 0] :=
  unkeyed_insert_effect relations plainPrimary (p := 0) (k := 0) (by decide) listed2 (.inl (by decide)) welcome2 (completes_eq (by decide +kernel))
example : Relisted env library ((FOp.lst "arts" (.iadd (.seq [.obj 1]))).run env 2 library).2 2 fTags fArts tagsOf [] [1] [0, 1] :=
  unkeyed_extend_effect relations plainPrimary (zs := [1]) (.inr rfl) (by decide) listed2 (by decide) (by simpa using welcome2) (completes_eq (by decide +kernel))
example : Relisted env library ((FOp.lst "arts" (.setIdx 0 (.obj 1))).run env 2 library).2 2 fTags fArts tagsOf [0] [1] [1] :=
  unkeyed_replace_effect relations plainPrimary (p := 0) (k := 0) (by decide) listed2 ⟨by decide, by decide⟩ rfl welcome2 (completes_eq (by decide +kernel))
example := unkeyed_removal_effect relations plainPrimary (op := .delSlice ⟨some 0, some 2, none⟩) (zs := []) (D := [0, 1]) (by decide) listed3 (log := [.will, .del (.obj 0), .del (.obj 1)]) (by rfl) rfl (by simp) (by decide) (by simp)
example : Relisted env library ((FOp.lst "arts" (.setSlice ⟨some 0, some 1, none⟩ (.seq [.obj 1]))).run env 2 library).2 2 fTags fArts tagsOf [0] [1] [1] :=
  unkeyed_method_effect relations plainPrimary (by decide) listed2 (es := [(0, 1)]) (log := [.will, .del (.obj 0), .add 0 (.obj 1)]) (by rfl) rfl (by simp) (by decide) (by decide) (by decide) (by decide)
    (by simpa using welcome2) (completes_eq (by decide +kernel))

end JC.TrackDemo
