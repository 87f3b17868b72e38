import Verif.Props.LocalKey
import Verif.Props.OwnedDict

/-
C67: changing a relation reaches only the objects connected with it, and of those only
relation fields, reference ids and bookkeeping.
-/
namespace JC
variable {env : Env}

/-! ### Specification -/

/-- A set of objects that no two-way relation leaves: what a member refers to is a member,
and has the opposite field. -/
def Group (env : Env) (w : World) (S : Nat → Prop) : Prop :=
  ∀ a g og, S a → HasField env w a g → Paired env g og → ∀ b ∈ refsOf g (w.attr a g.name), S b ∧ HasField env w b og

/-- Everything but the table of known objects (`_graph`) is as before. -/
def Untouched (o o' : Obj) : Prop := o' = { o with graph := o'.graph }

/-- Class, newness, deletion, operator and picks are as before. -/
def StatusKept (o o' : Obj) : Prop :=
  o'.cls = o.cls ∧ o'.isNew = o.isNew ∧ o'.isDeleted = o.isDeleted ∧ o'.operator = o.operator ∧ o'.picks = o.picks ∧
    o'.linkKeys = o.linkKeys ∧ o'.unlinkKeys = o.unlinkKeys

/-- The field is listed among the modified fields or not, and its recorded previous value is,
as before. -/
def SameMarks (o o' : Obj) (n : String) : Prop :=
  (n ∈ o'.modFields ↔ n ∈ o.modFields) ∧ dictGet o'.prev n = dictGet o.prev n

/-- `n` is a relation field or the reference id of a relation field of the object. -/
def RelatesAt (env : Env) (w : World) (a : Nat) (n : String) : Prop :=
  ∃ f ∈ (w.cdef env a).fields, (f.name = n ∧ f.isRef = true) ∨ (f.refName = n ∧ f.store = .localKey)

/-- The objects the operation stores in the field `g`. -/
def FOp.Stores (g : Field) : FOp → Nat → Prop
  | .set _ v, b => b ∈ refsOf g v
  | .lst _ op, b => .obj b ∈ op.newItems
  | .dct _ _, _ => False

/-- arguments of list operations are plain collections -/
def FOp.IsPlain : FOp → Prop
  | .lst _ op => op.Plain
  | _ => True

/-- The operation is on a member, and the objects it stores in a two-way relation are
members having the opposite field. -/
def FOp.Within (env : Env) (w : World) (S : Nat → Prop) (i : Nat) (op : FOp) : Prop :=
  S i ∧ op.IsPlain ∧ ∀ g og, (w.cdef env i).field? op.name = some g → Paired env g og →
    ∀ b, op.Stores g b → S b ∧ HasField env w b og

/-- A history of such operations, each of which may raise. -/
def LocalHistory (env : Env) (S : Nat → Prop) : List (Nat × FOp) → World → World → Prop
  | [], w, w' => w' = w
  | (i, op) :: ops, w, w' => op.Within env w S i ∧ LocalHistory env S ops (op.run env i w).2 w'

/-! ### The invariant -/

variable {κ : Nat → String} {S : Nat → Prop} {P : Nat → String → Prop} {w0 : World}

/-- the objects in `v` are members that suit the relation field `g` -/
def TyS (env : Env) (κ : Nat → String) (S : Nat → Prop) (g : Field) (v : Val) : Prop :=
  ∀ og, Paired env g og → ∀ b ∈ refsOf g v, S b ∧ HasK env κ b og

/-- a relation field or a reference id of an object of class `κ a` -/
def RelK (env : Env) (κ : Nat → String) (a : Nat) (n : String) : Prop :=
  ∃ f ∈ (env.cls (κ a)).fields, (f.name = n ∧ f.isRef = true) ∨ (f.refName = n ∧ f.store = .localKey)

structure LocInv (env : Env) (κ : Nat → String) (S : Nat → Prop) (P : Nat → String → Prop) (w0 w : World) : Prop where
  out : ∀ b, ¬ S b → Untouched (w0.heap b) (w.heap b)
  kept : ∀ b, StatusKept (w0.heap b) (w.heap b)
  cls : ∀ b, (w.heap b).cls = κ b
  plain : ∀ b n, ¬ P b n → w.attr b n = w0.attr b n
  marks : ∀ b n, ¬ P b n → SameMarks (w0.heap b) (w.heap b) n
  flag : ∀ b, (w0.heap b).isModified = true → (w.heap b).isModified = true
  typ : ∀ a g, S a → HasK env κ a g → TyS env κ S g (w.attr a g.name)

/-- the change keeps class, values and status, and the marks but those of `Q` -/
def Soft (Q : String → Prop) (o o' : Obj) : Prop :=
  o'.attrs = o.attrs ∧ StatusKept o o' ∧ (∀ n, ¬ Q n → SameMarks o o' n) ∧ (o.isModified = true → o'.isModified = true)

theorem SameMarks.refl (o : Obj) (n : String) : SameMarks o o n := ⟨.rfl, rfl⟩

theorem SameMarks.trans {a b c : Obj} {n : String} (h : SameMarks a b n) (h' : SameMarks b c n) : SameMarks a c n :=
  ⟨h'.1.trans h.1, h'.2.trans h.2⟩

theorem setAdd_other {n m : String} (h : n ≠ m) (xs : List String) : n ∈ setAdd m xs ↔ n ∈ xs := by
  unfold setAdd
  split
  · exact .rfl
  · simp [h]

theorem dictGet_other {n m : String} (h : n ≠ m) (d : List (String × Val)) (v : Val) : dictGet (d ++ [(m, v)]) n = dictGet d n := by
  rw [dictGet_append]
  cases dictGet d n <;> simp [dictGet, Ne.symm h]

theorem StatusKept.trans {a b c : Obj} (h : StatusKept a b) (h' : StatusKept b c) : StatusKept a c := by
  obtain ⟨h1, h2, h3, h4, h5, h6, h7⟩ := h
  obtain ⟨k1, k2, k3, k4, k5, k6, k7⟩ := h'
  exact ⟨k1.trans h1, k2.trans h2, k3.trans h3, k4.trans h4, k5.trans h5, k6.trans h6, k7.trans h7⟩

theorem StatusKept.refl (a : Obj) : StatusKept a a := ⟨rfl, rfl, rfl, rfl, rfl, rfl, rfl⟩

theorem Untouched.refl (a : Obj) : Untouched a a := rfl

theorem Untouched.trans {a b c : Obj} (h : Untouched a b) (h' : Untouched b c) : Untouched a c := by
  unfold Untouched at *
  rw [h', h]

theorem LocInv.soft {w w' : World} (h : LocInv env κ S P w0 w) (hs : ∀ j, Soft (P j) (w.heap j) (w'.heap j))
    (ho : ∀ j, ¬ S j → Untouched (w.heap j) (w'.heap j)) : LocInv env κ S P w0 w' := by
  have ha : ∀ j n, w'.attr j n = w.attr j n := fun j n => by unfold World.attr; rw [(hs j).1]
  refine ⟨fun b hb => (h.out b hb).trans (ho b hb), fun b => (h.kept b).trans (hs b).2.1,
    fun b => (hs b).2.1.1.trans (h.cls b), fun b n hn => (ha b n).trans (h.plain b n hn),
    fun b n hn => (h.marks b n hn).trans ((hs b).2.2.1 n hn), fun b hb => (hs b).2.2.2 (h.flag b hb), fun a g hSa hg => ?_⟩
  rw [ha]; exact h.typ a g hSa hg

theorem loc_upd {i : Nat} {g : Obj → Obj} (hi : S i) (h : ∀ o, Soft (P i) o (g o)) : Kp' (LocInv env κ S P w0) (updObj i g) := by
  refine fun w hw => ⟨hw.soft (fun j => ?_) (fun j hj => ?_), fun _ _ => trivial⟩
  · simp only [updObj, Py.modify, World.upd]
    by_cases hj : j = i
    · subst hj; simp only [if_true]; exact h _
    · simp only [hj, if_false]; exact ⟨rfl, .refl _, fun _ _ => .refl _ _, id⟩
  · have hji : j ≠ i := fun hc => hj (hc ▸ hi)
    simp only [updObj, Py.modify, World.upd, hji, if_false]; exact .refl _

theorem soft_refl {Q : String → Prop} (o : Obj) : Soft Q o o := ⟨rfl, .refl _, fun _ _ => .refl _ _, id⟩

/-- marking a field -/
theorem soft_mark {Q : String → Prop} {m : String} (hm : Q m) (o : Obj) :
    Soft Q o { o with isModified := true, modFields := setAdd m o.modFields } :=
  ⟨rfl, ⟨rfl, rfl, rfl, rfl, rfl, rfl, rfl⟩, fun n hn => ⟨setAdd_other (fun hc : n = m => hn (hc ▸ hm)) _, rfl⟩, fun _ => rfl⟩

theorem loc_markModified {i : Nat} (hi : S i) {n : String} (hP : P i n) : Kp' (LocInv env κ S P w0) (markModified i n) :=
  loc_upd hi (fun o => by split; exacts [soft_refl _, soft_mark hP o])
theorem loc_markLocalKey {i : Nat} (hi : S i) {f : Field} (hP : P i f.name) : Kp' (LocInv env κ S P w0) (markLocalKey i f) :=
  loc_upd hi (fun o => by split; exacts [soft_mark hP o, soft_refl _])
theorem loc_addUnlinked {i : Nat} (hi : S i) (n : String) (v : Val) : Kp' (LocInv env κ S P w0) (addUnlinked i n v) :=
  loc_upd hi (fun o => soft_refl o)
theorem loc_delUnlinked {i : Nat} (hi : S i) (n : String) (v : Val) : Kp' (LocInv env κ S P w0) (delUnlinked i n v) :=
  loc_upd hi (fun o => soft_refl o)
theorem loc_track {i : Nat} (hi : S i) {f : Field} (hP : P i f.name) : Kp' (LocInv env κ S P w0) (track env i f) := by
  intro w
  refine loc_upd hi (g := fun o => if o.isNew then o else
    { o with
      isModified := true
      modFields := setAdd f.name o.modFields
      prev := if recordsPrev (w.cdef env i) f && (dictGet o.prev f.name).isNone
        then o.prev ++ [(f.name, o.attrs f.name)] else o.prev }) (fun o => ?_) w
  split
  · exact soft_refl _
  · refine ⟨rfl, ⟨rfl, rfl, rfl, rfl, rfl, rfl, rfl⟩, fun n hn => ?_, fun _ => rfl⟩
    have hne : n ≠ f.name := fun hc => hn (hc ▸ hP)
    refine ⟨setAdd_other hne _, ?_⟩
    show dictGet (if _ then _ else _) n = _
    split
    · exact dictGet_other hne _ _
    · rfl
theorem loc_willChange {i : Nat} (hi : S i) (b : Bool) {n : String} (hP : P i n) :
    Kp' (LocInv env κ S P w0) (willChange env b i n) := by
  intro w hw
  simp only [willChange]
  cases (w.cdef env i).field? n with
  | none => cases b <;> exact ⟨hw, fun _ _ => trivial⟩
  | some f =>
    simp only []
    split
    · exact loc_upd hi (g := fun o => { o with prev := o.prev ++ [(n, o.attrs n)] })
        (fun o => ⟨rfl, ⟨rfl, rfl, rfl, rfl, rfl, rfl, rfl⟩, fun m hm => ⟨.rfl, dictGet_other (fun hc => hm (hc ▸ hP)) _ _⟩, id⟩) w hw
    · exact ⟨hw, fun _ _ => trivial⟩

theorem linkGraph_untouched (i j : Nat) (w : World) (k : Nat) : Untouched (w.heap k) ((linkGraph env i j w).2.heap k) := by
  obtain ⟨h1, -, -⟩ := putSelf_heap (env := env) i w
  unfold linkGraph mergeGraphs
  rw [← h1]
  generalize putSelf env i w = w₁
  split
  · exact .refl _
  · cases mergeLoop env w₁ ((w₁.graphs (w₁.heap j).graph).map Prod.snd) (w₁.graphs (w₁.heap i).graph) with
    | error e => exact .refl _
    | ok g =>
      simp only []
      split <;> exact .refl _

theorem loc_linkGraph (i j : Nat) : Kp' (LocInv env κ S P w0) (linkGraph env i j) := by
  refine fun w hw => ⟨hw.soft (fun k => ?_) (fun k _ => linkGraph_untouched i j w k), fun _ _ => trivial⟩
  have := linkGraph_untouched (env := env) i j w k
  unfold Untouched at this
  rw [this]
  exact soft_refl _

theorem loc_raw {i : Nat} {n : String} {v : Val} (hi : S i) (hP : P i n)
    (ht : ∀ g, HasK env κ i g → g.name = n → TyS env κ S g v) : Kp' (LocInv env κ S P w0) (rawSet i n v) := by
  refine fun w h => ⟨⟨fun b hb => ?_, fun b => ?_, fun b => ?_, fun b m hm => ?_, fun b m hm => (h.marks b m hm).trans ?_,
    fun b hb => ?_, fun a g hSa hg => ?_⟩, fun _ _ => trivial⟩
  · have hji : b ≠ i := fun hc => hb (hc ▸ hi)
    have := h.out b hb
    simpa only [rawSet, updObj, Py.modify, World.upd, hji, if_false] using this
  · refine (h.kept b).trans ?_
    simp only [rawSet, updObj, Py.modify, World.upd]
    by_cases hj : b = i
    · subst hj; simp only [if_true]; exact .refl _
    · simp only [hj, if_false]; exact .refl _
  · rw [← h.cls b]
    simp only [rawSet, updObj, Py.modify, World.upd]
    by_cases hj : b = i
    · subst hj; simp only [if_true]
    · simp only [hj, if_false]
  · rw [attr_raw, if_neg (fun hc : b = i ∧ m = n => hm (by rw [hc.1, hc.2]; exact hP))]; exact h.plain b m hm
  · simp only [rawSet, updObj, Py.modify, World.upd]
    by_cases hj : b = i
    · subst hj; simp only [if_true]; exact .refl _ _
    · simp only [hj, if_false]; exact .refl _ _
  · have := h.flag b hb
    simp only [rawSet, updObj, Py.modify, World.upd]
    by_cases hj : b = i
    · subst hj; simpa only [if_true] using this
    · simpa only [hj, if_false] using this
  · rw [attr_raw]
    by_cases hc : a = i ∧ g.name = n
    · obtain ⟨rfl, hn⟩ := hc
      rw [if_pos ⟨rfl, hn⟩]; exact ht g hg hn
    · rw [if_neg hc]; exact h.typ a g hSa hg

theorem LocInv.cdef {w : World} (h : LocInv env κ S P w0 w) (i : Nat) : w.cdef env i = env.cls (κ i) := by
  unfold World.cdef; rw [h.cls i]

theorem tyS_none (g : Field) : TyS env κ S g .none := fun _ _ b hb => by rw [refsOf_none] at hb; cases hb

theorem tyS_nil (g : Field) : TyS env κ S g (.list []) := fun _ _ b hb => by
  have := (mem_refsOf_list hb).2; cases this

theorem TyS.sub {g : Field} {xs ys : List Val} (h : TyS env κ S g (.list xs)) (hs : ∀ b, .obj b ∈ ys → .obj b ∈ xs) :
    TyS env κ S g (.list ys) := fun og hp b hb => by
  obtain ⟨hl, hb⟩ := mem_refsOf_list hb
  exact h og hp b (refsOf_list_mem hl (hs b hb))

theorem relK_name {i : Nat} {f : Field} (hf : HasK env κ i f) (hr : f.isRef = true) : RelK env κ i f.name :=
  ⟨f, hf.mem, .inl ⟨rfl, hr⟩⟩

theorem relK_key {i : Nat} {f : Field} (hf : HasK env κ i f) (hs : f.store = .localKey) : RelK env κ i f.refName :=
  ⟨f, hf.mem, .inr ⟨rfl, hs⟩⟩

/-! ### Unlinking -/

def UCmd.OkS (env : Env) (κ : Nat → String) (S : Nat → Prop) (P : Nat → String → Prop) : UCmd → Prop
  | .unlink i f v => S i ∧ HasK env κ i f ∧ f.isRef = true ∧ TyS env κ S f v
  | .del i path v => S i ∧ P i path ∧ ∀ g, HasK env κ i g → g.name = path → TyS env κ S g (.list [v])

theorem loc_listRemoveAttr {run : UCmd → Py World Unit}
    (hrun : ∀ c, c.OkS env κ S P → Kp' (LocInv env κ S P w0) (run c)) {i : Nat} {n : String} {v : Val} (hi : S i) (hP : P i n)
    (ht : ∀ g, HasK env κ i g → g.name = n → TyS env κ S g (.list [v])) :
    Kp' (LocInv env κ S P w0) (listRemoveAttr env run i n v) := by
  unfold listRemoveAttr
  refine Kp.get.bind (fun w hI => ?_)
  cases ha : w.attr i n with
  | list xs =>
    simp only []
    refine (loc_willChange hi _ hP).bind' (fun _ => ?_)
    cases hr : listRemove v xs with
    | none => exact Kp.raise _
    | some ys =>
      refine (loc_raw hi hP (fun g hg hn => ?_)).bind' (fun _ => hrun (.del _ _ _) ⟨hi, hP, ht⟩)
      have := hI.typ i g hi hg
      rw [hn, ha] at this
      exact this.sub (fun b hb => listRemove_sub hr _ hb)
  | _ => exact Kp.raise _

theorem loc_unlinkOther (R : Relations env) (hP : ∀ b n, S b → RelK env κ b n → P b n) {run : UCmd → Py World Unit}
    (hrun : ∀ c, c.OkS env κ S P → Kp' (LocInv env κ S P w0) (run c)) {i : Nat} {f of : Field} (hSi : S i) (hf : HasK env κ i f)
    (hp : Paired env f of) {item : Val} (hi : ∀ j, item = .obj j → S j ∧ HasK env κ j of) :
    Kp' (LocInv env κ S P w0) (unlinkOther env run i of item) := by
  have hpo := (R.opp f of hp).1
  unfold unlinkOther
  cases item with
  | obj j =>
    obtain ⟨hSj, hj⟩ := hi j rfl
    have hPj := hP j _ hSj (relK_name hj hpo.2.1)
    refine Kp.get.bind (fun w hI => ?_)
    cases hof : of.ftype with
    | inst =>
      simp only []
      split
      · refine (loc_raw hSj hPj (fun g _ _ => tyS_none g)).bind' (fun _ => Kp.bind' ?_ (fun _ => loc_addUnlinked hSj _ _))
        unfold unlinkKey
        split
        · rename_i hs
          exact (loc_raw hSj (hP j _ hSj (relK_key hj hs)) (fun g _ _ => tyS_none g)).bind'
            (fun _ => loc_upd hSj (fun o => ⟨rfl, ⟨rfl, rfl, rfl, rfl, rfl, rfl, rfl⟩,
              fun n hn => ⟨setAdd_other (fun hc : n = of.name => hn (hc ▸ hPj)) _, rfl⟩, id⟩))
        · exact Kp.pure' ()
      · exact Kp.pure' ()
    | list =>
      simp only []
      cases w.attr j of.name with
      | list xs =>
        simp only []
        split
        · refine (loc_listRemoveAttr hrun hSj hPj (fun g hg hn => ?_)).bind' (fun _ => loc_addUnlinked hSj _ _)
          cases hg.eq hj hn
          intro og hpg b hb
          cases hpo.opp_eq hpg
          obtain ⟨-, hb⟩ := mem_refsOf_list hb
          cases List.mem_singleton.1 hb
          exact ⟨hSi, hf⟩
        · exact Kp.pure' ()
      | _ => exact Kp.pure' ()
    | _ => exact Kp.pure' ()
  | _ => exact Kp.raise _

theorem loc_unlinkBody (R : Relations env) (hP : ∀ b n, S b → RelK env κ b n → P b n) {run : UCmd → Py World Unit}
    (hrun : ∀ c, c.OkS env κ S P → Kp' (LocInv env κ S P w0) (run c)) {i : Nat} {f : Field} {v : Val}
    (hc : (UCmd.unlink i f v).OkS env κ S P) : Kp' (LocInv env κ S P w0) (unlinkBody env run i f v) := by
  obtain ⟨hi, hf, hr, ht⟩ := hc
  unfold unlinkBody
  cases ho : env.foreignField f with
  | none =>
    simp only []
    cases linkItems f v with
    | nil => exact Kp.pure' ()
    | cons x xs => exact loc_addUnlinked hi _ _
  | some of =>
    have hp := hf.paired hr ho
    refine kp_forItems_mem _ (fun x hx => (loc_addUnlinked hi _ _).bind' (fun _ => ?_))
    refine loc_unlinkOther R hP hrun hi hf hp (fun j hj => ?_)
    subst hj
    exact ht of hp j (refsOf_linkItems hx)

theorem loc_delBody (R : Relations env) (hP : ∀ b n, S b → RelK env κ b n → P b n) {run : UCmd → Py World Unit}
    (hrun : ∀ c, c.OkS env κ S P → Kp' (LocInv env κ S P w0) (run c)) {i : Nat} {path : String} {v : Val}
    (hc : (UCmd.del i path v).OkS env κ S P) : Kp' (LocInv env κ S P w0) (delBody env run i path v) := by
  obtain ⟨hi, hPp, ht⟩ := hc
  unfold delBody
  refine Kp.get.bind (fun w hI => ?_)
  rw [hI.cdef i]
  cases hl : (env.cls (κ i)).localKey? path with
  | some f =>
    have hm : f ∈ (env.cls (κ i)).fields := List.mem_of_find?_eq_some hl
    have hs : f.store = .localKey := by have := List.find?_some hl; simp at this; exact this.1
    have hf : HasK env κ i f := R.uniq _ f hm
    simp only []
    unfold delLocal
    refine (loc_markLocalKey hi (hP i _ hi (relK_name hf (isRef_localKey hs)))).bind' (fun _ => Kp.get.bind (fun w' hI' => ?_))
    cases ha : w'.attr i f.name with
    | list xs =>
      simp only []
      refine Kp.read'.bind' (fun n => ?_)
      split
      · refine Kp.read.bind (fun m hm' => ?_)
        obtain ⟨w'', -, hm'⟩ := hm'
        cases m with
        | some x =>
          refine loc_listRemoveAttr hrun hi (hP i _ hi (relK_name hf (isRef_localKey hs))) (fun g hg hn => ?_)
          cases hg.eq hf hn
          have := hI'.typ i f hi hf
          rw [ha] at this
          refine this.sub (fun b hb => ?_)
          rw [List.mem_singleton.1 hb]
          exact findById_mem hm'
        | none => exact Kp.pure' ()
      · exact Kp.pure' ()
    | _ => exact Kp.pure' ()
  | none =>
    simp only []
    refine Kp.bind' ?_ (fun _ => loc_markModified hi hPp)
    unfold delRef
    cases hf : (env.cls (κ i)).field? path with
    | none => exact Kp.pure' ()
    | some f =>
      obtain ⟨hfk, hn⟩ := hasK_of_field hf
      simp only []
      split
      · rename_i hr
        refine (hrun (.unlink _ _ _) ⟨hi, hfk, hr, ht f hfk hn⟩).bind' (fun _ => ?_)
        unfold delKey
        split
        · rename_i hs
          refine Kp.get.bind (fun w' _ => ?_)
          cases w'.attr i f.refName with
          | list ks =>
            refine Kp.read'.bind' (fun n => ?_)
            split
            · refine Kp.read'.bind' (fun k => ?_)
              split
              · exact loc_listRemoveAttr hrun hi (hP i _ hi (relK_key hfk hs))
                  (fun g hg hn => (key_no_field R hfk.mem hs hg hn).elim)
              · exact Kp.pure' ()
            · exact Kp.pure' ()
          | _ => exact Kp.raise _
        · exact Kp.pure' ()
      · exact Kp.pure' ()

theorem loc_runU (R : Relations env) (hP : ∀ b n, S b → RelK env κ b n → P b n) : ∀ (n : Nat) (c : UCmd), c.OkS env κ S P →
    Kp' (LocInv env κ S P w0) (runU env n c) := by
  intro n
  induction n with
  | zero => intro c _; cases c <;> exact Kp.raise _
  | succ n ih =>
    intro c hc
    cases c with
    | unlink i f v => exact loc_unlinkBody R hP ih hc
    | del i p v => exact loc_delBody R hP ih hc

/-! ### Linking -/

def LCmd.OkS (env : Env) (κ : Nat → String) (S : Nat → Prop) (P : Nat → String → Prop) : LCmd → Prop
  | .link i f v => S i ∧ HasK env κ i f ∧ f.isRef = true ∧ TyS env κ S f v
  | .add i path _ v => S i ∧ P i path ∧ ∀ g, HasK env κ i g → g.name = path → TyS env κ S g (.list [v])
  | .set i n v => S i ∧ P i n ∧ ∀ g, HasK env κ i g → g.name = n → TyS env κ S g v

theorem loc_listAppendAttr {run : LCmd → Py World Unit}
    (hrun : ∀ c, c.OkS env κ S P → Kp' (LocInv env κ S P w0) (run c)) {i : Nat} {n : String} {v : Val} (hi : S i) (hP : P i n)
    (ht : ∀ g, HasK env κ i g → g.name = n → TyS env κ S g (.list [v])) :
    Kp' (LocInv env κ S P w0) (listAppendAttr env run i n v) := by
  unfold listAppendAttr
  refine Kp.get.bind (fun w hI => ?_)
  cases ha : w.attr i n with
  | list xs =>
    simp only []
    refine (loc_willChange hi _ hP).bind' (fun _ => ?_)
    refine (loc_raw hi hP (fun g hg hn => ?_)).bind' (fun _ => hrun (.add _ _ _ _) ⟨hi, hP, ht⟩)
    have h1 := hI.typ i g hi hg
    rw [hn, ha] at h1
    intro og hp b hb
    obtain ⟨hl, hb⟩ := mem_refsOf_list hb
    rcases List.mem_append.1 hb with hb | hb
    · exact h1 og hp b (refsOf_list_mem hl hb)
    · exact ht g hg hn og hp b (refsOf_list_mem hl hb)
  | _ => exact Kp.raise _

theorem loc_linkSide (R : Relations env) (hP : ∀ b n, S b → RelK env κ b n → P b n) {run : LCmd → Py World Unit}
    (hrun : ∀ c, c.OkS env κ S P → Kp' (LocInv env κ S P w0) (run c)) {i j : Nat} {f of : Field} (hSi : S i) (hf : HasK env κ i f)
    (hp : Paired env f of) (hSj : S j) (hj : HasK env κ j of) : Kp' (LocInv env κ S P w0) (linkSide env run i of j) := by
  have hpo := (R.opp f of hp).1
  have hPj := hP j _ hSj (relK_name hj hpo.2.1)
  have hty : ∀ v, (∀ b ∈ refsOf of v, b = i) → ∀ g, HasK env κ j g → g.name = of.name → TyS env κ S g v := by
    intro v hv g hg hn og hpg b hb
    cases hg.eq hj hn
    cases hpo.opp_eq hpg
    rw [hv b hb]; exact ⟨hSi, hf⟩
  unfold linkSide
  refine Kp.get.bind (fun w _ => ?_)
  cases hof : of.ftype with
  | inst =>
    simp only []
    split
    · exact Kp.pure' ()
    · refine (hrun (.set _ _ _) ⟨hSj, hPj, hty _ (fun b hb => ?_)⟩).bind' (fun _ => loc_delUnlinked hSj _ _)
      rw [refsOf_inst hof] at hb
      exact List.mem_singleton.1 hb
  | list =>
    have hl : ∀ b ∈ refsOf of (.list [.obj i]), b = i := fun b hb => by
      have := (mem_refsOf_list hb).2
      cases List.mem_singleton.1 this; rfl
    simp only []
    cases w.attr j of.name with
    | list xs =>
      simp only []
      split
      · exact Kp.pure' ()
      · exact (loc_listAppendAttr hrun hSj hPj (hty _ hl)).bind' (fun _ => loc_delUnlinked hSj _ _)
    | _ =>
      exact (hrun (.set _ _ _) ⟨hSj, hPj, hty _ hl⟩).bind' (fun _ => loc_delUnlinked hSj _ _)
  | _ => exact Kp.pure' ()

theorem loc_linkBody (R : Relations env) (hP : ∀ b n, S b → RelK env κ b n → P b n) {run : LCmd → Py World Unit}
    (hrun : ∀ c, c.OkS env κ S P → Kp' (LocInv env κ S P w0) (run c)) {i : Nat} {f : Field} {v : Val}
    (hc : (LCmd.link i f v).OkS env κ S P) : Kp' (LocInv env κ S P w0) (linkBody env run i f v) := by
  obtain ⟨hi, hf, hr, ht⟩ := hc
  unfold linkBody
  cases ho : env.foreignField f with
  | none =>
    simp only []
    cases linkItems f v with
    | nil => exact Kp.pure' ()
    | cons x xs => exact loc_delUnlinked hi _ _
  | some of =>
    have hp := hf.paired hr ho
    refine kp_forItems_mem _ (fun x hx => (loc_delUnlinked hi _ _).bind' (fun _ => ?_))
    unfold linkOther
    cases x with
    | obj j =>
      obtain ⟨hSj, hj⟩ := ht of hp j (refsOf_linkItems hx)
      exact (loc_linkSide R hP hrun hi hf hp hSj hj).bind' (fun _ => loc_linkGraph i j)
    | _ => exact Kp.raise _

theorem loc_addBody (R : Relations env) (hP : ∀ b n, S b → RelK env κ b n → P b n) {run : LCmd → Py World Unit}
    (hrun : ∀ c, c.OkS env κ S P → Kp' (LocInv env κ S P w0) (run c)) {i : Nat} {path : String} {idx : Int} {v : Val}
    (hc : (LCmd.add i path idx v).OkS env κ S P) : Kp' (LocInv env κ S P w0) (addBody env run i path idx v) := by
  have hi := hc.1
  unfold addBody
  refine Kp.get.bind (fun w hI => ?_)
  rw [hI.cdef i]
  cases hl : (env.cls (κ i)).localKey? path with
  | some f =>
    have hm : f ∈ (env.cls (κ i)).fields := List.mem_of_find?_eq_some hl
    have hs : f.store = .localKey := by have := List.find?_some hl; simp at this; exact this.1
    exact loc_markLocalKey hi (hP i _ hi (relK_name (R.uniq _ f hm) (isRef_localKey hs)))
  | none =>
    simp only []
    refine Kp.bind' ?_ (fun _ => ?_)
    · unfold addRef
      cases hf : (env.cls (κ i)).field? path with
      | none => exact Kp.pure' ()
      | some f =>
        obtain ⟨hfk, hn⟩ := hasK_of_field hf
        simp only []
        split
        · rename_i hr
          refine (hrun (.link _ _ _) ⟨hi, hfk, hr, hc.2.2 f hfk hn⟩).bind' (fun _ => ?_)
          unfold addKey
          split
          · rename_i hs
            refine Kp.get.bind (fun w' _ => ?_)
            cases w'.attr i f.refName with
            | list ks =>
              refine Kp.read'.bind' (fun n => ?_)
              split
              · refine Kp.read'.bind' (fun k => ?_)
                split
                · exact Kp.raise _
                · exact (loc_raw hi (hP i _ hi (relK_key hfk hs))
                    (fun g hg hn => (key_no_field R hfk.mem hs hg hn).elim)).bind'
                    (fun _ => hrun (.add _ _ _ _) ⟨hi, hP i _ hi (relK_key hfk hs), fun g hg hn => (key_no_field R hfk.mem hs hg hn).elim⟩)
              · exact Kp.pure' ()
            | _ => exact Kp.raise _
          · exact Kp.pure' ()
        · exact Kp.pure' ()
    · unfold addTail
      cases v with
      | list xs => exact (loc_runU R hP _ (.del ..) hc).bind' (fun _ => hrun (.add _ _ _ _) hc)
      | dict xs => exact (loc_runU R hP _ (.del ..) hc).bind' (fun _ => hrun (.add _ _ _ _) hc)
      | _ => exact loc_markModified hi hc.2.1

theorem loc_sync (R : Relations env) (hP : ∀ b n, S b → RelK env κ b n → P b n) {i : Nat} {f : Field} (hi : S i)
    (hf : HasK env κ i f) (v : Val) : Kp' (LocInv env κ S P w0) (syncKey env i f v) := by
  unfold syncKey
  split
  · exact Kp.pure' ()
  · rename_i hs
    have hs : f.store = .localKey := by simpa using hs
    have hw : ∀ x, Kp' (LocInv env κ S P w0) (rawSet i f.refName x) := fun x =>
      loc_raw hi (hP i _ hi (relK_key hf hs)) (fun g hg hn => (key_no_field R hf.mem hs hg hn).elim)
    split
    · exact hw _
    · exact Kp.get.bind (fun w _ => hw _)
    · exact hw _
    · exact Kp.read'.bind' (fun ks => hw _)
    · exact Kp.raise _
    · exact Kp.pure' ()

theorem loc_setBody (R : Relations env) (hP : ∀ b n, S b → RelK env κ b n → P b n) {run : LCmd → Py World Unit}
    (hrun : ∀ c, c.OkS env κ S P → Kp' (LocInv env κ S P w0) (run c)) {i : Nat} {n : String} {v : Val}
    (hc : (LCmd.set i n v).OkS env κ S P) : Kp' (LocInv env κ S P w0) (setBody env run i n v) := by
  obtain ⟨hi, hPn, ht⟩ := hc
  unfold setBody
  refine Kp.get.bind (fun w hI => ?_)
  rw [hI.cdef i]
  cases hf : (env.cls (κ i)).field? n with
  | none => exact loc_raw hi hPn ht
  | some f =>
    obtain ⟨hfk, hn⟩ := hasK_of_field hf
    subst hn
    simp only []
    split
    · exact Kp.raise _
    · split
      · exact Kp.pure' ()
      · refine (loc_track hi hPn).bind' (fun _ => ?_)
        split
        · rename_i hr
          refine (loc_runU R hP _ (.unlink _ _ _) ⟨hi, hfk, hr, hI.typ i f hi hfk⟩).bind' (fun _ => ?_)
          exact (loc_raw hi hPn ht).bind' (fun _ => (loc_sync R hP hi hfk v).bind' (fun _ =>
            hrun (.link _ _ _) ⟨hi, hfk, hr, ht f hfk rfl⟩))
        · exact loc_raw hi hPn ht

theorem loc_runL (R : Relations env) (hP : ∀ b n, S b → RelK env κ b n → P b n) : ∀ (n : Nat) (c : LCmd), c.OkS env κ S P →
    Kp' (LocInv env κ S P w0) (runL env n c) := by
  intro n
  induction n with
  | zero => intro c _; cases c <;> exact Kp.raise _
  | succ n ih =>
    intro c hc
    cases c with
    | link i f v => exact loc_linkBody R hP ih hc
    | add i p k v => exact loc_addBody R hP ih hc
    | set i m v => exact loc_setBody R hP ih hc

/-! ### Operations -/

theorem loc_setAttr (R : Relations env) (hP : ∀ b n, S b → RelK env κ b n → P b n) {i : Nat} {n : String} {v : Val} (hi : S i)
    (hPn : P i n) (ht : ∀ g, HasK env κ i g → g.name = n → TyS env κ S g v) : Kp' (LocInv env κ S P w0) (setAttr env i n v) := by
  unfold setAttr
  refine Kp.get.bind (fun w hI => ?_)
  rw [hI.cdef i]
  cases hl : (env.cls (κ i)).localKey? n with
  | none => exact loc_runL R hP _ (.set i n v) ⟨hi, hPn, ht⟩
  | some f =>
    have hm : f ∈ (env.cls (κ i)).fields := List.mem_of_find?_eq_some hl
    have hs : f.store = .localKey := by have := List.find?_some hl; simp at this; exact this.1
    have hf : HasK env κ i f := R.uniq _ f hm
    have hkey : ∀ x, Kp' (LocInv env κ S P w0) (rawSet i f.refName x) := fun x =>
      loc_raw hi (hP i _ hi (relK_key hf hs)) (fun g hg hn => (key_no_field R hf.mem hs hg hn).elim)
    have hset : ∀ x, TyS env κ S f x → Kp' (LocInv env κ S P w0) (setField env i f.name x) := fun x hx =>
      loc_runL R hP env.fuel (.set i f.name x) ⟨hi, hP i _ hi (relK_name hf (isRef_localKey hs)),
        fun g hg hn => by cases hg.eq hf hn; exact hx⟩
    simp only []
    unfold setLocalKey
    refine Kp.get.bind (fun w' hI' => ?_)
    split
    · exact Kp.pure' ()
    · refine Kp.bind' ?_ (fun _ => (loc_markModified hi (hP i _ hi (relK_name hf (isRef_localKey hs)))).bind' (fun _ => hkey v))
      unfold setLocalKeyField
      cases hty : f.ftype with
      | inst => exact (hkey _).bind' (fun _ => hset _ (tyS_none f))
      | list =>
        cases v with
        | none => exact (hkey _).bind' (fun _ => hset _ (tyS_nil f))
        | list ks =>
          refine (hkey _).bind' (fun _ => Kp.read.bind (fun xs hx => hset _ ?_))
          obtain ⟨w1, k1, hx⟩ := hx
          have ht := k1.typ i f hi hf
          intro og hp b hb
          obtain ⟨hl', hb⟩ := mem_refsOf_list hb
          have hb := itemsForKeys_mem hx _ hb
          cases ha : w1.attr i f.name with
          | list ys =>
            rw [ha] at hb ht
            exact ht og hp b (refsOf_list_mem hl' hb)
          | _ => rw [ha] at hb; cases hb
        | _ => exact Kp.raise _
      | _ => exact Kp.pure' ()

theorem loc_listOp (R : Relations env) (hP : ∀ b n, S b → RelK env κ b n → P b n) {i : Nat} {n : String} {op : LOp Val} (hi : S i)
    (hPn : P i n) (hp : op.Plain)
    (ht : ∀ g, HasK env κ i g → g.name = n → ∀ og, Paired env g og → ∀ b, .obj b ∈ op.newItems → S b ∧ HasK env κ b og) :
    Kp' (LocInv env κ S P w0) (listOp env i n op) := by
  unfold listOp
  refine Kp.get.bind (fun w hI => ?_)
  cases ha : w.attr i n with
  | list xs =>
    simp only []
    have hty : ∀ ys : List Val, (∀ b, .obj b ∈ ys → .obj b ∈ xs ∨ .obj b ∈ op.newItems) →
        ∀ g, HasK env κ i g → g.name = n → TyS env κ S g (.list ys) := by
      intro ys hys g hg hn og hpg b hb
      obtain ⟨hl, hb⟩ := mem_refsOf_list hb
      rcases hys b hb with h | h
      · have := hI.typ i g hi hg og hpg b
        rw [hn, ha] at this
        exact this (refsOf_list_mem hl h)
      · exact ht g hg hn og hpg b h
    have hevs : ∀ e ∈ (ownedOp pyEq op xs).log, Kp' (LocInv env κ S P w0) (ownerLEv env i n e) := by
      intro e he
      have hv : ∀ v, e.val? = some v → ∀ g, HasK env κ i g → g.name = n → TyS env κ S g (.list [v]) := by
        intro v hv
        refine hty _ (fun b hb => ?_)
        have hb := List.mem_singleton.1 hb
        subst hb
        exact (op_values hp xs b).2 e he hv
      cases e with
      | will => exact loc_willChange hi _ hPn
      | add k v => exact loc_runL R hP _ (.add i n k v) ⟨hi, hPn, hv v rfl⟩
      | del v => exact loc_runU R hP _ (.del i n v) ⟨hi, hPn, hv v rfl⟩
      | sor => exact loc_markModified hi hPn
    refine (lk_forEvs _ (fun e he => hevs e ((List.mem_filter.1 he).1))).bind' (fun _ => ?_)
    refine Kp.bind' ?_ (fun _ => (lk_forEvs _ (fun e he => hevs e ((List.mem_filter.1 he).1))).bind' (fun _ => lk_raiseOpt _))
    exact loc_raw hi hPn (hty _ (fun b hb => (op_values hp xs b).1 hb))
  | _ => exact Kp.raise _

theorem loc_odictAdd {i : Nat} (hi : S i) {n : String} (hPn : P i n) (m : Nat) (v : Val) : Kp' (LocInv env κ S P w0) (odictAdd i n m v) := by
  induction m with
  | zero => exact Kp.raise _
  | succ m ih =>
    unfold odictAdd
    cases v with
    | list xs => exact (loc_markModified hi hPn).bind' (fun _ => ih)
    | dict xs => exact (loc_markModified hi hPn).bind' (fun _ => ih)
    | _ => exact loc_markModified hi hPn

theorem loc_dictOp {i : Nat} {n : String} {op : DOp Val} (hi : S i) (hPn : P i n) :
    Kp' (LocInv env κ S P w0) (dictOp env i n op) := by
  unfold dictOp
  refine Kp.get.bind (fun w hI => ?_)
  cases ha : w.attr i n with
  | dict kvs =>
    simp only []
    have hevs : ∀ e : DEv Val, Kp' (LocInv env κ S P w0) (ownerDEv env i n e) := by
      intro e
      cases e with
      | will => exact loc_willChange hi _ hPn
      | add k v => exact loc_odictAdd hi hPn _ v
      | del v => exact loc_markModified hi hPn
    refine (lk_forEvs _ (fun e _ => hevs e)).bind' (fun _ => ?_)
    refine Kp.bind' ?_ (fun _ => (lk_forEvs _ (fun e _ => hevs e)).bind' (fun _ => lk_raiseOpt _))
    refine loc_raw hi hPn (fun g _ _ og _ b hb => ?_)
    unfold refsOf at hb
    cases hg : g.ftype <;> rw [hg] at hb <;> cases hb
  | _ => exact Kp.raise _

theorem loc_op (R : Relations env) (hP : ∀ b n, S b → RelK env κ b n → P b n) {i : Nat} {op : FOp} (hi : S i) (hPn : P i op.name)
    (hpl : op.IsPlain) (ht : ∀ g og, (env.cls (κ i)).field? op.name = some g → Paired env g og →
      ∀ b, op.Stores g b → S b ∧ HasK env κ b og) : Kp' (LocInv env κ S P w0) (op.run env i) := by
  cases op with
  | set n v => exact loc_setAttr R hP hi hPn (fun g hg hn og hp b hb => ht g og (by rw [← hg, hn]; rfl) hp b hb)
  | lst n op => exact loc_listOp R hP hi hPn hpl (fun g hg hn og hp b hb => ht g og (by rw [← hg, hn]; rfl) hp b hb)
  | dct n op => exact loc_dictOp hi hPn

/-! ### Theorems -/

theorem locInv_of {w : World} (hg : Group env w S) : LocInv env (fun j => (w.heap j).cls) S P w w :=
  ⟨fun _ _ => .refl _, fun _ => .refl _, fun _ => rfl, fun _ _ _ => rfl, fun _ _ _ => .refl _ _, fun _ => id,
    fun a g ha hh og hp b hb => hg a g og ha hh hp b hb⟩

theorem loc_history (R : Relations env) (hP : ∀ b n, S b → RelK env κ b n → P b n) (ops : List (Nat × FOp)) {w w' : World}
    (hI : LocInv env κ S P w0 w) (hn : ∀ i op, (i, op) ∈ ops → P i op.name) (h : LocalHistory env S ops w w') :
    LocInv env κ S P w0 w' := by
  induction ops generalizing w with
  | nil => cases h; exact hI
  | cons x ops ih =>
    obtain ⟨i, op⟩ := x
    obtain ⟨⟨hi, hpl, ht⟩, h⟩ := h
    refine ih ?_ (fun i op hm => hn i op (by simp [hm])) h
    refine (loc_op R hP hi (hn i op (by simp)) hpl (fun g og hg hp b hb => ?_) w hI).1
    obtain ⟨hSb, hb⟩ := ht g og (by rw [hI.cdef i]; exact hg) hp b hb
    refine ⟨hSb, ?_⟩
    unfold HasField at hb; rw [hI.cdef b] at hb; exact hb

/-- **C67**. Take any set of objects that no two-way relation leaves, and any history of
assignments (of fields, relations and reference ids) and of list and dict operations on its
members that stores only members in two-way relations; every operation may raise midway.
Objects outside the set keep everything they hold and their whole status, except the internal
table of known objects; no object changes its class or becomes new, deleted and so on; and on
members, an attribute that is neither a relation nor a reference id changes, is reported as
modified or has its previous value recorded only if an operation of the history is about it.
The set is still one that no relation leaves. -/
theorem relation_changes_stay_local (R : Relations env) {S : Nat → Prop} (ops : List (Nat × FOp)) {w w' : World}
    (hg : Group env w S) (h : LocalHistory env S ops w w') :
    (∀ b, ¬ S b → Untouched (w.heap b) (w'.heap b)) ∧ (∀ b, StatusKept (w.heap b) (w'.heap b)) ∧
    (∀ b n, ¬ RelatesAt env w b n → (∀ op, (b, op) ∈ ops → op.name ≠ n) →
      w'.attr b n = w.attr b n ∧ SameMarks (w.heap b) (w'.heap b) n) ∧
    Group env w' S := by
  have hI := loc_history (κ := fun j => (w.heap j).cls) (P := fun b n => RelatesAt env w b n ∨ ∃ op, (b, op) ∈ ops ∧ op.name = n) R
    (fun b n _ hr => .inl hr) ops (locInv_of hg) (fun i op hm => .inr ⟨op, hm, rfl⟩) h
  refine ⟨hI.out, hI.kept, fun b n h1 h2 => (fun hc => ⟨hI.plain b n hc, hI.marks b n hc⟩) (fun hc => ?_), fun a g og ha hh hp b hb => ?_⟩
  · rcases hc with hc | ⟨op, hm, he⟩
    · exact h1 hc
    · exact h2 op hm he
  · unfold HasField at hh ⊢
    rw [hI.cdef a] at hh
    rw [hI.cdef b]
    exact hI.typ a g ha hh og hp b hb

/-- `b` is reached from `a` through two-way relations. -/
inductive Connected (env : Env) (w : World) (a : Nat) : Nat → Prop where
  | refl : Connected env w a a
  | step {b c : Nat} {g og : Field} : Connected env w a b → HasField env w b g → Paired env g og →
      c ∈ refsOf g (w.attr b g.name) → Connected env w a c

/-- **C67**. An operation leaves an object alone that is connected neither with the object
operated on nor with an object stored. -/
theorem unconnected_untouched (R : Relations env) {w : World} (hw : WellTyped env w) {i : Nat} {op : FOp} (hpl : op.IsPlain)
    (hty : ∀ g og, (w.cdef env i).field? op.name = some g → Paired env g og → ∀ b, op.Stores g b → HasField env w b og)
    {c : Nat} (hi : ¬ Connected env w i c)
    (ho : ∀ g og, (w.cdef env i).field? op.name = some g → Paired env g og → ∀ b, op.Stores g b → ¬ Connected env w b c) :
    Untouched (w.heap c) ((op.run env i w).2.heap c) := by
  let S : Nat → Prop := fun x => Connected env w i x ∨ ∃ g og b, (w.cdef env i).field? op.name = some g ∧ Paired env g og ∧
    op.Stores g b ∧ Connected env w b x
  have hS : Group env w S := by
    intro a g og ha hg hp b hb
    refine ⟨?_, hw a g og hg hp b hb⟩
    rcases ha with ha | ⟨g', og', b', h1, h2, h3, ha⟩
    · exact .inl (ha.step hg hp hb)
    · exact .inr ⟨g', og', b', h1, h2, h3, ha.step hg hp hb⟩
  refine (relation_changes_stay_local R [(i, op)] hS ⟨⟨.inl .refl, hpl, fun g og hf hp b hb => ⟨?_, hty g og hf hp b hb⟩⟩, rfl⟩).1 c ?_
  · exact .inr ⟨g, og, b, hf, hp, hb, .refl⟩
  · rintro (hc | ⟨g, og, b, h1, h2, h3, hc⟩)
    · exact hi hc
    · exact ho g og h1 h2 b h3 hc

theorem other_upd {b i : Nat} (hb : b ≠ i) {o : Obj} (g : Obj → Obj) : Kp' (fun w => w.heap b = o) (updObj i g) := by
  refine fun w hw => ⟨?_, fun _ _ => trivial⟩
  simp only [updObj, Py.modify, World.upd, hb, if_false]; exact hw

/-- **C67**. Assigning to a field that is no two-way relation and no reference id touches no
other object at all. -/
theorem plain_assignment_alone {w : World} {i : Nat} {n : String} {v : Val}
    (h1 : ∀ g og, (w.cdef env i).field? n = some g → ¬ Paired env g og) (h2 : (w.cdef env i).localKey? n = none) {b : Nat}
    (hb : b ≠ i) : (setAttr env i n v w).2.heap b = w.heap b := by
  have hraw : ∀ m x, Kp' (fun w' => w'.heap b = w.heap b) (rawSet i m x) := fun m x => other_upd hb _
  have hset : ∀ k : Nat, (runL env k (.set i n v) w).2.heap b = w.heap b := by
    intro k
    cases k with
    | zero => rfl
    | succ k =>
      change (setBody env (runL env k) i n v w).2.heap b = w.heap b
      unfold setBody
      change ((match (w.cdef env i).field? n with
        | none => rawSet i n v
        | some f => _ : Py World Unit) w).2.heap b = w.heap b
      cases hf : (w.cdef env i).field? n with
      | none => exact (hraw n v w rfl).1
      | some f =>
        simp only []
        split
        · rfl
        · split
          · rfl
          · refine (Kp.bind' (I := fun w' => w'.heap b = w.heap b) (R := fun _ => True) (m := track env i f) ?_ (fun _ => ?_) w rfl).1
            · intro w'
              exact other_upd hb (fun o => if o.isNew then o else
                { o with
                  isModified := true
                  modFields := setAdd f.name o.modFields
                  prev := if recordsPrev (w'.cdef env i) f && (dictGet o.prev f.name).isNone
                    then o.prev ++ [(f.name, o.attrs f.name)] else o.prev }) w'
            · split
              · rename_i hr
                have hno : env.foreignField f = none := by
                  cases ho : env.foreignField f with
                  | none => rfl
                  | some of => exact absurd ⟨⟨_, List.mem_of_find?_eq_some hf⟩, hr, ho⟩ (h1 f of hf)
                have hu : ∀ x k, Kp' (fun w' => w'.heap b = w.heap b) (runU env k (.unlink i f x)) := by
                  intro x k
                  cases k with
                  | zero => exact Kp.raise _
                  | succ k =>
                    simp only [runU, unlinkBody, hno]
                    cases linkItems f x with
                    | nil => exact Kp.pure' ()
                    | cons y ys => exact other_upd hb _
                have hl : ∀ k, Kp' (fun w' => w'.heap b = w.heap b) (runL env k (.link i f v)) := by
                  intro k
                  cases k with
                  | zero => exact Kp.raise _
                  | succ k =>
                    simp only [runL, linkBody, hno]
                    cases linkItems f v with
                    | nil => exact Kp.pure' ()
                    | cons y ys => exact other_upd hb _
                refine (hu _ _).bind' (fun _ => (hraw _ _).bind' (fun _ => Kp.bind' ?_ (fun _ => hl k)))
                unfold syncKey
                split
                · exact Kp.pure' ()
                · split
                  · exact hraw _ _
                  · exact Kp.get.bind (fun w _ => hraw _ _)
                  · exact hraw _ _
                  · exact Kp.read'.bind' (fun ks => hraw _ _)
                  · exact Kp.raise _
                  · exact Kp.pure' ()
              · exact hraw _ _
  unfold setAttr
  change ((match (w.cdef env i).localKey? n with
    | some f => setLocalKey env i f v
    | none => setField env i n v : Py World Unit) w).2.heap b = w.heap b
  rw [h2]
  exact hset env.fuel

end JC

/-! ### A concrete case -/
namespace JC.SymDemo
open JC
open JC.Demo (user post fId fName fSecret fTmp fFriend fPosts fAuthor attrsOf)

/-- everything but post 3 -/
abbrev most (i : Nat) : Prop := i ≠ 3

theorem most_group : Group Demo.env keyed most := by
  intro a g og ha hg hp b hb
  refine ⟨?_, keyed_linked.typed a g og hg hp b hb⟩
  have hg := (HasField.congr keyed_cls).1 hg
  rcases paired_cases hp with ⟨rfl, rfl⟩ | ⟨rfl, rfl⟩ | ⟨rfl, rfl⟩
  · rw [keyed_attr (by decide)] at hb
    rcases has_user (.inl rfl) hg with rfl | rfl
    · cases List.mem_singleton.1 (show b ∈ [1] from hb); decide
    · cases List.mem_singleton.1 (show b ∈ [0] from hb); decide
  · rw [keyed_attr (by decide)] at hb
    rcases has_user (.inr rfl) hg with rfl | rfl
    · cases List.mem_singleton.1 (show b ∈ [2] from hb); decide
    · cases (show b ∈ [] from hb)
  · rw [keyed_attr (by decide)] at hb
    rcases has_post rfl hg with rfl | rfl | rfl
    · cases List.mem_singleton.1 (show b ∈ [0] from hb); decide
    · exact absurd rfl ha
    · cases (show b ∈ [] from hb)

/-- post 4 goes to user 1, then post 2 too -/
theorem most_history : LocalHistory Demo.env most [(4, op3), (1, op1)] keyed (step 1 op1 (step 4 op3 keyed)) := by
  refine ⟨⟨by decide, trivial, fun g og hg hp b hb => ?_⟩, ⟨by decide, trivial, fun g og hg hp b hb => ?_⟩, rfl⟩
  · have hg : some fAuthor = some g := hg
    cases hg
    cases hp.opp_eq paired_author
    have hb : b ∈ refsOf fAuthor (.obj 1) := hb
    rw [refsOf_inst rfl] at hb
    cases List.mem_singleton.1 hb
    exact ⟨by decide, has_of (c := "User") rfl rfl⟩
  · have hc : ((step 4 op3 keyed).heap 1).cls = "User" := by decide +kernel
    have hg : ((step 4 op3 keyed).cdef Demo.env 1).field? "posts" = some g := hg
    unfold World.cdef at hg
    rw [hc] at hg
    have hg : some fPosts = some g := hg
    cases hg
    cases hp.opp_eq paired_posts
    have hb : Val.obj b ∈ [Val.obj 2] := hb
    cases List.mem_singleton.1 hb
    exact ⟨by decide, has_of (c := "Post") (by decide +kernel) rfl⟩

/-- post 3 is left alone, the name of user 1 stays -/
example : Untouched (keyed.heap 3) ((step 1 op1 (step 4 op3 keyed)).heap 3) ∧
    (step 1 op1 (step 4 op3 keyed)).attr 1 "name" = keyed.attr 1 "name" := by
  obtain ⟨h1, -, h3, -⟩ := relation_changes_stay_local relations _ most_group most_history
  refine ⟨h1 3 (by decide), (h3 1 "name" ?_ (fun op hm => ?_)).1⟩
  · rintro ⟨f, hf, h⟩
    have hf : f ∈ user.fields := hf
    simp only [user, List.mem_cons, List.not_mem_nil, or_false] at hf
    rcases hf with rfl | rfl | rfl | rfl | rfl | rfl <;> revert h <;> decide
  · simp only [List.mem_cons, Prod.mk.injEq, List.not_mem_nil, or_false] at hm
    rcases hm with ⟨h, -⟩ | ⟨-, rfl⟩
    · cases h
    · decide

theorem connected_most {a b : Nat} (ha : most a) (h : Connected Demo.env keyed a b) : most b := by
  induction h with
  | refl => exact ha
  | step _ hg hp hc ih => exact (most_group _ _ _ ih hg hp _ hc).1

/-- post 3 is connected neither with post 4 nor with user 1 -/
example : Untouched (keyed.heap 3) ((op3.run Demo.env 4 keyed).2.heap 3) := by
  have hst : ∀ g og, (keyed.cdef Demo.env 4).field? op3.name = some g → Paired Demo.env g og → ∀ b, op3.Stores g b →
      b = 1 ∧ HasField Demo.env keyed b og := by
    intro g og hg hp b hb
    have hg : some fAuthor = some g := hg
    cases hg
    cases hp.opp_eq paired_author
    have hb : b ∈ refsOf fAuthor (.obj 1) := hb
    rw [refsOf_inst rfl] at hb
    cases List.mem_singleton.1 hb
    exact ⟨rfl, has_of (c := "User") rfl rfl⟩
  refine unconnected_untouched relations keyed_linked.typed (op := op3) trivial (fun g og hg hp b hb => (hst g og hg hp b hb).2)
    (fun hc => connected_most (a := 4) (by decide) hc rfl) (fun g og hg hp b hb hc => ?_)
  cases (hst g og hg hp b hb).1
  exact connected_most (a := 1) (by decide) hc rfl

/-- a new name for user 0 -/
example : (setAttr Demo.env 0 "name" (.str "Ann") keyed).2.heap 1 = keyed.heap 1 := by
  refine plain_assignment_alone (fun g og hg hp => ?_) rfl (by decide)
  have hg : some fName = some g := hg
  cases hg
  exact absurd hp.2.1 (by decide)

/-- and the history does something: user 1 has both posts -/
example : refs (step 1 op1 (step 4 op3 keyed)) 1 fPosts = [4, 2] := by decide +kernel

end JC.SymDemo
