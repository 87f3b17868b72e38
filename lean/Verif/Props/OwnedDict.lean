import Verif.Model.OwnedDict
import Verif.Props.Chain

/-
C36: owned dicts behave like plain dicts, and what they report to their owner accounts for
every change.
-/
namespace JC
variable {α : Type} {nul : α}

/-! ### Specification -/

/-- the values reported as added -/
def dAdded (log : List (DEv α)) : List α := log.filterMap (fun e => match e with
  | .add _ v => some v
  | _ => none)
/-- the values reported as removed -/
def dRemoved (log : List (DEv α)) : List α := log.filterMap (fun e => match e with
  | .del v => some v
  | _ => none)
/-- the reports explain the step from `d` to `d'`: the same values with the same
multiplicities -/
def DAccounts (d : List (String × α)) (log : List (DEv α)) (d' : List (String × α)) : Prop :=
  (d'.map Prod.snd ++ dRemoved log).Perm (d.map Prod.snd ++ dAdded log)
/-- a dict: no key twice -/
def DistinctKeys (d : List (String × α)) : Prop := (d.map Prod.fst).Nodup

/-- the argument, if any, is not an iterator -/
def DOp.NoIter : DOp α → Prop
  | .update (.iter _) _ => False
  | .ior (.iter _) => False
  | _ => True

/-- a value other than the implicit None of `setdefault(k)` -/
def DOp.Explicit : DOp α → Prop
  | .setdefault1 _ => False
  | _ => True

/-! ### lemmas -/

theorem mem_iff_get {d : List (String × α)} (hd : DistinctKeys d) (k : String) (v : α) : (k, v) ∈ d ↔ dictGet d k = some v := by
  induction d with
  | nil => simp [dictGet]
  | cons x xs ih =>
    obtain ⟨k', v'⟩ := x
    have hd' := List.nodup_cons.1 hd
    by_cases h : k' = k
    · subst h
      simp only [dictGet, List.find?_cons, decide_true, Option.map_some, Option.some.injEq, List.mem_cons, Prod.mk.injEq, true_and]
      constructor
      · rintro (h | h)
        · exact h.symm
        · exact absurd (List.mem_map.2 ⟨_, h, rfl⟩) hd'.1
      · intro h; exact .inl h.symm
    · have := ih hd'.2
      have h1 : dictGet ((k', v') :: xs) k = dictGet xs k := by simp [dictGet, h]
      rw [h1, ← this, List.mem_cons, Prod.mk.injEq]
      constructor
      · rintro (⟨h', _⟩ | h')
        · exact absurd h'.symm h
        · exact h'
      · exact .inr

theorem nodup_of_keys {d : List (String × α)} (hd : DistinctKeys d) : d.Nodup := by
  unfold DistinctKeys at hd
  rw [List.Nodup, List.pairwise_map] at hd
  exact hd.imp (fun h h' => h (congrArg Prod.fst h'))

theorem perm_of_get {a b : List (String × α)} (ha : DistinctKeys a) (hb : DistinctKeys b)
    (h : ∀ k, dictGet a k = dictGet b k) : a.Perm b := by
  rw [List.perm_ext_iff_of_nodup (nodup_of_keys ha) (nodup_of_keys hb)]
  rintro ⟨k, v⟩
  rw [mem_iff_get ha, mem_iff_get hb, h]

theorem keys_dictSet (k : String) (v : α) (d : List (String × α)) :
    (dictSet k v d).map Prod.fst = if k ∈ d.map Prod.fst then d.map Prod.fst else d.map Prod.fst ++ [k] := by
  induction d with
  | nil => rfl
  | cons x xs ih =>
    obtain ⟨k', v'⟩ := x
    simp only [dictSet]
    by_cases h : k' = k
    · subst h; simp
    · rw [if_neg h, List.map_cons, ih]
      have : k ≠ k' := fun h' => h h'.symm
      simp only [List.map_cons, List.mem_cons, this, false_or]
      split <;> rfl

theorem distinct_dictSet {d : List (String × α)} (hd : DistinctKeys d) (k : String) (v : α) : DistinctKeys (dictSet k v d) := by
  unfold DistinctKeys
  rw [keys_dictSet]
  split
  · exact hd
  · next h =>
    rw [List.nodup_append]
    exact ⟨hd, by simp, by intro a ha b hb; simp at hb; subst hb; intro he; subst he; exact h ha⟩

theorem distinct_dictUpdate {d : List (String × α)} (hd : DistinctKeys d) (e : List (String × α)) : DistinctKeys (dictUpdate d e) := by
  unfold dictUpdate
  induction e generalizing d with
  | nil => exact hd
  | cons x e ih => exact ih (distinct_dictSet hd _ _)

theorem distinct_nil : DistinctKeys ([] : List (String × α)) := List.nodup_nil

theorem distinct_filter {d : List (String × α)} (hd : DistinctKeys d) (p : String × α → Bool) : DistinctKeys (d.filter p) :=
  List.Nodup.sublist (List.Sublist.map _ List.filter_sublist) hd

theorem dictGet_append (a b : List (String × α)) (k : String) : dictGet (a ++ b) k = (dictGet a k).or (dictGet b k) := by
  simp only [dictGet, List.find?_append]
  cases a.find? (fun kv => kv.1 = k) <;> rfl

theorem dictGet_filter (p : String → Bool) (d : List (String × α)) (k : String) :
    dictGet (d.filter (fun kv => p kv.1)) k = if p k then dictGet d k else none := by
  induction d with
  | nil => simp [dictGet]
  | cons x xs ih =>
    obtain ⟨k', v'⟩ := x
    by_cases h : k' = k
    · subst h
      by_cases hp : p k' = true
      · simp [hp, dictGet]
      · rw [List.filter_cons]; simp only [hp]; rw [if_neg (by simp)]; rw [ih]; simp [hp]
    · by_cases hp : p k' = true
      · rw [List.filter_cons]; simp only [hp, if_true]
        have h1 : ∀ r : List (String × α), dictGet ((k', v') :: r) k = dictGet r k := by
          intro r; simp [dictGet, h]
        rw [h1, h1, ih]
      · rw [List.filter_cons]; simp only [hp]; rw [if_neg (by simp)]
        have h1 : ∀ r : List (String × α), dictGet ((k', v') :: r) k = dictGet r k := by
          intro r; simp [dictGet, h]
        rw [h1, ih]

theorem dictGet_none_iff {d : List (String × α)} {k : String} : dictGet d k = none ↔ k ∉ d.map Prod.fst := by
  simp only [dictGet, Option.map_eq_none_iff, List.find?_eq_none, decide_eq_true_eq, List.mem_map, not_exists, not_and]

/-- updating replaces the shared keys and adds the others -/
theorem update_perm {d : List (String × α)} (hd : DistinctKeys d) (L : List (String × α)) :
    (dictUpdate d L).Perm (d.filter (fun kv => (dictGet (dictUpdate [] L) kv.1).isNone) ++ dictUpdate [] L) := by
  apply perm_of_get (distinct_dictUpdate hd L)
  · unfold DistinctKeys
    rw [List.map_append, List.nodup_append]
    refine ⟨distinct_filter hd _, distinct_dictUpdate distinct_nil L, ?_⟩
    intro a ha b hb hab
    subst hab
    obtain ⟨x, hx, rfl⟩ := List.mem_map.1 ha
    have := (List.mem_filter.1 hx).2
    rw [Option.isNone_iff_eq_none, dictGet_none_iff] at this
    exact this hb
  · intro k
    rw [dictGet_append, dictGet_filter (fun k => (dictGet (dictUpdate [] L) k).isNone), dictGet_dictUpdate, dictGet_dictUpdate]
    have : dictGet ([] : List (String × α)) k = none := rfl
    rw [this]
    cases (L.reverse.find? (fun kv => kv.1 = k)).map Prod.snd with
    | none => simp
    | some v => simp

theorem filter_split (d : List (String × α)) (p : String × α → Bool) :
    (d.filter (fun x => !p x) ++ d.filter p).Perm d := by
  induction d with
  | nil => exact List.Perm.refl _
  | cons x xs ih =>
    cases hp : p x with
    | true =>
      simp only [List.filter_cons, hp, Bool.not_true, Bool.false_eq_true, if_false, if_true]
      exact List.perm_middle.trans (ih.cons x)
    | false =>
      simp only [List.filter_cons, hp, Bool.not_false, Bool.false_eq_true, if_false, if_true]
      exact ih.cons x

/-- update accounting -/
theorem update_values {d : List (String × α)} (hd : DistinctKeys d) (L : List (String × α)) :
    ((dictUpdate d L).map Prod.snd ++ itemsToDel d (dictUpdate [] L)).Perm
      (d.map Prod.snd ++ (dictUpdate [] L).map Prod.snd) := by
  have h1 := update_perm hd L
  have h2 := filter_split d (fun kv => (dictGet (dictUpdate [] L) kv.1).isSome)
  have e : (fun x : String × α => !(dictGet (dictUpdate [] L) x.1).isSome) = fun kv => (dictGet (dictUpdate [] L) kv.1).isNone := by
    funext x; cases dictGet (dictUpdate [] L) x.1 <;> rfl
  rw [e] at h2
  generalize dictUpdate [] L = N at *
  unfold itemsToDel
  have h3 := (h1.map Prod.snd).append_right ((d.filter (fun kv => (dictGet N kv.1).isSome)).map Prod.snd)
  refine h3.trans ?_
  rw [List.map_append, List.append_assoc]
  refine ((List.perm_append_comm (l₁ := N.map Prod.snd)).append_left _).trans ?_
  rw [← List.append_assoc, ← List.map_append]
  exact (h2.map Prod.snd).append_right _

theorem drop_perm {d : List (String × α)} (hd : DistinctKeys d) {k : String} {v : α} (h : dictGet d k = some v) :
    ((dictDrop k d).map Prod.snd ++ [v]).Perm (d.map Prod.snd) := by
  have : (dictDrop k d ++ [(k, v)]).Perm d := by
    apply perm_of_get
    · unfold DistinctKeys
      rw [List.map_append, List.nodup_append]
      refine ⟨distinct_filter hd _, by simp, ?_⟩
      intro a ha b hb hab
      subst hab
      obtain ⟨x, hx, rfl⟩ := List.mem_map.1 ha
      have := (List.mem_filter.1 hx).2
      simp at hb this
      exact this hb
    · exact hd
    · intro k'
      rw [dictGet_append]
      unfold dictDrop
      rw [dictGet_filter (fun x => !(x == k))]
      by_cases hk : k' = k
      · subst hk
        rw [h]
        simp [dictGet]
      · have hk2 : ¬ k = k' := fun h => hk h.symm
        have : dictGet [(k, v)] k' = none := by simp [dictGet, hk2]
        rw [this]
        simp [hk]
  have := this.map Prod.snd
  rwa [List.map_append] at this

theorem setItem_perm {d : List (String × α)} (hd : DistinctKeys d) (k : String) (v : α) :
    ((dictSet k v d).map Prod.snd ++ (dictGet d k).toList).Perm (d.map Prod.snd ++ [v]) := by
  have h : (dictSet k v d).Perm (dictDrop k d ++ [(k, v)]) := by
    apply perm_of_get (distinct_dictSet hd k v)
    · unfold DistinctKeys
      rw [List.map_append, List.nodup_append]
      refine ⟨distinct_filter hd _, by simp, ?_⟩
      intro a ha b hb hab
      subst hab
      obtain ⟨x, hx, rfl⟩ := List.mem_map.1 ha
      have := (List.mem_filter.1 hx).2
      simp at hb this
      exact this hb
    · intro k'
      rw [dictGet_append, dictGet_dictSet]
      unfold dictDrop
      rw [dictGet_filter (fun x => !(x == k))]
      by_cases hk : k' = k
      · subst hk
        simp [dictGet]
      · have hk2 : ¬ k = k' := fun h => hk h.symm
        have : dictGet [(k, v)] k' = none := by simp [dictGet, hk2]
        rw [this]
        simp [hk, hk2]
  have h1 := (h.map Prod.snd).append_right (dictGet d k).toList
  refine h1.trans ?_
  rw [List.map_append, List.append_assoc]
  refine ((List.perm_append_comm (l₁ := [v])).append_left _).trans ?_
  rw [← List.append_assoc]
  refine List.Perm.append_right _ ?_
  cases hg : dictGet d k with
  | some w => exact drop_perm hd hg
  | none =>
    have : dictDrop k d = d := by
      unfold dictDrop
      rw [List.filter_eq_self]
      intro x hx
      have := dictGet_none_iff.1 hg
      simp only [Bool.not_eq_true', beq_eq_false_iff_ne, ne_eq]
      intro he
      exact this (List.mem_map.2 ⟨x, hx, he⟩)
    rw [this]; simp

@[simp] theorem dAdded_append (a b : List (DEv α)) : dAdded (a ++ b) = dAdded a ++ dAdded b := List.filterMap_append
@[simp] theorem dRemoved_append (a b : List (DEv α)) : dRemoved (a ++ b) = dRemoved a ++ dRemoved b := List.filterMap_append
@[simp] theorem dAdded_nil : dAdded ([] : List (DEv α)) = [] := rfl
@[simp] theorem dRemoved_nil : dRemoved ([] : List (DEv α)) = [] := rfl
@[simp] theorem dAdded_will (l : List (DEv α)) : dAdded (.will :: l) = dAdded l := rfl
@[simp] theorem dRemoved_will (l : List (DEv α)) : dRemoved (.will :: l) = dRemoved l := rfl
@[simp] theorem dAdded_add (k : String) (v : α) (l : List (DEv α)) : dAdded (.add k v :: l) = v :: dAdded l := rfl
@[simp] theorem dRemoved_add (k : String) (v : α) (l : List (DEv α)) : dRemoved (.add k v :: l) = dRemoved l := rfl
@[simp] theorem dAdded_del (v : α) (l : List (DEv α)) : dAdded (.del v :: l) = dAdded l := rfl
@[simp] theorem dRemoved_del (v : α) (l : List (DEv α)) : dRemoved (.del v :: l) = v :: dRemoved l := rfl
@[simp] theorem dAdded_dels (vs : List α) : dAdded (vs.map DEv.del) = [] := by
  induction vs with
  | nil => rfl
  | cons v vs ih => exact ih
@[simp] theorem dRemoved_dels (vs : List α) : dRemoved (vs.map DEv.del) = vs := by
  induction vs with
  | nil => rfl
  | cons v vs ih => exact congrArg (v :: ·) ih
@[simp] theorem dAdded_clear (d : List (String × α)) : dAdded (d.map (fun kv => DEv.del kv.2)) = [] := by
  induction d with
  | nil => rfl
  | cons v vs ih => exact ih
@[simp] theorem dRemoved_clear (d : List (String × α)) : dRemoved (d.map (fun kv => DEv.del kv.2)) = d.map Prod.snd := by
  induction d with
  | nil => rfl
  | cons v vs ih => exact congrArg (v.2 :: ·) ih
@[simp] theorem dAdded_adds (d : List (String × α)) : dAdded (d.map (fun kv => DEv.add kv.1 kv.2)) = d.map Prod.snd := by
  induction d with
  | nil => rfl
  | cons v vs ih => exact congrArg (v.2 :: ·) ih
@[simp] theorem dRemoved_adds (d : List (String × α)) : dRemoved (d.map (fun kv => DEv.add kv.1 kv.2)) = [] := by
  induction d with
  | nil => rfl
  | cons v vs ih => exact ih

theorem distinct_dropLast {d : List (String × α)} (hd : DistinctKeys d) : DistinctKeys d.dropLast :=
  List.Nodup.sublist (List.Sublist.map _ (List.dropLast_sublist d)) hd

/-! ### C36 -/

/-- **C36**, contents: contents, exception and returned value are those of the plain
dict (no iterator arguments). -/
theorem odict_contents (op : DOp α) (hp : op.NoIter) (d : List (String × α)) :
    ((ownedDOp nul op d).exc, (ownedDOp nul op d).ret, (ownedDOp nul op d).items) = plainDOp nul op d := by
  cases op with
  | clear => rfl
  | pop k dflt => simp only [ownedDOp, plainDOp]; cases dictGet d k <;> cases dflt <;> rfl
  | popitem => simp only [ownedDOp, plainDOp]; cases d.getLast? <;> rfl
  | setdefault1 k => simp only [ownedDOp, plainDOp]; cases dictGet d k <;> rfl
  | setdefault2 k v => simp only [ownedDOp, plainDOp]; cases dictGet d k <;> rfl
  | update a kw => cases a <;> first | exact hp.elim | rfl
  | setItem k v => rfl
  | delItem k => simp only [ownedDOp, plainDOp]; cases dictGet d k <;> rfl
  | ior a => cases a <;> first | exact hp.elim | rfl

/-- Dicts stay dicts. -/
theorem odict_distinct (op : DOp α) {d : List (String × α)} (hd : DistinctKeys d) : DistinctKeys (ownedDOp nul op d).items := by
  cases op with
  | clear => exact distinct_nil
  | pop k dflt =>
    simp only [ownedDOp]
    cases dictGet d k <;> cases dflt <;> first | exact hd | exact distinct_filter hd _
  | popitem => simp only [ownedDOp]; cases d.getLast? <;> first | exact hd | exact distinct_dropLast hd
  | setdefault1 k => simp only [ownedDOp]; cases dictGet d k <;> first | exact hd | exact distinct_dictSet hd _ _
  | setdefault2 k v => simp only [ownedDOp]; cases dictGet d k <;> first | exact hd | exact distinct_dictSet hd _ _
  | update a kw => exact distinct_dictUpdate hd _
  | setItem k v => exact distinct_dictSet hd _ _
  | delItem k => simp only [ownedDOp]; cases dictGet d k <;> first | exact hd | exact distinct_filter hd _
  | ior a => exact distinct_dictUpdate hd _

/-- **C36**, reports: every value added or removed by an operation is reported, exactly
once, whether it raises or not. -/
theorem odict_accounts (op : DOp α) (hp : op.NoIter) (he : op.Explicit) {d : List (String × α)} (hd : DistinctKeys d) :
    DAccounts d (ownedDOp nul op d).log (ownedDOp nul op d).items := by
  cases op with
  | clear => simp [ownedDOp, DAccounts]
  | pop k dflt =>
    simp only [ownedDOp]
    cases hg : dictGet d k with
    | some v => simpa [DAccounts] using drop_perm hd hg
    | none => cases dflt <;> simp [DAccounts]
  | popitem =>
    simp only [ownedDOp]
    cases hg : d.getLast? with
    | none => simp [DAccounts]
    | some kv =>
      have hne : d ≠ [] := by intro h; subst h; cases hg
      have : d = d.dropLast ++ [kv] := by
        have h1 := List.dropLast_concat_getLast hne
        rw [List.getLast?_eq_some_getLast hne] at hg
        cases hg
        exact h1.symm
      simp only [DAccounts, dRemoved_will, dRemoved_del, dRemoved_nil, dAdded_will, dAdded_del, dAdded_nil, List.append_nil]
      conv => rhs; rw [this]
      simp
  | setdefault1 k => cases he
  | setdefault2 k v =>
    simp only [ownedDOp]
    cases hg : dictGet d k with
    | some w => simp [DAccounts]
    | none =>
      have := setItem_perm hd k v
      rw [hg] at this
      simpa [DAccounts] using this
  | update a kw =>
    cases a with
    | iter L => cases hp
    | map L =>
      have := update_values hd (L ++ kw)
      simpa [ownedDOp, DAccounts, updateEvents, DArg.again, DArg.pairs] using this
  | setItem k v =>
    have := setItem_perm hd k v
    simpa [ownedDOp, DAccounts] using this
  | delItem k =>
    simp only [ownedDOp]
    cases hg : dictGet d k with
    | some v => simpa [DAccounts] using drop_perm hd hg
    | none => simp [DAccounts]
  | ior a =>
    cases a with
    | iter L => cases hp
    | map L =>
      have := update_values hd L
      simpa [ownedDOp, DAccounts, updateEvents, DArg.again, DArg.pairs] using this

/-- **C36**, keys: an addition is reported under the key at which the value now is. -/
theorem odict_keys (op : DOp α) (hp : op.NoIter) {d : List (String × α)} {k : String} {v : α}
    (h : DEv.add k v ∈ (ownedDOp nul op d).log) : dictGet (ownedDOp nul op d).items k = some v := by
  have hupd : ∀ L : List (String × α), DEv.add k v ∈ updateEvents d (dictUpdate [] L) → dictGet (dictUpdate d L) k = some v := by
    intro L hL
    simp only [updateEvents, List.mem_cons, reduceCtorEq, List.mem_append, List.mem_map, false_or, DEv.add.injEq] at hL
    rcases hL with ⟨_, _, h⟩ | ⟨x, hx, h1, h2⟩
    · cases h
    · have hx' : (k, v) ∈ dictUpdate [] L := by rw [← h1, ← h2]; exact hx
      rw [mem_iff_get (distinct_dictUpdate distinct_nil L), dictGet_dictUpdate] at hx'
      rw [dictGet_dictUpdate]
      cases hf : (L.reverse.find? (fun kv => kv.1 = k)).map Prod.snd with
      | none => rw [hf] at hx'; cases hx'
      | some w => rw [hf] at hx'; exact hx'
  cases op with
  | clear => simp [ownedDOp] at h
  | pop k' dflt =>
    simp only [ownedDOp] at h
    cases hg : dictGet d k' <;> cases dflt <;> rw [hg] at h <;> simp at h
  | popitem =>
    simp only [ownedDOp] at h
    cases hg : d.getLast? <;> rw [hg] at h <;> simp at h
  | setdefault1 k' =>
    simp only [ownedDOp] at h
    cases hg : dictGet d k' <;> rw [hg] at h <;> simp at h
  | setdefault2 k' w =>
    simp only [ownedDOp] at h ⊢
    cases hg : dictGet d k' with
    | some _ => rw [hg] at h; simp at h
    | none =>
      rw [hg] at h
      simp at h
      obtain ⟨rfl, rfl⟩ := h
      simp [dictGet_dictSet]
  | update a kw =>
    cases a with
    | iter L => cases hp
    | map L => exact hupd _ h
  | setItem k' w =>
    simp [ownedDOp] at h
    obtain ⟨rfl, rfl⟩ := h
    simp [ownedDOp, dictGet_dictSet]
  | delItem k' =>
    simp only [ownedDOp] at h
    cases hg : dictGet d k' <;> rw [hg] at h <;> simp at h
  | ior a =>
    cases a with
    | iter L => cases hp
    | map L => exact hupd _ h

/-- **C36**, announcement: nothing changes before the owner was told. -/
theorem odict_announced (op : DOp α) (he : op.Explicit) (d : List (String × α)) :
    (∃ rest, (ownedDOp nul op d).log = .will :: rest) ∨ ((ownedDOp nul op d).log = [] ∧ (ownedDOp nul op d).items = d) := by
  cases op with
  | clear => exact .inl ⟨_, rfl⟩
  | pop k dflt => simp only [ownedDOp]; cases dictGet d k <;> cases dflt <;> exact .inl ⟨_, rfl⟩
  | popitem => simp only [ownedDOp]; cases d.getLast? <;> exact .inl ⟨_, rfl⟩
  | setdefault1 k => cases he
  | setdefault2 k v =>
    simp only [ownedDOp]
    cases dictGet d k
    · exact .inl ⟨_, rfl⟩
    · exact .inr ⟨rfl, rfl⟩
  | update a kw => exact .inl ⟨_, rfl⟩
  | setItem k v => exact .inl ⟨_, rfl⟩
  | delItem k => simp only [ownedDOp]; cases dictGet d k <;> exact .inl ⟨_, rfl⟩
  | ior a => exact .inl ⟨_, rfl⟩

/-- **C36** for histories. -/
theorem odict_history (ops : List (DOp α)) (hp : ∀ op ∈ ops, op.NoIter ∧ op.Explicit) {d : List (String × α)} (hd : DistinctKeys d) :
    (ownedDRun nul ops d).1 = plainDRun nul ops d ∧ DAccounts d (ownedDRun nul ops d).2 (ownedDRun nul ops d).1 := by
  induction ops generalizing d with
  | nil => simp [ownedDRun, plainDRun, DAccounts]
  | cons op ops ih =>
    obtain ⟨hp1, hp2⟩ := hp op (by simp)
    have h1 := odict_accounts (nul := nul) op hp1 hp2 hd
    have h2 : (ownedDOp nul op d).items = (plainDOp nul op d).2.2 :=
      congrArg (fun x => x.2.2) (odict_contents (nul := nul) op hp1 d)
    obtain ⟨h3, h4⟩ := ih (fun o ho => hp o (by simp [ho])) (odict_distinct (nul := nul) op hd)
    refine ⟨by simp only [ownedDRun, plainDRun]; rw [h3, h2], ?_⟩
    simp only [ownedDRun, DAccounts, dRemoved_append, dAdded_append] at *
    have h5 := h4.append_left (dRemoved (ownedDOp nul op d).log)
    have h6 := h1.append_right (dAdded (ownedDRun nul ops (ownedDOp nul op d).items).2)
    generalize dRemoved (ownedDOp nul op d).log = R1 at *
    generalize dRemoved (ownedDRun nul ops (ownedDOp nul op d).items).2 = R2 at *
    generalize dAdded (ownedDOp nul op d).log = A1 at *
    generalize dAdded (ownedDRun nul ops (ownedDOp nul op d).items).2 = A2 at *
    generalize (ownedDRun nul ops (ownedDOp nul op d).items).1.map Prod.snd = Z at *
    generalize (ownedDOp nul op d).items.map Prod.snd = Y at *
    have h7 : (Z ++ (R1 ++ R2)).Perm (R1 ++ (Z ++ R2)) := by
      rw [← List.append_assoc, ← List.append_assoc]
      exact List.perm_append_comm.append_right R2
    refine h7.trans (h5.trans ?_)
    have h8 : (R1 ++ (Y ++ A2)).Perm ((Y ++ R1) ++ A2) := by
      rw [← List.append_assoc]
      exact List.perm_append_comm.append_right A2
    refine h8.trans (h6.trans ?_)
    rw [List.append_assoc]

/-! ### Findings -/

/-- `setdefault(k)` on a missing key adds None without telling the owner. -/
theorem odict_setdefault_unreported {d : List (String × α)} {k : String} (h : dictGet d k = none) :
    (ownedDOp nul (.setdefault1 k) d).log = [] ∧ (ownedDOp nul (.setdefault1 k) d).items = d ++ [(k, nul)] ∧
    ¬ DAccounts d (ownedDOp nul (.setdefault1 k) d).log (ownedDOp nul (.setdefault1 k) d).items := by
  have hs : dictSet k nul d = d ++ [(k, nul)] := dictSet_new k nul d (by
    intro x hx he
    exact dictGet_none_iff.1 h (List.mem_map.2 ⟨x, hx, he⟩))
  simp only [ownedDOp, h, hs]
  refine ⟨trivial, trivial, ?_⟩
  intro hh
  have := hh.length_eq
  simp at this

/-- `update` with an iterator reports the additions but stores nothing; a plain dict would
store them. -/
theorem odict_update_iterator_lost (d L : List (String × α)) :
    (ownedDOp nul (.update (.iter L) []) d).items = d ∧
    dAdded (ownedDOp nul (.update (.iter L) []) d).log = (dictUpdate [] L).map Prod.snd ∧
    (plainDOp nul (.update (.iter L) []) d).2.2 = dictUpdate d L := by
  refine ⟨rfl, ?_, by simp [plainDOp, DArg.pairs]⟩
  simp [ownedDOp, updateEvents, DArg.pairs]

/-- The same for `|=`. -/
theorem odict_ior_iterator_lost (d L : List (String × α)) :
    (ownedDOp nul (.ior (.iter L)) d).items = d ∧
    dAdded (ownedDOp nul (.ior (.iter L)) d).log = (dictUpdate [] L).map Prod.snd ∧
    (plainDOp nul (.ior (.iter L)) d).2.2 = dictUpdate d L := by
  refine ⟨rfl, ?_, rfl⟩
  simp [ownedDOp, updateEvents, DArg.pairs]

/-- The full statement is false. -/
theorem odict_full_false : ¬ (∀ (op : DOp Nat) (d : List (String × Nat)), DistinctKeys d →
    (ownedDOp 0 op d).items = (plainDOp 0 op d).2.2 ∧ DAccounts d (ownedDOp 0 op d).log (ownedDOp 0 op d).items) := by
  intro h
  exact (odict_setdefault_unreported (nul := 0) (d := []) (k := "a") rfl).2.2 (h (.setdefault1 "a") [] distinct_nil).2

example : (ownedDRun 0 [.setItem "a" 5, .update (.map [("b", 2), ("c", 3)]) [("a", 6)], .pop "zz" none, .delItem "b"] [("a", 1)]).1 =
    [("a", 6), ("c", 3)] := rfl
example : DAccounts [("a", 1)]
    (ownedDRun 0 [.setItem "a" 5, .update (.map [("b", 2), ("c", 3)]) [("a", 6)], .pop "zz" none, .delItem "b"] [("a", 1)]).2
    [("a", 6), ("c", 3)] :=
  (odict_history _ (by simp [DOp.NoIter, DOp.Explicit]) (by simp [DistinctKeys])).2

end JC
