import Verif.Model.OwnedConv
import Verif.Props.Keypath

/-
C37: owning and un-owning containers preserves the data, and every nested container gets
the owner and its own key path.
-/
namespace JC
variable {α : Type}

/-! ### Specification -/

/-- the value at a path of list positions and dict keys -/
def CVal.at : List Key → CVal α → Option (CVal α)
  | [], v => some v
  | .i n :: ks, .list _ xs => if n < 0 then none else (xs[n.toNat]?).bind (CVal.at ks)
  | .s k :: ks, .dict _ kvs => ((kvs.find? (fun kv => kv.1 = k)).map Prod.snd).bind (CVal.at ks)
  | _, _ => none

/-- Two values are the same but for ownership: Python's `==`. -/
inductive SameContents : CVal α → CVal α → Prop
  | leaf (a : α) : SameContents (.leaf a) (.leaf a)
  | list {o o'} {xs ys : List (CVal α)} (hl : xs.length = ys.length)
      (h : ∀ (i : Nat) x y, xs[i]? = some x → ys[i]? = some y → SameContents x y) : SameContents (.list o xs) (.list o' ys)
  | dict {o o'} {xs ys : List (String × CVal α)} (hk : xs.map Prod.fst = ys.map Prod.fst)
      (h : ∀ (i : Nat) x y, xs[i]? = some x → ys[i]? = some y → SameContents x.2 y.2) : SameContents (.dict o xs) (.dict o' ys)

/-- owner and key path of a container; None for a leaf or a plain container -/
def CVal.owner? : CVal α → Option (Nat × String)
  | .leaf _ => none
  | .list o _ => o
  | .dict o _ => o

/-- is a list or a dict -/
def CVal.isContainer : CVal α → Prop
  | .leaf _ => False
  | _ => True

/-- Neither the value nor anything inside is owned. -/
inductive CVal.Plain : CVal α → Prop
  | leaf (a : α) : CVal.Plain (.leaf a)
  | list {xs : List (CVal α)} (h : ∀ x ∈ xs, CVal.Plain x) : CVal.Plain (.list none xs)
  | dict {kvs : List (String × CVal α)} (h : ∀ kv ∈ kvs, CVal.Plain kv.2) : CVal.Plain (.dict none kvs)

/-! ### Lemmas -/

theorem toOwnedItems_length (o : Nat) (kp : String) (i : Nat) (xs : List (CVal α)) : (toOwnedItems o kp i xs).length = xs.length := by
  induction xs generalizing i with
  | nil => rfl
  | cons x xs ih => simp [toOwnedItems, ih]

theorem toOwnedItems_get (o : Nat) (kp : String) (i : Nat) (xs : List (CVal α)) (j : Nat) :
    (toOwnedItems o kp i xs)[j]? = xs[j]?.map (toOwned o (concatKeypath [.s kp, .i ((i + j : Nat) : Int)])) := by
  induction xs generalizing i j with
  | nil => simp [toOwnedItems]
  | cons x xs ih =>
    cases j with
    | zero => simp [toOwnedItems]
    | succ j =>
      simp only [toOwnedItems, List.getElem?_cons_succ]
      rw [ih, show i + 1 + j = i + (j + 1) by omega]

theorem toOwnedEntries_get (o : Nat) (kp : String) (kvs : List (String × CVal α)) (j : Nat) :
    (toOwnedEntries o kp kvs)[j]? = kvs[j]?.map (fun kv => (kv.1, toOwned o (concatKeypath [.s kp, .s kv.1]) kv.2)) := by
  induction kvs generalizing j with
  | nil => simp [toOwnedEntries]
  | cons x xs ih =>
    obtain ⟨k, v⟩ := x
    cases j with
    | zero => simp [toOwnedEntries]
    | succ j => simp only [toOwnedEntries, List.getElem?_cons_succ]; exact ih j

theorem toOwnedEntries_eq (o : Nat) (kp : String) (kvs : List (String × CVal α)) :
    toOwnedEntries o kp kvs = kvs.map (fun kv => (kv.1, toOwned o (concatKeypath [.s kp, .s kv.1]) kv.2)) := by
  induction kvs with
  | nil => rfl
  | cons x xs ih => obtain ⟨k, v⟩ := x; simp [toOwnedEntries, ih]

theorem unownedItems_eq (xs : List (CVal α)) : unownedItems xs = xs.map unownedCopy := by
  induction xs with
  | nil => rfl
  | cons x xs ih => simp [unownedItems, ih]

theorem unownedEntries_eq (kvs : List (String × CVal α)) : unownedEntries kvs = kvs.map (fun kv => (kv.1, unownedCopy kv.2)) := by
  induction kvs with
  | nil => rfl
  | cons x xs ih => obtain ⟨k, v⟩ := x; simp [unownedEntries, ih]

theorem concatKeypath_single (k : String) : concatKeypath [.s k] = k := by
  unfold concatKeypath dotJoin
  by_cases h : k = ""
  · subst h; rfl
  · have hl : k.toList ≠ [] := by
      intro h'
      apply h
      have := congrArg String.ofList h'
      simpa using this
    have : 0 < k.toList.length := List.length_pos_iff.2 hl
    simp only [List.map_cons, List.map_nil, Key.str, List.filter_cons, List.filter_nil, gt_iff_lt, this, decide_true, if_true, joinL]
    exact String.ofList_toList

theorem find_map_snd {β γ : Type} (f : String → β → γ) (kvs : List (String × β)) (k : String) :
    ((kvs.map (fun kv => (kv.1, f kv.1 kv.2))).find? (fun kv => kv.1 = k)).map Prod.snd =
      ((kvs.find? (fun kv => kv.1 = k)).map Prod.snd).map (f k) := by
  induction kvs with
  | nil => rfl
  | cons x xs ih =>
    by_cases h : x.1 = k
    · simp [h]
    · simp only [List.map_cons, List.find?_cons, h, decide_false]; exact ih

/-- an induction principle over nested values -/
theorem CVal.induct {motive : CVal α → Prop} (leaf : ∀ a, motive (.leaf a))
    (list : ∀ o xs, (∀ x ∈ xs, motive x) → motive (.list o xs))
    (dict : ∀ o kvs, (∀ kv ∈ kvs, motive kv.2) → motive (.dict o kvs)) : ∀ v, motive v
  | .leaf a => leaf a
  | .list o xs => list o xs (fun x hx => CVal.induct leaf list dict x)
  | .dict o kvs => dict o kvs (fun kv hkv => CVal.induct leaf list dict kv.2)
termination_by v => sizeOf v
decreasing_by
  · have := List.sizeOf_lt_of_mem hx
    simp; omega
  · have := List.sizeOf_lt_of_mem hkv
    cases kv
    simp at this ⊢; omega

/-! ### C37 -/

/-- **C37**: owning keeps the data. -/
theorem toOwned_data (o : Nat) (v : CVal α) : ∀ kp, SameContents v (toOwned o kp v) := by
  induction v using CVal.induct with
  | leaf a => intro kp; exact .leaf a
  | list o' xs ih =>
    intro kp
    refine .list (by rw [toOwnedItems_length]) ?_
    intro i x y hx hy
    rw [toOwnedItems_get, hx] at hy
    cases hy
    exact ih x (List.mem_of_getElem? hx) _
  | dict o' kvs ih =>
    intro kp
    rw [toOwned]
    refine .dict (by rw [toOwnedEntries_eq, List.map_map]; rfl) ?_
    intro i x y hx hy
    rw [toOwnedEntries_get, hx] at hy
    cases hy
    exact ih x (List.mem_of_getElem? hx) _

/-- **C37**: copying to plain containers keeps the data. -/
theorem unownedCopy_data (v : CVal α) : SameContents v (unownedCopy v) := by
  induction v using CVal.induct with
  | leaf a => exact .leaf a
  | list o' xs ih =>
    rw [unownedCopy, unownedItems_eq]
    refine .list (by simp) ?_
    intro i x y hx hy
    rw [List.getElem?_map, hx] at hy
    cases hy
    exact ih x (List.mem_of_getElem? hx)
  | dict o' kvs ih =>
    rw [unownedCopy, unownedEntries_eq]
    refine .dict (by rw [List.map_map]; rfl) ?_
    intro i x y hx hy
    rw [List.getElem?_map, hx] at hy
    cases hy
    exact ih x (List.mem_of_getElem? hx)

theorem toOwned_at (o : Nat) (ks : List Key) : ∀ (pre : List Key) (v c : CVal α),
    (toOwned o (concatKeypath pre) v).at ks = some c → c.isContainer → c.owner? = some (o, concatKeypath (pre ++ ks)) := by
  induction ks with
  | nil =>
    intro pre v c h hc
    rw [List.append_nil]
    cases v with
    | leaf a => rw [CVal.at, toOwned] at h; cases h; exact hc.elim
    | list o' xs => rw [CVal.at, toOwned] at h; cases h; rfl
    | dict o' kvs => rw [CVal.at, toOwned] at h; cases h; rfl
  | cons k ks ih =>
    intro pre v c h hc
    cases v with
    | leaf a => cases k <;> simp [toOwned, CVal.at] at h
    | list o' xs =>
      cases k with
      | s k => simp [toOwned, CVal.at] at h
      | i n =>
        rw [toOwned, CVal.at] at h
        by_cases hn : n < 0
        · simp [hn] at h
        · rw [if_neg hn, toOwnedItems_get] at h
          cases hx : xs[n.toNat]? with
          | none => rw [hx] at h; cases h
          | some x =>
            rw [hx] at h
            have e : (((0 + n.toNat : Nat)) : Int) = n := by omega
            rw [Option.map_some, Option.bind_some, e, concatKeypath_snoc] at h
            have := ih (pre ++ [.i n]) x c h hc
            rw [this]; simp
    | dict o' kvs =>
      cases k with
      | i n => simp [toOwned, CVal.at] at h
      | s k =>
        rw [toOwned, CVal.at, toOwnedEntries_eq, find_map_snd (fun k v => toOwned o (concatKeypath [.s (concatKeypath pre), .s k]) v)] at h
        cases hx : (kvs.find? (fun kv => kv.1 = k)).map Prod.snd with
        | none => rw [hx] at h; cases h
        | some x =>
          rw [hx, Option.map_some, Option.bind_some, concatKeypath_snoc] at h
          have := ih (pre ++ [.s k]) x c h hc
          rw [this]; simp

/-- **C37**: after owning, every container at any depth is owned by that object and knows
its own key path: the starting path extended by the positions and keys leading to it. -/
theorem toOwned_owner (o : Nat) (kp : String) (v c : CVal α) (ks : List Key)
    (h : (toOwned o kp v).at ks = some c) (hc : c.isContainer) :
    c.owner? = some (o, concatKeypath (.s kp :: ks)) := by
  have := toOwned_at o ks [.s kp] v c
  rw [concatKeypath_single] at this
  exact this h hc

/-- **C37**: after un-owning, nothing inside is owned. -/
theorem unownedCopy_plain (v : CVal α) : (unownedCopy v).Plain := by
  induction v using CVal.induct with
  | leaf a => exact .leaf a
  | list o xs ih =>
    rw [unownedCopy, unownedItems_eq]
    refine .list ?_
    intro x hx
    obtain ⟨y, hy, rfl⟩ := List.mem_map.1 hx
    exact ih y hy
  | dict o kvs ih =>
    rw [unownedCopy, unownedEntries_eq]
    refine .dict ?_
    intro x hx
    obtain ⟨y, hy, rfl⟩ := List.mem_map.1 hx
    exact ih y hy

/-- A plain copy of a value that differs only in ownership is the same. -/
theorem unownedCopy_same {v w : CVal α} (h : SameContents v w) : unownedCopy v = unownedCopy w := by
  induction h with
  | leaf a => rfl
  | @list o o' xs ys hl h ih =>
    rw [unownedCopy, unownedCopy, unownedItems_eq, unownedItems_eq]
    congr 1
    apply List.ext_getElem? 
    intro i
    rw [List.getElem?_map, List.getElem?_map]
    cases hx : xs[i]? with
    | none =>
      have : ys[i]? = none := by rw [List.getElem?_eq_none_iff] at hx ⊢; omega
      rw [this]
    | some x =>
      cases hy : ys[i]? with
      | none =>
        rw [List.getElem?_eq_none_iff] at hy
        have := (List.getElem?_eq_some_iff.1 hx).1
        omega
      | some y => simp only [Option.map_some]; rw [ih i x y hx hy]
  | @dict o o' xs ys hk h ih =>
    rw [unownedCopy, unownedCopy, unownedEntries_eq, unownedEntries_eq]
    congr 1
    apply List.ext_getElem? 
    intro i
    have hki : (xs.map Prod.fst)[i]? = (ys.map Prod.fst)[i]? := by rw [hk]
    rw [List.getElem?_map, List.getElem?_map] at hki
    rw [List.getElem?_map, List.getElem?_map]
    cases hx : xs[i]? with
    | none =>
      cases hy : ys[i]? with
      | none => rfl
      | some y => rw [hx, hy] at hki; cases hki
    | some x =>
      cases hy : ys[i]? with
      | none => rw [hx, hy] at hki; cases hki
      | some y =>
        rw [hx, hy] at hki
        simp only [Option.map_some, Option.some.injEq] at hki ⊢
        rw [ih i x y hx hy, hki]

/-- Copying a plain value changes nothing. -/
theorem unownedCopy_of_plain {v : CVal α} (hv : v.Plain) : unownedCopy v = v := by
  induction hv with
  | leaf a => rfl
  | list h ih =>
    rw [unownedCopy, unownedItems_eq, List.map_congr_left (g := id) ih, List.map_id]
  | dict h ih =>
    rw [unownedCopy, unownedEntries_eq,
      List.map_congr_left (g := id) (fun kv hkv => by show (kv.1, unownedCopy kv.2) = kv; rw [ih kv hkv]), List.map_id]

/-- **C37**, round trip: a plain nested value, owned and copied back, is the same value. -/
theorem own_round_trip (o : Nat) (kp : String) {v : CVal α} (hv : v.Plain) : unownedCopy (toOwned o kp v) = v := by
  rw [← unownedCopy_same (toOwned_data o v kp), unownedCopy_of_plain hv]

/-- Owning again replaces the former owner and key paths everywhere: the result only
depends on the data. -/
theorem own_again (o : Nat) {v w : CVal α} (h : SameContents v w) : ∀ kp, toOwned o kp v = toOwned o kp w := by
  induction h with
  | leaf a => intro kp; rfl
  | @list o₁ o₂ xs ys hl h ih =>
    intro kp
    rw [toOwned, toOwned]
    congr 1
    apply List.ext_getElem?
    intro i
    rw [toOwnedItems_get, toOwnedItems_get]
    cases hx : xs[i]? with
    | none =>
      have : ys[i]? = none := by rw [List.getElem?_eq_none_iff] at hx ⊢; omega
      rw [this]
    | some x =>
      cases hy : ys[i]? with
      | none =>
        rw [List.getElem?_eq_none_iff] at hy
        have := (List.getElem?_eq_some_iff.1 hx).1
        omega
      | some y => simp only [Option.map_some]; rw [ih i x y hx hy]
  | @dict o₁ o₂ xs ys hk h ih =>
    intro kp
    rw [toOwned, toOwned]
    congr 1
    apply List.ext_getElem?
    intro i
    have hki : (xs.map Prod.fst)[i]? = (ys.map Prod.fst)[i]? := by rw [hk]
    rw [List.getElem?_map, List.getElem?_map] at hki
    rw [toOwnedEntries_get, toOwnedEntries_get]
    cases hx : xs[i]? with
    | none =>
      cases hy : ys[i]? with
      | none => rfl
      | some y => rw [hx, hy] at hki; cases hki
    | some x =>
      cases hy : ys[i]? with
      | none => rw [hx, hy] at hki; cases hki
      | some y =>
        rw [hx, hy] at hki
        simp only [Option.map_some, Option.some.injEq] at hki ⊢
        rw [ih i x y hx hy, hki]

/-- A dict entry under the empty key is a container that does not get a key path of its
own: it shares the path of the dict around it. -/
theorem empty_key_shares_path : ∃ c, (toOwned 7 "settings" (.dict none [("", .list none [.leaf 1])])).at [.s ""] = some c ∧
    c.owner? = some (7, "settings") := ⟨_, rfl, rfl⟩

/-- `{'a': [1, {'b': []}]}` as field `settings` of object 7 -/
def convDemo : CVal Nat := .dict none [("a", .list none [.leaf 1, .dict none [("b", .list none [])]])]

example : convDemo.Plain := by
  unfold convDemo
  refine .dict ?_
  simp only [List.mem_singleton, forall_eq]
  refine .list ?_
  simp only [List.mem_cons, List.not_mem_nil, or_false, forall_eq_or_imp, forall_eq]
  refine ⟨.leaf 1, .dict ?_⟩
  simp only [List.mem_singleton, forall_eq]
  exact .list (by simp)
example : ((toOwned 7 "settings" convDemo).at [.s "a", .i 1, .s "b"]).bind CVal.owner? = some (7, "settings.a.1.b") := by rfl

end JC
