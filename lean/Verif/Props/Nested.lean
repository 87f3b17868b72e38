import Verif.Model.Nested
import Verif.Props.OwnedList
import Verif.Props.OwnedDict
import Verif.Props.Keypath
import Verif.Props.Equality

/-
**C70**: lists and dicts inside lists and dicts, at any depth, as the objects a program
holds: a change through any of them is noticed by the owner under the field it belongs to,
and `reset` undoes any history of such changes.
-/
namespace JC

/-! ### specification -/

/-- the items of a container -/
def Items.slots : Items → List Slot
  | .list xs => xs
  | .dict kvs => kvs.map Prod.snd

/-- `Under b x i`: container `i` is `x` or is somewhere inside it. -/
inductive Under (b : Nat → Box) : Slot → Nat → Prop where
  | here (i : Nat) : Under b (.box i) i
  | step {i j : Nat} {x : Slot} : x ∈ (b i).items.slots → Under b x j → Under b (.box i) j

mutual
/-- `Shows b x v`: the program sees the data `v` in `x`. -/
inductive Shows (b : Nat → Box) : Slot → Val → Prop where
  | leaf (v : Val) : Shows b (.leaf v) v
  | list {i : Nat} {xs : List Slot} {vs : List Val} : (b i).items = .list xs → ShowsAll b xs vs → Shows b (.box i) (.list vs)
  | dict {i : Nat} {kvs : List (String × Slot)} {vs : List (String × Val)} :
      (b i).items = .dict kvs → ShowsEach b kvs vs → Shows b (.box i) (.dict vs)
/-- item by item -/
inductive ShowsAll (b : Nat → Box) : List Slot → List Val → Prop where
  | nil : ShowsAll b [] []
  | cons {x : Slot} {v : Val} {xs : List Slot} {vs : List Val} : Shows b x v → ShowsAll b xs vs → ShowsAll b (x :: xs) (v :: vs)
/-- entry by entry -/
inductive ShowsEach (b : Nat → Box) : List (String × Slot) → List (String × Val) → Prop where
  | nil : ShowsEach b [] []
  | cons {k : String} {x : Slot} {v : Val} {xs : List (String × Slot)} {vs : List (String × Val)} :
      Shows b x v → ShowsEach b xs vs → ShowsEach b ((k, x) :: xs) ((k, v) :: vs)
end

/-- Field names are Python names: not empty and without a dot. -/
def PlainNames (cd : ClassDef) : Prop := ∀ f ∈ cd.fields, f.name ≠ "" ∧ '.' ∉ f.name.toList

/-- the field is declared as a list or as a dict -/
def HoldsContainer (cd : ClassDef) (n : String) : Prop :=
  ∃ f, cd.field? n = some f ∧ (f.ftype = .list ∨ f.ftype = .dict)

/-- `i` is in no value that a field had before it was assigned another. -/
def Free (s : NState) (i : Nat) : Prop := ∀ n x, (n, Prev.kept x) ∈ s.prev → ¬ Under s.boxes x i

/-- the values a dict operation puts in -/
def DOp.adds {α : Type} (d : List (String × α)) : DOp α → List α
  | .setdefault2 k v => if (dictGet d k).isNone then [v] else []
  | .setItem _ v => [v]
  | .update a kw => (a.pairs ++ kw).map Prod.snd
  | .ior a => a.pairs.map Prod.snd
  | _ => []

/-- What the program does: it assigns lists and dicts to fields declared so; it calls
methods of containers it got from the fields, passing plain collections and putting no list
or dict in (which does not return). -/
def NOp.Ok (cd : ClassDef) (s : NState) : NOp → Prop
  | .set n v => (cd.field? n).isSome ∧ ((Slot.leaf v).isContainer = true → HoldsContainer cd n)
  | .lst i op => i < s.next ∧ op.Plain ∧ ∀ xs, (s.boxes i).items = .list xs →
      ∀ x ∈ added (ownedOp (fun a b => pyEq (s.read a) (s.read b)) op xs).log, x.isContainer = false
  | .dct i op => i < s.next ∧ op.NoIter ∧ op.Explicit ∧ ∀ d, (s.boxes i).items = .dict d →
      ∀ x ∈ op.adds d, x.isContainer = false

/-- no method of a container in a value that was replaced -/
def NOp.Live (s : NState) : NOp → Prop
  | .set _ _ => True
  | .lst i _ => Free s i
  | .dct i _ => Free s i

/-- a history of such operations; an exception is caught and the program goes on -/
inductive NHist (cd : ClassDef) : NState → NState → Prop where
  | start (s : NState) : NHist cd s s
  | step {s t : NState} (op : NOp) : NHist cd s t → op.Ok cd t → op.Live t → NHist cd s (op.run cd t).2

/-- What holds of an object that was just loaded, and always: containers are nested, know
the field they are in, and that field is declared as list or dict. -/
structure NWf (cd : ClassDef) (s : NState) : Prop where
  down : ∀ i < s.next, ∀ j, Slot.box j ∈ (s.boxes i).items.slots → j < i
  path : ∀ i < s.next, ∀ j, Slot.box j ∈ (s.boxes i).items.slots →
    initialKeypath (s.boxes j).path = initialKeypath (s.boxes i).path
  typed : ∀ i < s.next, HoldsContainer cd (initialKeypath (s.boxes i).path)
  fld : ∀ n i, s.fields n = .box i → i < s.next ∧ initialKeypath (s.boxes i).path = n
  kept : ∀ n i, (n, Prev.kept (.box i)) ∈ s.prev → i < s.next

/-! ### reading -/

/-- below a bound -/
def Slot.below (N : Nat) (x : Slot) : Prop := ∀ i, x = .box i → i < N

def Down (b : Nat → Box) (N : Nat) : Prop := ∀ i < N, ∀ j, Slot.box j ∈ (b i).items.slots → j < i

theorem Items.mem_slots_list {b : Nat → Box} {i : Nat} {xs : List Slot} (h : (b i).items = .list xs) {x : Slot} (hx : x ∈ xs) :
    x ∈ (b i).items.slots := by rw [h]; exact hx

theorem Items.mem_slots_dict {b : Nat → Box} {i : Nat} {kvs : List (String × Slot)} (h : (b i).items = .dict kvs) {kv : String × Slot}
    (hx : kv ∈ kvs) : kv.2 ∈ (b i).items.slots := by rw [h]; exact List.mem_map_of_mem hx

theorem readSlot_leaf (b : Nat → Box) (n : Nat) (v : Val) : readSlot b n (.leaf v) = v := by cases n <;> rfl

theorem readSlot_congr {b b' : Nat → Box} : ∀ (n : Nat) (x : Slot), (∀ i, Under b x i → (b i).items = (b' i).items) →
    readSlot b n x = readSlot b' n x
  | n, .leaf v, _ => by rw [readSlot_leaf, readSlot_leaf]
  | 0, .box i, _ => rfl
  | n + 1, .box i, h => by
    have hi := h i (.here i)
    simp only [readSlot]
    rw [← hi]
    cases hb : (b i).items with
    | list xs =>
      simp only
      congr 1
      exact List.map_congr_left (fun x hx => readSlot_congr n x (fun j hj => h j (.step (Items.mem_slots_list hb hx) hj)))
    | dict kvs =>
      simp only
      congr 1
      exact List.map_congr_left (fun kv hx => by
        rw [readSlot_congr n kv.2 (fun j hj => h j (.step (Items.mem_slots_dict hb hx) hj))])

theorem readSlot_fuel {b : Nat → Box} {N : Nat} (hd : Down b N) : ∀ (n m : Nat) (x : Slot), x.below N → x.below n → x.below m →
    readSlot b n x = readSlot b m x
  | n, m, .leaf v, _, _, _ => by rw [readSlot_leaf, readSlot_leaf]
  | 0, _, .box i, _, h, _ => absurd (h i rfl) (by omega)
  | _ + 1, 0, .box i, _, _, h => absurd (h i rfl) (by omega)
  | n + 1, m + 1, .box i, hN, hn, hm => by
    have hi := hN i rfl
    have h1 := hn i rfl
    have h2 := hm i rfl
    have hc : ∀ x ∈ (b i).items.slots, readSlot b n x = readSlot b m x := by
      intro x hx
      refine readSlot_fuel hd n m x ?_ ?_ ?_ <;>
      · rintro j rfl
        have := hd i hi j hx
        omega
    simp only [readSlot]
    cases hb : (b i).items with
    | list xs =>
      simp only
      congr 1
      exact List.map_congr_left (fun x hx => hc x (Items.mem_slots_list hb hx))
    | dict kvs =>
      simp only
      congr 1
      exact List.map_congr_left (fun kv hx => by rw [hc kv.2 (Items.mem_slots_dict hb hx)])

theorem under_below {b : Nat → Box} {N : Nat} (hd : Down b N) {x : Slot} {i : Nat} (h : Under b x i) : x.below N → i < N := by
  induction h with
  | here i => exact fun hx => hx i rfl
  | @step i j x hx _ ih =>
    intro hi
    refine ih ?_
    rintro k rfl
    exact Nat.lt_trans (hd i (hi i rfl) k hx) (hi i rfl)

/-- what is seen is determined and is what the model reads -/
theorem shows_read {b : Nat → Box} {N : Nat} (hd : Down b N) : ∀ (n : Nat) (x : Slot), x.below N → x.below n → Shows b x (readSlot b n x)
  | n, .leaf v, _, _ => by rw [readSlot_leaf]; exact .leaf v
  | 0, .box i, _, h => absurd (h i rfl) (by omega)
  | n + 1, .box i, hN, hn => by
    have hi := hN i rfl
    have h1 := hn i rfl
    have hc : ∀ x ∈ (b i).items.slots, Shows b x (readSlot b n x) := by
      intro x hx
      refine shows_read hd n x ?_ ?_ <;>
      · rintro j rfl
        have := hd i hi j hx
        omega
    simp only [readSlot]
    cases hb : (b i).items with
    | list xs =>
      refine .list hb ?_
      have hc' : ∀ x ∈ xs, Shows b x (readSlot b n x) := fun x hx => hc x (Items.mem_slots_list hb hx)
      clear hb hc
      induction xs with
      | nil => exact .nil
      | cons x xs ih => exact .cons (hc' x (by simp)) (ih (fun y hy => hc' y (by simp [hy])))
    | dict kvs =>
      refine .dict hb ?_
      have hc' : ∀ kv ∈ kvs, Shows b kv.2 (readSlot b n kv.2) := fun kv hx => hc kv.2 (Items.mem_slots_dict hb hx)
      clear hb hc
      induction kvs with
      | nil => exact .nil
      | cons kv kvs ih => exact .cons (hc' kv (by simp)) (ih (fun y hy => hc' y (by simp [hy])))

mutual
theorem Shows.unique {b : Nat → Box} : ∀ {x : Slot} {v w : Val}, Shows b x v → Shows b x w → v = w
  | _, _, _, .leaf v, .leaf _ => rfl
  | _, _, _, .list h1 a1, .list h2 a2 => by
    rw [h1] at h2
    cases h2
    rw [ShowsAll.unique a1 a2]
  | _, _, _, .dict h1 a1, .dict h2 a2 => by
    rw [h1] at h2
    cases h2
    rw [ShowsEach.unique a1 a2]
  | _, _, _, .list h1 _, .dict h2 _ => by rw [h1] at h2; cases h2
  | _, _, _, .dict h1 _, .list h2 _ => by rw [h1] at h2; cases h2
theorem ShowsAll.unique {b : Nat → Box} : ∀ {x : List Slot} {v w : List Val}, ShowsAll b x v → ShowsAll b x w → v = w
  | _, _, _, .nil, .nil => rfl
  | _, _, _, .cons a1 r1, .cons a2 r2 => by rw [Shows.unique a1 a2, ShowsAll.unique r1 r2]
theorem ShowsEach.unique {b : Nat → Box} : ∀ {x : List (String × Slot)} {v w : List (String × Val)}, ShowsEach b x v → ShowsEach b x w → v = w
  | _, _, _, .nil, .nil => rfl
  | _, _, _, .cons a1 r1, .cons a2 r2 => by rw [Shows.unique a1 a2, ShowsEach.unique r1 r2]
end

theorem shows_iff {s : NState} (hd : Down s.boxes s.next) {x : Slot} (hx : x.below s.next) (v : Val) :
    Shows s.boxes x v ↔ s.read x = v :=
  ⟨fun h => (shows_read hd s.next x hx hx).unique h, fun h => h ▸ shows_read hd s.next x hx hx⟩

/-! ### making containers -/

theorem concat_two (p : String) (k : Key) (hp : p ≠ "") :
    concatKeypath [.s p, k] = p ∨ concatKeypath [.s p, k] = String.ofList (p.toList ++ '.' :: k.str.toList) := by
  have h0 : concatKeypath [.s p, k] = dotJoin ([p, k.str].filter (fun s => s.toList.length > 0)) := rfl
  have hp' : p.toList.length > 0 := List.length_pos_iff.2 (fun e => hp (String.toList_eq_nil_iff.1 e))
  rw [h0]
  generalize k.str = w
  rw [List.filter_cons_of_pos (by simpa using hp')]
  by_cases hk : w.toList.length > 0
  · right
    rw [List.filter_cons_of_pos (by simpa using hk)]
    simp [dotJoin, joinL]
  · left
    rw [List.filter_cons_of_neg (by simpa using hk)]
    exact String.ofList_toList

theorem split_head (q l : List Char) : (splitP (· == '.') (q ++ '.' :: l)).headD [] = (splitP (· == '.') q).headD [] := by
  induction q with
  | nil => rfl
  | cons c cs ih =>
    simp only [List.cons_append, splitP]
    split
    · rfl
    · cases h1 : splitP (· == '.') cs with
      | nil => exact absurd h1 (splitP_ne_nil _ _)
      | cons a as =>
        cases h2 : splitP (· == '.') (cs ++ '.' :: l) with
        | nil => exact absurd h2 (splitP_ne_nil _ _)
        | cons b bs =>
          rw [h1, h2] at ih
          simp only [List.headD_cons] at ih ⊢
          rw [ih]

theorem initial_head (s : String) : initialKeypath s = String.ofList ((splitP (· == '.') s.toList).headD []) := by
  unfold initialKeypath dotSplit
  cases splitP (· == '.') s.toList <;> rfl

theorem initial_snoc (p : String) (k : Key) (hp : p ≠ "") : initialKeypath (concatKeypath [.s p, k]) = initialKeypath p := by
  rcases concat_two p k hp with h | h
  · rw [h]
  · rw [h, initial_head, initial_head, String.toList_ofList, split_head]

theorem concat_ne (p : String) (k : Key) (hp : p ≠ "") : concatKeypath [.s p, k] ≠ "" := by
  rcases concat_two p k hp with h | h
  · rw [h]; exact hp
  · rw [h]
    intro e
    have := congrArg String.toList e
    rw [String.toList_ofList] at this
    exact hp (String.toList_eq_nil_iff.1 (List.append_eq_nil_iff.1 this).1)

/-- more containers, belonging to field `P` -/
structure Grown (P : String) (s s' : NState) : Prop where
  le : s.next ≤ s'.next
  old : ∀ i < s.next, s'.boxes i = s.boxes i
  new : ∀ i, s.next ≤ i → i < s'.next → initialKeypath (s'.boxes i).path = P ∧
    ∀ j, Slot.box j ∈ (s'.boxes i).items.slots → s.next ≤ j ∧ j < i
  rest : s' = { s with boxes := s'.boxes, next := s'.next }

theorem Grown.refl (P : String) (s : NState) : Grown P s s :=
  ⟨Nat.le_refl _, fun _ _ => rfl, fun i h1 h2 => by omega, rfl⟩

theorem Grown.trans {P : String} {s t u : NState} (h1 : Grown P s t) (h2 : Grown P t u) : Grown P s u := by
  refine ⟨Nat.le_trans h1.le h2.le, fun i hi => ?_, fun i hi hu => ?_, ?_⟩
  · rw [h2.old i (Nat.lt_of_lt_of_le hi h1.le), h1.old i hi]
  · by_cases ht : i < t.next
    · rw [h2.old i ht]; exact h1.new i hi ht
    · have h := h2.new i (by omega) hu
      exact ⟨h.1, fun j hj => ⟨Nat.le_trans h1.le (h.2 j hj).1, (h.2 j hj).2⟩⟩
  · rw [h2.rest, h1.rest]

theorem Grown.down {P : String} {s t : NState} (h : Grown P s t) (hd : Down s.boxes s.next) : Down t.boxes t.next := by
  intro i hi j hj
  by_cases hs : i < s.next
  · rw [h.old i hs] at hj; exact hd i hs j hj
  · exact ((h.new i (by omega) hi).2 j hj).2

theorem Slot.below.mono {N M : Nat} {x : Slot} (h : x.below N) (hl : N ≤ M) : x.below M := fun i e => Nat.lt_of_lt_of_le (h i e) hl

theorem Grown.read {P : String} {s t : NState} (h : Grown P s t) (hd : Down s.boxes s.next) {x : Slot} (hx : x.below s.next) :
    t.read x = s.read x := by
  unfold NState.read
  rw [← readSlot_congr (b := s.boxes) (b' := t.boxes) t.next x (fun i hi => by rw [h.old i (under_below hd hi hx)])]
  exact readSlot_fuel hd _ _ x hx (hx.mono h.le) hx

/-- made since `s` -/
def Slot.made (s t : NState) (x : Slot) : Prop := ∀ i, x = .box i → s.next ≤ i ∧ i < t.next

theorem alloc_grown {P path : String} (hp : initialKeypath path = P) {s t : NState} (h : Grown P s t) {it : Items}
    (hi : ∀ x ∈ it.slots, x.made s t) : Grown P s (t.alloc ⟨it, path⟩).2 := by
  have hl := h.le
  refine ⟨by simp only [NState.alloc]; omega, fun i hs => ?_, fun i hs hu => ?_, ?_⟩
  · simp only [NState.alloc]
    rw [if_neg (by omega), h.old i hs]
  · simp only [NState.alloc] at hu ⊢
    by_cases he : i = t.next
    · rw [if_pos he]
      refine ⟨hp, fun j hj => ?_⟩
      have := hi _ hj j rfl
      omega
    · rw [if_neg he]
      exact h.new i hs (by omega)
  · rw [h.rest]; rfl

theorem alloc_made {s t : NState} (h : s.next ≤ t.next) (b : Box) : (t.alloc b).1.made s (t.alloc b).2 := by
  rintro i e
  cases e
  simp only [NState.alloc]
  omega

theorem made_below {s t : NState} {x : Slot} (h : x.made s t) : x.below t.next := fun i e => (h i e).2

theorem alloc_read {t : NState} (hd : Down t.boxes t.next) {it : Items} {path : String} (hi : ∀ x ∈ it.slots, x.below t.next) :
    (t.alloc ⟨it, path⟩).2.read (t.alloc ⟨it, path⟩).1 = match it with
      | .list xs => .list (xs.map t.read)
      | .dict kvs => .dict (kvs.map (fun kv => (kv.1, t.read kv.2))) := by
  have hc : ∀ x ∈ it.slots, readSlot (fun j => if j = t.next then (⟨it, path⟩ : Box) else t.boxes j) t.next x = t.read x := by
    intro x hx
    refine (readSlot_congr _ x (fun i h => ?_)).symm
    have := under_below hd h (hi x hx)
    rw [if_neg (by omega)]
  simp only [NState.read, NState.alloc, readSlot, if_true]
  cases it with
  | list xs =>
    simp only
    congr 1
    exact List.map_congr_left (fun x hx => hc x hx)
  | dict kvs =>
    simp only
    congr 1
    exact List.map_congr_left (fun kv hx => by rw [hc kv.2 (List.mem_map_of_mem hx)]; rfl)

theorem Slot.made.mono {s s' t t' : NState} {x : Slot} (h : x.made s t) (h1 : s'.next ≤ s.next) (h2 : t.next ≤ t'.next) : x.made s' t' :=
  fun i e => ⟨Nat.le_trans h1 (h i e).1, Nat.lt_of_lt_of_le (h i e).2 h2⟩

theorem leaf_ok (P : String) (s : NState) (v : Val) :
    Grown P s s ∧ (Slot.leaf v).made s s ∧ s.read (.leaf v) = v :=
  ⟨.refl _ _, (fun _ e => by cases e), readSlot_leaf _ _ _⟩

mutual
theorem ownVal_ok {P : String} : ∀ (v : Val) (path : String) (s : NState), path ≠ "" → initialKeypath path = P → Down s.boxes s.next →
    Grown P s (ownVal path v s).2 ∧ (ownVal path v s).1.made s (ownVal path v s).2 ∧
      (ownVal path v s).2.read (ownVal path v s).1 = v
  | .list vs, path, s, hn, hp, hd => by
    obtain ⟨h1, h2, h3⟩ := ownItems_ok vs path 0 s hn hp hd
    have h2' : ∀ x ∈ (Items.list (ownItems path 0 vs s).1).slots, x.made s (ownItems path 0 vs s).2 := h2
    rw [ownVal]
    refine ⟨alloc_grown hp h1 h2', alloc_made h1.le _, ?_⟩
    rw [alloc_read (h1.down hd) (fun x hx => made_below (h2' x hx))]
    simp only [h3]
  | .dict kvs, path, s, hn, hp, hd => by
    obtain ⟨h1, h2, h3⟩ := ownEntries_ok kvs path s hn hp hd
    have h2' : ∀ x ∈ (Items.dict (ownEntries path kvs s).1).slots, x.made s (ownEntries path kvs s).2 := h2
    rw [ownVal]
    refine ⟨alloc_grown hp h1 h2', alloc_made h1.le _, ?_⟩
    rw [alloc_read (h1.down hd) (fun x hx => made_below (h2' x hx))]
    simp only [h3]
  | .none, path, s, _, _, _ => by simp only [ownVal]; exact leaf_ok _ _ _
  | .bool _, path, s, _, _, _ => by simp only [ownVal]; exact leaf_ok _ _ _
  | .int _, path, s, _, _, _ => by simp only [ownVal]; exact leaf_ok _ _ _
  | .flt _, path, s, _, _, _ => by simp only [ownVal]; exact leaf_ok _ _ _
  | .str _, path, s, _, _, _ => by simp only [ownVal]; exact leaf_ok _ _ _
  | .date _, path, s, _, _, _ => by simp only [ownVal]; exact leaf_ok _ _ _
  | .dt _, path, s, _, _, _ => by simp only [ownVal]; exact leaf_ok _ _ _
  | .enum _ _, path, s, _, _, _ => by simp only [ownVal]; exact leaf_ok _ _ _
  | .obj _, path, s, _, _, _ => by simp only [ownVal]; exact leaf_ok _ _ _
  | .other _, path, s, _, _, _ => by simp only [ownVal]; exact leaf_ok _ _ _
theorem ownItems_ok {P : String} : ∀ (vs : List Val) (path : String) (k : Nat) (s : NState), path ≠ "" → initialKeypath path = P →
    Down s.boxes s.next → Grown P s (ownItems path k vs s).2 ∧ (∀ x ∈ (ownItems path k vs s).1, x.made s (ownItems path k vs s).2) ∧
      (ownItems path k vs s).1.map (ownItems path k vs s).2.read = vs
  | [], path, k, s, _, _, _ => by simp only [ownItems]; exact ⟨.refl _ _, fun _ h => absurd h (List.not_mem_nil), rfl⟩
  | v :: vs, path, k, s, hn, hp, hd => by
    obtain ⟨a1, a2, a3⟩ := ownVal_ok v (concatKeypath [.s path, .i k]) s (concat_ne _ _ hn) ((initial_snoc _ _ hn).trans hp) hd
    obtain ⟨b1, b2, b3⟩ := ownItems_ok vs path (k + 1) (ownVal (concatKeypath [.s path, .i k]) v s).2 hn hp (a1.down hd)
    simp only [ownItems]
    refine ⟨a1.trans b1, ?_, ?_⟩
    · intro x hx
      rcases List.mem_cons.1 hx with rfl | hx
      · exact a2.mono (Nat.le_refl _) b1.le
      · exact (b2 x hx).mono a1.le (Nat.le_refl _)
    · rw [List.map_cons, b3, b1.read (a1.down hd) (made_below a2), a3]
theorem ownEntries_ok {P : String} : ∀ (kvs : List (String × Val)) (path : String) (s : NState), path ≠ "" → initialKeypath path = P →
    Down s.boxes s.next → Grown P s (ownEntries path kvs s).2 ∧
      (∀ x ∈ (ownEntries path kvs s).1.map Prod.snd, x.made s (ownEntries path kvs s).2) ∧
      (ownEntries path kvs s).1.map (fun kv => (kv.1, (ownEntries path kvs s).2.read kv.2)) = kvs
  | [], path, s, _, _, _ => by simp only [ownEntries]; exact ⟨.refl _ _, fun _ h => absurd h (List.not_mem_nil), rfl⟩
  | (k, v) :: kvs, path, s, hn, hp, hd => by
    obtain ⟨a1, a2, a3⟩ := ownVal_ok v (concatKeypath [.s path, .s k]) s (concat_ne _ _ hn) ((initial_snoc _ _ hn).trans hp) hd
    obtain ⟨b1, b2, b3⟩ := ownEntries_ok kvs path (ownVal (concatKeypath [.s path, .s k]) v s).2 hn hp (a1.down hd)
    simp only [ownEntries]
    refine ⟨a1.trans b1, ?_, ?_⟩
    · intro x hx
      rcases List.mem_cons.1 hx with rfl | hx
      · exact a2.mono (Nat.le_refl _) b1.le
      · exact (b2 x hx).mono a1.le (Nat.le_refl _)
    · rw [List.map_cons, b3, b1.read (a1.down hd) (made_below a2), a3]
end

/-! ### one method call -/

theorem mark_mark (s : NState) (p : String) : (s.mark p).mark p = s.mark p := by
  unfold NState.mark
  by_cases h : s.isNew = true
  · simp only [h, if_true]
  · simp only [h, if_false, Bool.false_eq_true]
    congr 1
    unfold setAdd
    by_cases hp : p ∈ s.modFields
    · rw [if_pos hp, if_pos hp]
    · rw [if_neg hp, if_pos (by simp)]

theorem get_snoc_self {α : Type} (d : List (String × α)) (n : String) (p : α) : (dictGet (d ++ [(n, p)]) n).isNone = false := by
  rw [dictGet_append]
  cases dictGet d n <;> simp [dictGet]

theorem remember_some (s : NState) (n : String) (p q : Prev) : (s.remember n p).remember n q = s.remember n p := by
  unfold NState.remember
  by_cases h : (dictGet s.prev n).isNone = true
  · simp only [h, if_true]
    rw [if_neg (by rw [get_snoc_self]; simp)]
  · simp only [h, if_false, Bool.false_eq_true]

theorem nEach_marks {ε : Type} {f : ε → Py NState Unit} {p : String} : ∀ {l : List ε}, (∀ e ∈ l, ∀ t, f e t = (.ok (), t.mark p)) →
    ∀ s, nEach f l s = (.ok (), if l.isEmpty then s else s.mark p)
  | [], _, s => rfl
  | e :: l, h, s => by
    rw [nEach, bind_ok_run (h e (by simp) s), nEach_marks (fun e' he => h e' (by simp [he]))]
    cases l with
    | nil => rfl
    | cons a l => simp [mark_mark]
where
  bind_ok_run {σ α β : Type} {m : Py σ α} {f : α → Py σ β} {s s' : σ} {a : α} (h : m s = (.ok a, s')) : (m >>= f) s = f a s' := by
    rw [Py.bind_run, h]

/-- does the class keep earlier values of the field -/
def recs (cd : ClassDef) (n : String) : Bool := match cd.field? n with
  | some f => recordsPrev cd f
  | none => false

theorem recs_all {cd : ClassDef} (hr : cd.resetAllFields = true) {n : String} (hn : (cd.field? n).isSome) : recs cd n = true := by
  obtain ⟨f, hf⟩ := Option.isSome_iff_exists.1 hn
  simp [recs, hf, recordsPrev, hr]

/-- the field's value is recorded, unless there is one -/
def NState.noted (t : NState) (R : Bool) (n : String) : NState :=
  if R then t.remember n (.copy (t.read (t.fields n))) else t

theorem nEach_wills {ε : Type} {f : ε → Py NState Unit} {n : String} {R : Bool} : ∀ {l : List ε},
    (∀ e ∈ l, ∀ t, f e t = (.ok (), t.noted R n)) →
    ∀ s, nEach f l s = (.ok (), s.noted (R && !l.isEmpty) n)
  | [], _, s => by simp [NState.noted, nEach]
  | e :: l, h, s => by
    rw [nEach, nEach_marks.bind_ok_run (h e (by simp) s), nEach_wills (fun e' he => h e' (by simp [he]))]
    cases R <;> cases l <;> simp [NState.noted, remember_some]

/-- the state after a method of container `i` that leaves `it` in it, announcing a change or
not, and reporting changes or not -/
def NState.after (s : NState) (i : Nat) (it : Items) (W E : Bool) : NState :=
  let nm := initialKeypath (s.boxes i).path
  let s1 := s.noted W nm
  let s2 := s1.put i it
  if E then s2.mark (s.boxes i).path else s2

theorem nWill_typed {cd : ClassDef} {path : String} (ht : HoldsContainer cd (initialKeypath path))
    (b : Bool) (t : NState) :
    nWill cd b path t = (.ok (), t.noted (recs cd (initialKeypath path)) (initialKeypath path)) := by
  obtain ⟨f, hf, ht⟩ := ht
  unfold nWill
  rw [hf]
  have : (recordsPrev cd f && (decide (f.ftype = .dict) || decide (f.ftype = .list))) = recs cd (initialKeypath path) := by
    simp only [recs, hf]
    rcases ht with h | h <;> rw [h] <;> simp
  simp only [this, NState.noted]
  split <;> rfl

/-- how a call ends -/
def outcome : Option Exc → Except Exc Unit
  | some e => .error e
  | none => .ok ()

theorem step_after {ε : Type} {f : ε → Py NState Unit} {w : ε → Bool} {log : List ε} {s : NState} {i : Nat} {it : Items}
    {exc : Option Exc} {R : Bool}
    (h1 : ∀ e ∈ log, w e = true → ∀ t, f e t = (.ok (), t.noted R (initialKeypath (s.boxes i).path)))
    (h2 : ∀ e ∈ log, w e = false → ∀ t, f e t = (.ok (), t.mark (s.boxes i).path)) :
    (do nEach f (log.filter w)
        Py.modify (fun s => s.put i it)
        nEach f (log.filter (fun e => !w e))
        nRaise exc : Py NState Unit) s =
      (outcome exc,
        s.after i it (R && !(log.filter w).isEmpty) (!(log.filter (fun e => !w e)).isEmpty)) := by
  rw [nEach_marks.bind_ok_run (nEach_wills (f := f) (n := initialKeypath (s.boxes i).path)
    (fun e he t => h1 e (List.mem_filter.1 he).1 (List.mem_filter.1 he).2 t) s)]
  rw [nEach_marks.bind_ok_run (Py.modify_run _ _)]
  rw [nEach_marks.bind_ok_run (nEach_marks (f := f) (p := (s.boxes i).path)
    (fun e he t => h2 e (List.mem_filter.1 he).1 (by simpa using (List.mem_filter.1 he).2) t) _)]
  simp only [NState.after]
  cases exc <;> cases (log.filter (fun e => !w e)).isEmpty <;> rfl

/-- A list method that adds no list or dict. -/
theorem nListOp_eq {cd : ClassDef} {s : NState} {i : Nat} {op : LOp Slot} {xs : List Slot}
    (ht : HoldsContainer cd (initialKeypath (s.boxes i).path)) (hx : (s.boxes i).items = .list xs)
    (ha : ∀ x ∈ added (ownedOp (fun a b => pyEq (s.read a) (s.read b)) op xs).log, x.isContainer = false) :
    nListOp cd i op s =
      (outcome (ownedOp (fun a b => pyEq (s.read a) (s.read b)) op xs).exc,
        s.after i (.list (ownedOp (fun a b => pyEq (s.read a) (s.read b)) op xs).items)
          (recs cd (initialKeypath (s.boxes i).path) &&
            !((ownedOp (fun a b => pyEq (s.read a) (s.read b)) op xs).log.filter LEv.isWill).isEmpty)
          (!((ownedOp (fun a b => pyEq (s.read a) (s.read b)) op xs).log.filter (fun e => !e.isWill)).isEmpty)) := by
  unfold nListOp
  rw [hx]
  dsimp only
  generalize ownedOp (fun a b => pyEq (s.read a) (s.read b)) op xs = r at *
  refine step_after ?_ ?_
  · intro e _ hw t
    cases e <;> first | exact nWill_typed ht _ t | (simp [LEv.isWill] at hw)
  · intro e he hw t
    cases e with
    | will => simp [LEv.isWill] at hw
    | add k x =>
      have : x.isContainer = false := ha x (List.mem_filterMap.2 ⟨_, he, rfl⟩)
      simp only [nLEv, nAdd, this, Bool.false_eq_true, if_false]
    | del x => rfl
    | sor => rfl

/-- A dict method that puts no list or dict in. -/
theorem nDictOp_eq {cd : ClassDef} {s : NState} {i : Nat} {op : DOp Slot} {d : List (String × Slot)}
    (ht : HoldsContainer cd (initialKeypath (s.boxes i).path)) (hx : (s.boxes i).items = .dict d)
    (ha : ∀ x ∈ dAdded (ownedDOp (Slot.leaf .none) op d).log, x.isContainer = false) :
    nDictOp cd i op s =
      (outcome (ownedDOp (Slot.leaf .none) op d).exc,
        s.after i (.dict (ownedDOp (Slot.leaf .none) op d).items)
          (recs cd (initialKeypath (s.boxes i).path) && !((ownedDOp (Slot.leaf .none) op d).log.filter DEv.isWill).isEmpty)
          (!((ownedDOp (Slot.leaf .none) op d).log.filter (fun e => !e.isWill)).isEmpty)) := by
  unfold nDictOp
  rw [hx]
  dsimp only
  generalize ownedDOp (Slot.leaf .none) op d = r at *
  refine step_after ?_ ?_
  · intro e _ hw t
    cases e <;> first | exact nWill_typed ht _ t | (simp [DEv.isWill] at hw)
  · intro e he hw t
    cases e with
    | will => simp [DEv.isWill] at hw
    | add k x =>
      have : x.isContainer = false := ha x (List.mem_filterMap.2 ⟨_, he, rfl⟩)
      simp only [nDEv, nAdd, this, Bool.false_eq_true, if_false]
    | del x => rfl

theorem after_boxes (s : NState) (i : Nat) (it : Items) (W E : Bool) (j : Nat) :
    (s.after i it W E).boxes j = if j = i then { s.boxes i with items := it } else s.boxes j := by
  have h1 : ∀ n p, (s.remember n p).boxes = s.boxes := by intro n p; unfold NState.remember; split <;> rfl
  have h2 : ∀ (t : NState) p, (t.mark p).boxes = t.boxes := by intro t p; unfold NState.mark; split <;> rfl
  cases W <;> cases E <;> simp [NState.after, NState.noted, NState.put, h1, h2]

theorem after_next (s : NState) (i : Nat) (it : Items) (W E : Bool) : (s.after i it W E).next = s.next := by
  have h1 : ∀ n p, (s.remember n p).next = s.next := by intro n p; unfold NState.remember; split <;> rfl
  have h2 : ∀ (t : NState) p, (t.mark p).next = t.next := by intro t p; unfold NState.mark; split <;> rfl
  cases W <;> cases E <;> simp [NState.after, NState.noted, NState.put, h1, h2]

theorem after_fields (s : NState) (i : Nat) (it : Items) (W E : Bool) : (s.after i it W E).fields = s.fields := by
  have h1 : ∀ n p, (s.remember n p).fields = s.fields := by intro n p; unfold NState.remember; split <;> rfl
  have h2 : ∀ (t : NState) p, (t.mark p).fields = t.fields := by intro t p; unfold NState.mark; split <;> rfl
  cases W <;> cases E <;> simp [NState.after, NState.noted, NState.put, h1, h2]

theorem after_isNew (s : NState) (i : Nat) (it : Items) (W E : Bool) : (s.after i it W E).isNew = s.isNew := by
  have h1 : ∀ n p, (s.remember n p).isNew = s.isNew := by intro n p; unfold NState.remember; split <;> rfl
  have h2 : ∀ (t : NState) p, (t.mark p).isNew = t.isNew := by intro t p; unfold NState.mark; split <;> rfl
  cases W <;> cases E <;> simp [NState.after, NState.noted, NState.put, h1, h2]

theorem after_prev (s : NState) (i : Nat) (it : Items) (W E : Bool) : (s.after i it W E).prev =
    if W then (s.remember (initialKeypath (s.boxes i).path) (.copy (s.read (s.fields (initialKeypath (s.boxes i).path))))).prev
    else s.prev := by
  have h2 : ∀ (t : NState) p, (t.mark p).prev = t.prev := by intro t p; unfold NState.mark; split <;> rfl
  cases W <;> cases E <;> simp [NState.after, NState.noted, NState.put, h2]

theorem after_isModified (s : NState) (i : Nat) (it : Items) (W E : Bool) (hn : s.isNew = false) :
    (s.after i it W E).isModified = (E || s.isModified) := by
  have h1 : ∀ n p, (s.remember n p).isModified = s.isModified := by intro n p; unfold NState.remember; split <;> rfl
  have h2 : ∀ n p, (s.remember n p).isNew = s.isNew := by intro n p; unfold NState.remember; split <;> rfl
  cases W <;> cases E <;> simp [NState.after, NState.noted, NState.put, NState.mark, h1, h2, hn]

theorem after_modFields (s : NState) (i : Nat) (it : Items) (W E : Bool) (hn : s.isNew = false) :
    (s.after i it W E).modFields = if E then setAdd (s.boxes i).path s.modFields else s.modFields := by
  have h1 : ∀ n p, (s.remember n p).modFields = s.modFields := by intro n p; unfold NState.remember; split <;> rfl
  have h2 : ∀ n p, (s.remember n p).isNew = s.isNew := by intro n p; unfold NState.remember; split <;> rfl
  cases W <;> cases E <;> simp [NState.after, NState.noted, NState.put, NState.mark, h1, h2, hn]

theorem mem_remember {s : NState} {n : String} {p : Prev} {e : String × Prev} (h : e ∈ (s.remember n p).prev) : e ∈ s.prev ∨ e = (n, p) := by
  unfold NState.remember at h
  split at h
  · simpa using h
  · exact .inl h

theorem mem_after_kept {s : NState} {i : Nat} {it : Items} {W E : Bool} {n : String} {x : Slot}
    (h : (n, Prev.kept x) ∈ (s.after i it W E).prev) : (n, Prev.kept x) ∈ s.prev := by
  rw [after_prev] at h
  cases W with
  | false => exact h
  | true =>
    rcases mem_remember h with h | h
    · exact h
    · cases h

theorem NWf.after {cd : ClassDef} {s : NState} (h : NWf cd s) {i : Nat} {it : Items} {W E : Bool}
    (hs : ∀ j, Slot.box j ∈ it.slots → Slot.box j ∈ (s.boxes i).items.slots) : NWf cd (s.after i it W E) := by
  have hb : ∀ k j, Slot.box j ∈ ((s.after i it W E).boxes k).items.slots → Slot.box j ∈ (s.boxes k).items.slots := by
    intro k j hj
    rw [after_boxes] at hj
    split at hj
    · next e => subst e; exact hs j hj
    · exact hj
  have hp : ∀ k, ((s.after i it W E).boxes k).path = (s.boxes k).path := by
    intro k
    rw [after_boxes]
    split
    · next e => subst e; rfl
    · rfl
  constructor
  · intro k hk j hj
    rw [after_next] at hk
    exact h.down k hk j (hb k j hj)
  · intro k hk j hj
    rw [after_next] at hk
    rw [hp, hp]
    exact h.path k hk j (hb k j hj)
  · intro k hk
    rw [after_next] at hk
    rw [hp]
    exact h.typed k hk
  · intro n k hk
    rw [after_fields] at hk
    rw [after_next, hp]
    exact h.fld n k hk
  · intro n k hk
    rw [after_next]
    exact h.kept n k (mem_after_kept hk)

theorem after_read {s : NState} {i : Nat} {it : Items} {W E : Bool} {x : Slot} (hx : ¬ Under s.boxes x i) :
    (s.after i it W E).read x = s.read x := by
  unfold NState.read
  rw [after_next]
  refine (readSlot_congr _ x (fun j hj => ?_)).symm
  rw [after_boxes, if_neg (show ¬ j = i from fun e => hx (e ▸ hj))]

theorem after_read_same {s : NState} {i : Nat} {it : Items} {W E : Bool} (hi : it = (s.boxes i).items) (x : Slot) :
    (s.after i it W E).read x = s.read x := by
  unfold NState.read
  rw [after_next]
  refine (readSlot_congr _ x (fun j _ => ?_)).symm
  rw [after_boxes]
  split
  · next e => subst e; exact hi.symm
  · rfl

theorem under_path {cd : ClassDef} {s : NState} (h : NWf cd s) {x : Slot} {j : Nat} (hu : Under s.boxes x j) :
    ∀ i, x = .box i → i < s.next → initialKeypath (s.boxes j).path = initialKeypath (s.boxes i).path := by
  induction hu with
  | here i => intro k e _; cases e; rfl
  | @step i j x hx hu ih =>
    intro k e hk
    cases e
    cases x with
    | leaf v => cases hu
    | box m =>
      rw [ih m rfl (Nat.lt_trans (h.down i hk m hx) hk)]
      exact h.path i hk m hx

theorem field_under {cd : ClassDef} {s : NState} (h : NWf cd s) {n : String} {j : Nat} (hu : Under s.boxes (s.fields n) j) :
    initialKeypath (s.boxes j).path = n := by
  cases hf : s.fields n with
  | leaf v => rw [hf] at hu; cases hu
  | box i =>
    rw [hf] at hu
    rw [under_path h hu i rfl (h.fld n i hf).1, (h.fld n i hf).2]

/-- What a history keeps: every declared field is as at the start, or a value from then is
recorded; the recorded values share no container with the fields. -/
structure Recs (cd : ClassDef) (v0 : String → Val) (s : NState) : Prop where
  notNew : s.isNew = false
  distinct : DistinctKeys s.prev
  vals : ∀ n, (cd.field? n).isSome → (dictGet s.prev n = none ∧ s.read (s.fields n) = v0 n) ∨
    (∃ x, dictGet s.prev n = some (.kept x) ∧ s.read x = v0 n) ∨ dictGet s.prev n = some (.copy (v0 n))
  clean : s.prev = [] → s.isModified = false ∧ s.modFields = []
  apart : ∀ n x, (n, Prev.kept x) ∈ s.prev → ∀ m i, Under s.boxes x i → ¬ Under s.boxes (s.fields m) i

theorem get_remember (s : NState) (n m : String) (p : Prev) : dictGet (s.remember n p).prev m =
    if m = n then (dictGet s.prev n).or (some p) else dictGet s.prev m := by
  unfold NState.remember
  by_cases hn : (dictGet s.prev n).isNone = true
  · simp only [hn, if_true]
    rw [dictGet_append]
    have h0 := Option.isNone_iff_eq_none.1 hn
    split
    · next e => subst e; rw [h0]; simp [dictGet]
    · next e =>
      cases dictGet s.prev m with
      | some _ => rfl
      | none => simp [dictGet, Ne.symm e]
  · simp only [hn, if_false, Bool.false_eq_true]
    split
    · next e =>
      subst e
      cases hd : dictGet s.prev m with
      | some _ => rfl
      | none => rw [hd] at hn; exact absurd rfl hn
    · rfl

theorem remember_distinct {s : NState} (h : DistinctKeys s.prev) (n : String) (p : Prev) : DistinctKeys (s.remember n p).prev := by
  unfold NState.remember
  by_cases hn : (dictGet s.prev n).isNone = true
  · simp only [hn, if_true]
    have h0 := Option.isNone_iff_eq_none.1 hn
    unfold DistinctKeys at h ⊢
    rw [List.map_append, List.nodup_append]
    refine ⟨h, by simp, ?_⟩
    intro a ha b hb e
    simp only [List.map_cons, List.map_nil, List.mem_singleton] at hb
    subst hb
    subst e
    obtain ⟨⟨k, q⟩, hm, hk⟩ := List.mem_map.1 ha
    simp only at hk
    subst hk
    rw [(mem_iff_get h k q).1 hm] at h0
    cases h0
  · simp only [hn, if_false, Bool.false_eq_true]
    exact h

theorem mem_of_get {d : List (String × Prev)} {n : String} {p : Prev} (h : dictGet d n = some p) : (n, p) ∈ d := by
  unfold dictGet at h
  cases hf : d.find? (fun kv => kv.1 = n) with
  | none => rw [hf] at h; cases h
  | some kv =>
    rw [hf] at h
    cases h
    have h1 := List.find?_some hf
    have h2 := List.mem_of_find?_eq_some hf
    simp only [decide_eq_true_eq] at h1
    rw [← h1]; exact h2

theorem Recs.after {cd : ClassDef} {v0 : String → Val} {s : NState} (h : Recs cd v0 s) (hw : NWf cd s) {i : Nat} {it : Items} {W E : Bool}
    (hs : ∀ j, Slot.box j ∈ it.slots → Slot.box j ∈ (s.boxes i).items.slots) (hf : Free s i)
    (hW : W = false → it = (s.boxes i).items ∧ E = false) : Recs cd v0 (s.after i it W E) := by
  have hunder : ∀ x j, Under (s.after i it W E).boxes x j → Under s.boxes x j := by
    intro x j hu
    induction hu with
    | here k => exact .here k
    | @step k j x hx hu ih =>
      refine .step ?_ ih
      rw [after_boxes] at hx
      split at hx
      · next e =>
        subst e
        cases x with
        | leaf v => cases hu
        | box m => exact hs m hx
      · exact hx
  have hkeep : ∀ n x, dictGet s.prev n = some (.kept x) → (s.after i it W E).read x = s.read x :=
    fun n x hg => after_read (hf n x (mem_of_get hg))
  refine ⟨by rw [after_isNew]; exact h.notNew, ?_, ?_, ?_, ?_⟩
  · rw [after_prev]
    split
    · exact remember_distinct h.distinct _ _
    · exact h.distinct
  · intro n hn
    rw [after_prev, after_fields]
    rcases h.vals n hn with ⟨h1, h2⟩ | ⟨x, h1, h2⟩ | h1
    · cases W with
      | false =>
        refine .inl ⟨h1, ?_⟩
        rw [after_read_same (hW rfl).1, h2]
      | true =>
        simp only [if_true]
        rw [get_remember]
        by_cases e : n = initialKeypath (s.boxes i).path
        · rw [if_pos e]
          subst e
          right; right
          rw [h1, h2]; rfl
        · rw [if_neg e]
          refine .inl ⟨h1, ?_⟩
          rw [after_read (fun hu => e (field_under hw hu).symm), h2]
    · right; left
      refine ⟨x, ?_, (hkeep n x h1).trans h2⟩
      cases W with
      | false => exact h1
      | true =>
        simp only [if_true]
        rw [get_remember]
        split
        · next e => subst e; rw [h1]; rfl
        · exact h1
    · right; right
      cases W with
      | false => exact h1
      | true =>
        simp only [if_true]
        rw [get_remember]
        split
        · next e => subst e; rw [h1]; rfl
        · exact h1
  · intro hp
    rw [after_prev] at hp
    cases W with
    | true =>
      simp only [if_true] at hp
      have := get_remember s (initialKeypath (s.boxes i).path) (initialKeypath (s.boxes i).path)
        (.copy (s.read (s.fields (initialKeypath (s.boxes i).path))))
      rw [hp, if_pos rfl] at this
      cases hq : dictGet s.prev (initialKeypath (s.boxes i).path) <;> rw [hq] at this <;> cases this
    | false =>
      have he := (hW rfl).2
      subst he
      rw [after_isModified _ _ _ _ _ h.notNew, after_modFields _ _ _ _ _ h.notNew]
      exact h.clean hp
  · intro n x hx m j hu1 hu2
    rw [after_fields] at hu2
    exact h.apart n x (mem_after_kept hx) m j (hunder _ _ hu1) (hunder _ _ hu2)

/-! ### assignment -/

/-- the state between noticing and storing a new value -/
def NState.replaced (s : NState) (R : Bool) (n : String) : NState :=
  if R then (s.mark n).remember n (.kept (s.fields n)) else s.mark n

theorem assign_mid (s : NState) (n : String) (R : Bool) : (s.replaced R n).boxes = s.boxes ∧ (s.replaced R n).next = s.next ∧
    (s.replaced R n).isNew = s.isNew ∧ (s.replaced R n).prev = if R then (s.remember n (.kept (s.fields n))).prev else s.prev := by
  unfold NState.replaced NState.remember NState.mark
  cases R <;> by_cases h1 : s.isNew = true <;> by_cases h2 : (dictGet s.prev n).isNone = true <;> simp [h1, h2]

theorem replaced_flags (s : NState) (n : String) (R : Bool) (hs : s.isNew = false) : (s.replaced R n).isModified = true ∧
    (s.replaced R n).modFields = setAdd n s.modFields := by
  unfold NState.replaced NState.remember NState.mark
  cases R <;> by_cases h2 : (dictGet s.prev n).isNone = true <;> simp [hs, h2]

theorem field?_name {cd : ClassDef} {n : String} {f : Field} (h : cd.field? n = some f) : f ∈ cd.fields ∧ f.name = n :=
  ⟨List.mem_of_find?_eq_some h, by simpa using List.find?_some h⟩

theorem splitP_dotfree (q : List Char) (h : '.' ∉ q) : splitP (· == '.') q = [q] :=
  splitP_noSep _ _ (fun c hc => by
    simp only [beq_eq_false_iff_ne]
    exact fun e => h (e ▸ hc))

theorem field?_path {cd : ClassDef} (hp : PlainNames cd) {n : String} (h : (cd.field? n).isSome) : n ≠ "" ∧ initialKeypath n = n := by
  obtain ⟨f, hf⟩ := Option.isSome_iff_exists.1 h
  obtain ⟨hm, rfl⟩ := field?_name hf
  obtain ⟨h1, h2⟩ := hp f hm
  refine ⟨h1, ?_⟩
  rw [initial_head, splitP_dotfree _ h2]
  exact String.ofList_toList

/-- An assignment that is not skipped. -/
theorem nAssign_eq {cd : ClassDef} (hp : PlainNames cd) {n : String} {v : Val} {s : NState}
    (hn : (cd.field? n).isSome) (hs : s.isNew = false) (hd : Down s.boxes s.next) (he : pyEq v (s.read (s.fields n)) = false) :
    ∃ u x, Grown n (s.replaced (recs cd n) n) u ∧ x.made s u ∧ u.read x = v ∧
      ((Slot.leaf v).isContainer = true ∨ u.next = s.next) ∧
      nAssign cd n v s = { u with fields := fun m => if m = n then x else s.fields m } := by
  obtain ⟨f, hf⟩ := Option.isSome_iff_exists.1 hn
  obtain ⟨m1, m2, m3, m4⟩ := assign_mid s n (recs cd n)
  have hrec : (!s.isNew && recordsPrev cd f) = recs cd n := by simp [hs, recs, hf]
  obtain ⟨g1, g2, g3⟩ := ownVal_ok (P := n) v n (s.replaced (recs cd n) n) (field?_path hp hn).1 (field?_path hp hn).2
    (by rw [m1, m2]; exact hd)
  refine ⟨_, _, g1, ?_, g3, ?_, ?_⟩
  · intro i e
    have := g2 i e
    rw [m2] at this
    exact this
  · cases v <;> first | exact .inl rfl | (right; simp only [ownVal]; exact m2)
  · unfold nAssign
    rw [hf]
    simp only [he, Bool.false_eq_true, if_false, hrec]
    rfl

theorem Grown.under_old {P : String} {s t : NState} (h : Grown P s t) (hd : Down s.boxes s.next) {x : Slot} {i : Nat} (hu : Under t.boxes x i) :
    x.below s.next → Under s.boxes x i := by
  induction hu with
  | here i => exact fun _ => .here i
  | @step i j x hx _ ih =>
    intro hb
    have hi := hb i rfl
    rw [h.old i hi] at hx
    refine .step hx (ih ?_)
    rintro k rfl
    exact Nat.lt_trans (hd i hi k hx) hi

theorem Grown.under_new {P : String} {s t : NState} (h : Grown P s t) {x : Slot} {i : Nat} (hu : Under t.boxes x i) :
    x.made s t → s.next ≤ i := by
  induction hu with
  | here i => exact fun hm => (hm i rfl).1
  | @step i j x hx _ ih =>
    intro hm
    have hi := hm i rfl
    have hc := (h.new i hi.1 hi.2).2
    refine ih ?_
    rintro k rfl
    have := hc k hx
    exact ⟨this.1, by omega⟩

/-- the state after an assignment that is not skipped -/
theorem assigned {cd : ClassDef} {n : String} {s u : NState} {x : Slot}
    (hw : NWf cd s) (hg : Grown n (s.replaced true n) u) (hm : x.made s u)
    (hc : HoldsContainer cd n ∨ u.next = s.next) {v0 : String → Val} (hq : Recs cd v0 s) :
    NWf cd { u with fields := fun m => if m = n then x else s.fields m } ∧
    Recs cd v0 { u with fields := fun m => if m = n then x else s.fields m } := by
  obtain ⟨m1, m2, m3, m4⟩ := assign_mid s n true
  have hle : s.next ≤ u.next := by have := hg.le; rw [m2] at this; exact this
  have hold : ∀ i < s.next, u.boxes i = s.boxes i := by
    intro i hi
    have := hg.old i (by rw [m2]; exact hi)
    rw [m1] at this
    exact this
  have hnew := hg.new
  rw [m2] at hnew
  have hdm : Down (s.replaced true n).boxes (s.replaced true n).next := by
    rw [m1, m2]; exact hw.down
  have hprev : u.prev = (s.remember n (.kept (s.fields n))).prev := by rw [hg.rest]; exact m4
  have hread : ∀ y : Slot, y.below s.next → u.read y = s.read y := by
    intro y hy
    have := hg.read hdm (x := y) (by rw [m2]; exact hy)
    rw [this]
    unfold NState.read
    rw [m1, m2]
  have hfb : ∀ m, (s.fields m).below s.next := fun m i e => (hw.fld m i e).1
  constructor
  · constructor
    · exact hg.down hdm
    · intro i hi j hj
      simp only at hi hj ⊢
      by_cases ho : i < s.next
      · rw [hold i ho] at hj ⊢
        rw [hold j (Nat.lt_trans (hw.down i ho j hj) ho)]
        exact hw.path i ho j hj
      · obtain ⟨a, b⟩ := hnew i (by omega) hi
        have hj' := b j hj
        rw [a, (hnew j hj'.1 (by omega)).1]
    · intro i hi
      simp only at hi ⊢
      by_cases ho : i < s.next
      · rw [hold i ho]; exact hw.typed i ho
      · rw [(hnew i (by omega) hi).1]
        rcases hc with hc | hc
        · exact hc
        · omega
    · intro m i hmi
      simp only at hmi ⊢
      split at hmi
      · next e =>
        subst e
        have := hm i hmi
        exact ⟨this.2, (hnew i this.1 this.2).1⟩
      · have := hw.fld m i hmi
        exact ⟨by omega, by rw [hold i this.1]; exact this.2⟩
    · intro m i hmi
      simp only at hmi ⊢
      rw [hprev] at hmi
      rcases mem_remember hmi with h | h
      · have := hw.kept m i h; omega
      · obtain ⟨rfl, h⟩ := Prod.mk.inj h
        have := (hw.fld m i (by injection h with h; exact h.symm)).1
        omega
  · have hun : ∀ y : Slot, y.below s.next → ∀ i, Under u.boxes y i → Under s.boxes y i := by
      intro y hy i hu
      have := hg.under_old hdm hu (by rw [m2]; exact hy)
      rw [m1] at this
      exact this
    have hks : ∀ m y, (m, Prev.kept y) ∈ s.prev → y.below s.next := by
      rintro m y hy i rfl
      exact hw.kept m i hy
    refine ⟨?_, ?_, ?_, ?_, ?_⟩
    · show u.isNew = false
      rw [hg.rest]
      exact m3.trans hq.notNew
    · show DistinctKeys u.prev
      rw [hprev]
      exact remember_distinct hq.distinct _ _
    · intro m hms
      show (dictGet u.prev m = none ∧ u.read (if m = n then x else s.fields m) = v0 m) ∨
        (∃ y, dictGet u.prev m = some (.kept y) ∧ u.read y = v0 m) ∨ dictGet u.prev m = some (.copy (v0 m))
      rw [hprev, get_remember]
      rcases hq.vals m hms with ⟨h1, h2⟩ | ⟨y, h1, h2⟩ | h1
      · by_cases e : m = n
        · subst e
          rw [if_pos rfl, if_pos rfl]
          refine .inr (.inl ⟨s.fields m, ?_, ?_⟩)
          · rw [h1]; rfl
          · rw [hread _ (hfb m), h2]
        · rw [if_neg e, if_neg e]
          exact .inl ⟨h1, by rw [hread _ (hfb m), h2]⟩
      · refine .inr (.inl ⟨y, ?_, ?_⟩)
        · split
          · next e => subst e; rw [h1]; rfl
          · exact h1
        · rw [hread y (hks m y (mem_of_get h1)), h2]
      · refine .inr (.inr ?_)
        split
        · next e => subst e; rw [h1]; rfl
        · exact h1
    · intro he
      have he : u.prev = [] := he
      have := get_remember s n n (.kept (s.fields n))
      rw [← hprev, he, if_pos rfl] at this
      cases hq : dictGet s.prev n <;> rw [hq] at this <;> cases this
    · intro m y hy k i hu1 hu2
      have hy : (m, Prev.kept y) ∈ u.prev := hy
      have hu1 : Under u.boxes y i := hu1
      have hu2 : Under u.boxes (if k = n then x else s.fields k) i := hu2
      rw [hprev] at hy
      have hyb : y.below s.next := by
        rcases mem_remember hy with h | h
        · exact hks m y h
        · cases h; exact hfb _
      have hu1' := hun y hyb i hu1
      split at hu2
      · have h1 := hg.under_new hu2 (by intro j e; rw [m2]; exact hm j e)
        rw [m2] at h1
        have h2 := under_below hw.down hu1' hyb
        omega
      · next e =>
        have hu2' := hun _ (hfb k) i hu2
        rcases mem_remember hy with h | h
        · exact hq.apart m y h k i hu1' hu2'
        · cases h
          -- two fields share no container: each knows its field
          exact e ((field_under hw hu2').symm.trans (field_under hw hu1'))

theorem nAssign_keeps {cd : ClassDef} (hr : cd.resetAllFields = true) (hp : PlainNames cd) {n : String} {v : Val} {s : NState}
    {v0 : String → Val} (hn : (cd.field? n).isSome) (hc : (Slot.leaf v).isContainer = true → HoldsContainer cd n)
    (hw : NWf cd s) (hq : Recs cd v0 s) : NWf cd (nAssign cd n v s) ∧ Recs cd v0 (nAssign cd n v s) := by
  cases he : pyEq v (s.read (s.fields n)) with
  | true =>
    have : nAssign cd n v s = s := by
      obtain ⟨f, hf⟩ := Option.isSome_iff_exists.1 hn
      unfold nAssign
      rw [hf]
      simp only [he, if_true]
    rw [this]
    exact ⟨hw, hq⟩
  | false =>
    obtain ⟨u, x, h1, h2, h3, h4, h5⟩ := nAssign_eq hp hn hq.notNew hw.down he
    rw [h5]
    rw [recs_all hr hn] at h1
    exact assigned hw h1 h2 (h4.imp_left hc) hq

/-! ### what list and dict methods leave and report -/

variable {α : Type}

theorem pyRemove_left {eqv : α → α → Bool} {v : α} : ∀ {xs ys : List α}, pyRemove eqv v xs = some ys → ∀ x ∈ ys, x ∈ xs
  | x :: xs, ys, h, y, hy => by
    unfold pyRemove at h
    split at h
    · cases h; exact List.mem_cons_of_mem _ hy
    · cases hr : pyRemove eqv v xs with
      | none => rw [hr] at h; cases h
      | some zs =>
        rw [hr] at h
        cases h
        rcases List.mem_cons.1 hy with rfl | hy
        · exact List.mem_cons_self
        · exact List.mem_cons_of_mem _ (pyRemove_left hr y hy)

theorem left_list {eqv : α → α → Bool} {op : LOp α} (hp : op.Plain) (xs : List α) :
    ∀ x ∈ (ownedOp eqv op xs).items, x ∈ xs ∨ x ∈ added (ownedOp eqv op xs).log := by
  have hacc : ∀ e : α → α → Bool, (∀ a b, e a b = true → a = b) → ∀ x ∈ (ownedOp e op xs).items, x ∈ xs ∨ x ∈ added (ownedOp e op xs).log := by
    intro e he x hx
    have := (olist_accounts he op hp xs).subset (List.mem_append_left _ hx)
    exact List.mem_append.1 this
  have hno : ∀ x ∈ (ownedOp (fun _ _ => false) op xs).items, x ∈ xs ∨ x ∈ added (ownedOp (fun _ _ => false) op xs).log :=
    hacc _ (fun _ _ h => by cases h)
  cases op with
  | remove v =>
    intro x hx
    left
    simp only [ownedOp] at hx
    cases hr : pyRemove eqv v xs with
    | none => rw [hr] at hx; exact hx
    | some ys => rw [hr] at hx; exact pyRemove_left hr x hx
  | _ => exact hno

theorem filter_nil_iff {ε : Type} {w : ε → Bool} {l : List ε} : (!(l.filter w).isEmpty) = false ↔ ∀ e ∈ l, w e = false := by
  rw [Bool.not_eq_false', List.isEmpty_iff, List.filter_eq_nil_iff]
  simp

theorem dels_none {vs : List α} (h : ∀ e ∈ dels vs, (!e.isWill) = false) : vs = [] := by
  cases vs with
  | nil => rfl
  | cons v vs => exact absurd (h (.del v) (by simp [dels])) (by simp [LEv.isWill])

theorem adds_nil {k i : Int} {vs : List α} (h : ∀ e ∈ addsFrom k i vs, (!e.isWill) = false) : vs = [] := by
  cases vs with
  | nil => rfl
  | cons v vs => exact absurd (h (.add i v) (by simp [addsFrom])) (by simp [LEv.isWill])

theorem noIdxs {xs : List α} {is : List Nat} (h : ∀ i ∈ is, i < xs.length) (hg : getIdxs xs is = []) : is = [] := by
  cases is with
  | nil => rfl
  | cons i is => rw [getIdxs_cons (h i (by simp))] at hg; cases hg

/-- a call that ends well and reports nothing leaves the list as it was -/
theorem quiet_list {eqv : α → α → Bool} {op : LOp α} (hp : op.Plain) (xs : List α) (hx : (ownedOp eqv op xs).exc = none)
    (hE : ∀ e ∈ (ownedOp eqv op xs).log, (!e.isWill) = false) : (ownedOp eqv op xs).items = xs := by
  have hsor : ¬ ((!(LEv.sor : LEv α).isWill) = false) := by simp [LEv.isWill]
  have hadd : ∀ i v, ¬ ((!(LEv.add i v : LEv α).isWill) = false) := by intro i v; simp [LEv.isWill]
  have hdel : ∀ v, ¬ ((!(LEv.del v : LEv α).isWill) = false) := by intro v; simp [LEv.isWill]
  have hnot : ∀ (r : Except Exc (List α)) (evs : List α → List (LEv α)), (notified xs r evs).exc = none →
      (∀ e ∈ (notified xs r evs).log, (!e.isWill) = false) →
      ∃ ys, r = .ok ys ∧ (notified xs r evs).items = ys ∧ ∀ e ∈ evs ys, (!e.isWill) = false := by
    intro r evs h1 h2
    cases r with
    | error e => cases h1
    | ok ys => exact ⟨ys, rfl, rfl, fun e he => h2 e (List.mem_cons_of_mem _ he)⟩
  have hidx : ∀ (i : Int) (g : Nat → List α) (ys : List α), withIdx xs i g = .ok ys →
      ∃ k, normIdx xs.length i = some k ∧ k < xs.length := by
    intro i g ys h
    unfold withIdx at h
    cases hk : normIdx xs.length i with
    | none => rw [hk] at h; cases h
    | some k => exact ⟨k, rfl, (normIdx_some hk).1⟩
  have hext : ∀ a : ItArg α, a.Plain → (ownedExtend a xs).exc = none → (∀ e ∈ (ownedExtend a xs).log, (!e.isWill) = false) →
      (ownedExtend a xs).items = xs := by
    intro a ha _ h2
    cases a with
    | iter _ => cases ha
    | self => cases ha
    | seq ys =>
      have : ys = [] := adds_nil (fun e he => h2 e (by
        simp only [ownedExtend, ItArg.again]
        exact List.mem_append_right _ he))
      subst this
      simp [ownedExtend, ItArg.items]
  cases op with
  | append v => exact absurd (hE (.add xs.length v) (by simp [ownedOp])) (hadd _ _)
  | extend a => exact hext a hp hx hE
  | insert i v => exact absurd (hE (.add (min xs.length i) v) (by simp [ownedOp])) (hadd _ _)
  | remove v =>
    obtain ⟨ys, _, _, h3⟩ := hnot _ _ hx hE
    exact absurd (h3 (.del v) (by simp)) (hdel _)
  | sort f e =>
    cases e with
    | some e => cases hx
    | none => exact absurd (hE .sor (by simp [ownedOp])) hsor
  | clear => exact (dels_none (fun e he => hE e (List.mem_cons_of_mem _ he))).symm
  | pop i =>
    obtain ⟨ys, h1, _, h3⟩ := hnot _ _ hx hE
    obtain ⟨k, hk, hl⟩ := hidx _ _ _ h1
    have := dels_none h3
    rw [hk, Option.toList_some, getIdxs_single hl] at this
    cases this
  | reverse => exact absurd (hE .sor (by simp [ownedOp])) hsor
  | iadd a => exact hext a hp hx hE
  | imul n =>
    rcases olist_announced (eqv := eqv) (.imul n) hp xs with ⟨rest, hl⟩ | ⟨_, h2⟩
    · simp only [ownedOp] at hE ⊢
      have h1 := dels_none (fun e he => hE e (List.mem_append_left _ (List.mem_append_right _ he)))
      have h2 := adds_nil (fun e he => hE e (List.mem_append_right _ he))
      simp only [ownedOp, h1, h2] at hl
      simp [dels, addsFrom] at hl
    · exact h2
  | setIdx i v =>
    obtain ⟨ys, _, _, h3⟩ := hnot _ _ hx hE
    exact absurd (h3 _ (List.mem_append_right _ (List.mem_singleton.2 rfl))) (hadd _ _)
  | setSlice s a =>
    cases a with
    | iter _ => cases hp
    | self => cases hp
    | seq ys =>
      simp only [ownedOp] at hx hE ⊢
      by_cases hz : s.step = some 0
      · rw [if_pos hz] at hx; cases hx
      · rw [if_neg hz] at hx hE ⊢
        obtain ⟨zs, h1, h2, h3⟩ := hnot _ _ hx hE
        rw [h2]
        have hd := dels_none (fun e he => h3 e (List.mem_append_left _ he))
        have ha : ys = [] := adds_nil (fun e he => h3 e (List.mem_append_right _ he))
        subst ha
        simp only [pySetSlice, ItArg.items] at h1
        by_cases hb : (s.bounds xs.length).2.2 = 0
        · rw [if_pos hb] at h1; cases h1
        · rw [if_neg hb] at h1
          have hi := noIdxs (idxs_lt hb) hd
          by_cases hb1 : (s.bounds xs.length).2.2 = 1
          · rw [if_pos hb1] at h1
            cases h1
            rw [Slice.idxs, List.map_eq_nil_iff, List.range_eq_nil, hb1] at hi
            simp only [rangeLen, Int.zero_lt_one, if_true] at hi
            have : (s.bounds xs.length).2.1 ≤ (s.bounds xs.length).1 := by
              split at hi
              · omega
              · omega
            rw [Int.max_eq_left this, List.append_nil, List.take_append_drop]
          · rw [if_neg hb1, hi] at h1
            simp only [List.length_nil, if_true] at h1
            cases h1
            rfl
  | delIdx i =>
    obtain ⟨ys, h1, _, h3⟩ := hnot _ _ hx hE
    obtain ⟨k, hk, hl⟩ := hidx _ _ _ h1
    have := dels_none h3
    rw [hk, Option.toList_some, getIdxs_single hl] at this
    cases this
  | delSlice s =>
    simp only [ownedOp] at hx hE ⊢
    by_cases hz : s.step = some 0
    · rw [if_pos hz] at hx; cases hx
    · rw [if_neg hz] at hx hE ⊢
      obtain ⟨zs, h1, h2, h3⟩ := hnot _ _ hx hE
      rw [h2]
      simp only [pyDelSlice] at h1
      by_cases hb : (s.bounds xs.length).2.2 = 0
      · rw [if_pos hb] at h1; cases h1
      · rw [if_neg hb, noIdxs (idxs_lt hb) (dels_none h3)] at h1
        cases h1
        rw [List.filter_eq_self.2 (by simp)]
        exact getIdxs_range xs

theorem slot_dictSet {k : String} {v : α} : ∀ {d : List (String × α)} {kv : String × α}, kv ∈ dictSet k v d → kv = (k, v) ∨ kv ∈ d
  | [], kv, h => by
    left
    simpa [dictSet] using h
  | (k', v') :: r, kv, h => by
    unfold dictSet at h
    split at h
    · rcases List.mem_cons.1 h with h | h
      · exact .inl h
      · exact .inr (List.mem_cons_of_mem _ h)
    · rcases List.mem_cons.1 h with h | h
      · exact .inr (h ▸ List.mem_cons_self)
      · exact (slot_dictSet h).imp_right (List.mem_cons_of_mem _)

theorem slot_dictUpdate {e : List (String × α)} : ∀ {d : List (String × α)} {kv : String × α}, kv ∈ dictUpdate d e → kv ∈ d ∨ kv ∈ e := by
  induction e with
  | nil => exact fun h => .inl h
  | cons x e ih =>
    intro d kv h
    rcases ih (d := dictSet x.1 x.2 d) h with h | h
    · rcases slot_dictSet h with h | h
      · exact .inr (h ▸ List.mem_cons_self)
      · exact .inl h
    · exact .inr (List.mem_cons_of_mem _ h)

theorem mem_dAdded {log : List (DEv α)} {x : α} : x ∈ dAdded log ↔ ∃ k, DEv.add k x ∈ log := by
  unfold dAdded
  rw [List.mem_filterMap]
  constructor
  · rintro ⟨e, he, h⟩
    cases e <;> simp only [Option.some.injEq, reduceCtorEq] at h
    subst h
    exact ⟨_, he⟩
  · rintro ⟨k, h⟩
    exact ⟨_, h, rfl⟩

theorem left_dict {nul : α} {op : DOp α} (hp : op.NoIter) (he : op.Explicit) (d : List (String × α)) :
    ∀ kv ∈ (ownedDOp nul op d).items, kv ∈ d ∨ kv.2 ∈ op.adds d := by
  intro kv hkv
  cases op with
  | clear => cases hkv
  | pop k dflt =>
    left
    simp only [ownedDOp] at hkv
    cases hg : dictGet d k <;> rw [hg] at hkv <;> cases dflt <;> first | exact hkv | exact (List.mem_filter.1 hkv).1
  | popitem =>
    left
    simp only [ownedDOp] at hkv
    cases hg : d.getLast? <;> rw [hg] at hkv
    · exact hkv
    · exact List.dropLast_subset d hkv
  | setdefault1 k => cases he
  | setdefault2 k v =>
    simp only [ownedDOp] at hkv
    cases hg : dictGet d k with
    | some w => rw [hg] at hkv; exact .inl hkv
    | none =>
      rw [hg] at hkv
      rcases slot_dictSet hkv with h | h
      · right; simp [DOp.adds, hg, h]
      · exact .inl h
  | update a kw =>
    cases a with
    | iter _ => cases hp
    | map kvs =>
      rcases slot_dictUpdate hkv with h | h
      · exact .inl h
      · exact .inr (List.mem_map_of_mem h)
  | setItem k v =>
    rcases slot_dictSet hkv with h | h
    · right; simp [DOp.adds, h]
    · exact .inl h
  | delItem k =>
    left
    simp only [ownedDOp] at hkv
    cases hg : dictGet d k <;> rw [hg] at hkv
    · exact hkv
    · exact (List.mem_filter.1 hkv).1
  | ior a =>
    cases a with
    | iter _ => cases hp
    | map kvs =>
      rcases slot_dictUpdate hkv with h | h
      · exact .inl h
      · exact .inr (List.mem_map_of_mem h)

theorem added_dict {nul : α} {op : DOp α} (d : List (String × α)) :
    ∀ x ∈ dAdded (ownedDOp nul op d).log, x ∈ op.adds d := by
  intro x hx
  obtain ⟨k', hx⟩ := mem_dAdded.1 hx
  have hupd : ∀ new : List (String × α), DEv.add k' x ∈ updateEvents d (dictUpdate [] new) → x ∈ new.map Prod.snd := by
    intro new h
    simp only [updateEvents, List.mem_cons, List.mem_append, List.mem_map, reduceCtorEq, false_or, and_false] at h
    rcases h with ⟨_, h⟩ | ⟨kv, hm, h⟩
    · cases h
    cases h
    rcases slot_dictUpdate hm with h | h
    · cases h
    · exact List.mem_map_of_mem h
  cases op with
  | clear => simp [ownedDOp] at hx
  | pop k dflt => simp only [ownedDOp] at hx; cases hg : dictGet d k <;> rw [hg] at hx <;> cases dflt <;> simp at hx
  | popitem => simp only [ownedDOp] at hx; cases hg : d.getLast? <;> rw [hg] at hx <;> simp at hx
  | setdefault1 k => simp only [ownedDOp] at hx; cases hg : dictGet d k <;> rw [hg] at hx <;> simp at hx
  | setdefault2 k v =>
    simp only [ownedDOp] at hx
    cases hg : dictGet d k <;> rw [hg] at hx <;> simp at hx
    simp [DOp.adds, hg, hx.2]
  | update a kw => exact hupd _ hx
  | setItem k v =>
    simp only [ownedDOp] at hx
    simp [DOp.adds] at hx ⊢
    exact hx.2
  | delItem k => simp only [ownedDOp] at hx; cases hg : dictGet d k <;> rw [hg] at hx <;> simp at hx
  | ior a => exact hupd _ hx

/-- a call that ends well and reports nothing leaves the dict as it was -/
theorem quiet_dict {nul : α} {op : DOp α} (hp : op.NoIter) (he : op.Explicit) (d : List (String × α))
    (hE : ∀ e ∈ (ownedDOp nul op d).log, (!e.isWill) = false) : (ownedDOp nul op d).items = d := by
  have hadd : ∀ i v, ¬ ((!(DEv.add i v : DEv α).isWill) = false) := by intro i v; simp [DEv.isWill]
  have hdel : ∀ v, ¬ ((!(DEv.del v : DEv α).isWill) = false) := by intro v; simp [DEv.isWill]
  have hupd : ∀ new : List (String × α), (∀ e ∈ updateEvents d (dictUpdate [] new), (!e.isWill) = false) → new = [] := by
    intro new h
    cases new with
    | nil => rfl
    | cons x new =>
      exfalso
      have hk : (dictGet (dictUpdate [] (x :: new)) x.1).isSome := by
        have hkeys : ∀ (new d : List (String × α)), x.1 ∈ d.map Prod.fst → x.1 ∈ (dictUpdate d new).map Prod.fst := by
          intro new
          induction new with
          | nil => exact fun d h => h
          | cons y new ih =>
            intro d hd
            refine ih (dictSet y.1 y.2 d) ?_
            rw [keys_dictSet]
            split
            · exact hd
            · exact List.mem_append_left _ hd
        have := hkeys new (dictSet x.1 x.2 []) (by simp [dictSet])
        obtain ⟨kv, hm, hkv⟩ := List.mem_map.1 this
        have hc : dictUpdate [] (x :: new) = dictUpdate (dictSet x.1 x.2 []) new := rfl
        rw [hc, dictGet, Option.isSome_map, List.find?_isSome]
        exact ⟨kv, hm, by simpa using hkv⟩
      obtain ⟨v, hv⟩ := Option.isSome_iff_exists.1 hk
      unfold dictGet at hv
      cases hf : (dictUpdate [] (x :: new)).find? (fun kv => kv.1 = x.1) with
      | none => rw [hf] at hv; cases hv
      | some kv =>
        have hm := List.mem_of_find?_eq_some hf
        exact hadd kv.1 kv.2 (h (.add kv.1 kv.2) (List.mem_cons_of_mem _ (List.mem_append_right _ (List.mem_map.2 ⟨kv, hm, rfl⟩))))
  cases op with
  | clear =>
    cases d with
    | nil => rfl
    | cons x d => exact absurd (hE (.del x.2) (by simp [ownedDOp])) (hdel _)
  | pop k dflt =>
    simp only [ownedDOp] at hE ⊢
    cases hg : dictGet d k <;> rw [hg] at hE <;> cases dflt <;> simp [DEv.isWill] at hE ⊢
  | popitem =>
    simp only [ownedDOp] at hE ⊢
    cases hg : d.getLast? <;> rw [hg] at hE <;> simp [DEv.isWill] at hE ⊢
  | setdefault1 k => cases he
  | setdefault2 k v =>
    simp only [ownedDOp] at hE ⊢
    cases hg : dictGet d k <;> rw [hg] at hE <;> simp [DEv.isWill] at hE ⊢
  | update a kw =>
    cases a with
    | iter _ => cases hp
    | map kvs =>
      have : kvs ++ kw = [] := hupd _ hE
      show dictUpdate d (kvs ++ kw) = d
      rw [this]; rfl
  | setItem k v => exact absurd (hE (.add k v) (by simp [ownedDOp])) (hadd _ _)
  | delItem k =>
    simp only [ownedDOp] at hE ⊢
    cases hg : dictGet d k <;> rw [hg] at hE <;> simp [DEv.isWill] at hE ⊢
  | ior a =>
    cases a with
    | iter _ => cases hp
    | map kvs =>
      have : kvs = [] := hupd _ hE
      show dictUpdate d kvs = d
      rw [this]; rfl

/-! ### histories -/

theorem lists_keep {eqv : Slot → Slot → Bool} {op : LOp Slot} (hp : op.Plain) {xs : List Slot}
    (ha : ∀ x ∈ added (ownedOp eqv op xs).log, x.isContainer = false) :
    ∀ j, Slot.box j ∈ (Items.list (ownedOp eqv op xs).items).slots → Slot.box j ∈ xs := by
  intro j hj
  rcases left_list hp xs _ hj with h | h
  · exact h
  · have := ha _ h; cases this

theorem dicts_keep {op : DOp Slot} {nul : Slot} (hp : op.NoIter) (he : op.Explicit) {d : List (String × Slot)}
    (ha : ∀ x ∈ op.adds d, x.isContainer = false) :
    ∀ j, Slot.box j ∈ (Items.dict (ownedDOp nul op d).items).slots → Slot.box j ∈ d.map Prod.snd := by
  intro j hj
  obtain ⟨kv, hm, hj⟩ := List.mem_map.1 hj
  rcases left_dict hp he d kv hm with h | h
  · exact hj ▸ List.mem_map_of_mem h
  · rw [hj] at h
    have := ha _ h; cases this

theorem lists_announce {eqv : Slot → Slot → Bool} {op : LOp Slot} (hp : op.Plain) {xs : List Slot}
    (hW : (!((ownedOp eqv op xs).log.filter LEv.isWill).isEmpty) = false) :
    (ownedOp eqv op xs).items = xs ∧ (!((ownedOp eqv op xs).log.filter (fun e => !e.isWill)).isEmpty) = false := by
  rcases olist_announced (eqv := eqv) op hp xs with ⟨r, hr⟩ | ⟨h1, h2⟩
  · rw [hr] at hW
    simp [LEv.isWill] at hW
  · rw [h1]; exact ⟨h2, rfl⟩

theorem dicts_announce {nul : Slot} {op : DOp Slot} (hp : op.Explicit) {d : List (String × Slot)}
    (hW : (!((ownedDOp nul op d).log.filter DEv.isWill).isEmpty) = false) :
    (ownedDOp nul op d).items = d ∧ (!((ownedDOp nul op d).log.filter (fun e => !e.isWill)).isEmpty) = false := by
  rcases odict_announced (nul := nul) op hp d with ⟨r, hr⟩ | ⟨h1, h2⟩
  · rw [hr] at hW
    simp [DEv.isWill] at hW
  · rw [h1]; exact ⟨h2, rfl⟩

theorem HoldsContainer.declared {cd : ClassDef} {n : String} (h : HoldsContainer cd n) : (cd.field? n).isSome := by
  obtain ⟨f, hf, _⟩ := h
  rw [hf]; rfl

theorem run_keeps {cd : ClassDef} (hr : cd.resetAllFields = true) (hp : PlainNames cd) {v0 : String → Val} {s : NState} {op : NOp}
    (ho : op.Ok cd s) (hl : op.Live s) (hw : NWf cd s) (hq : Recs cd v0 s) :
    NWf cd (op.run cd s).2 ∧ Recs cd v0 (op.run cd s).2 := by
  cases op with
  | set n v => exact nAssign_keeps hr hp ho.1 ho.2 hw hq
  | lst i op =>
    obtain ⟨hi, h1, h2⟩ := ho
    have ht := hw.typed i hi
    cases hx : (s.boxes i).items with
    | dict d =>
      have : (NOp.run cd (.lst i op) s).2 = s := by simp only [NOp.run, nListOp, hx]
      rw [this]
      exact ⟨hw, hq⟩
    | list xs =>
      have he : (NOp.run cd (.lst i op) s).2 = _ := congrArg Prod.snd (nListOp_eq ht hx (h2 xs hx))
      rw [he]
      have hs := lists_keep h1 (h2 xs hx)
      have hs' : ∀ j, Slot.box j ∈ (Items.list (ownedOp (fun a b => pyEq (s.read a) (s.read b)) op xs).items).slots →
          Slot.box j ∈ (s.boxes i).items.slots := by rw [hx]; exact hs
      refine ⟨hw.after hs', hq.after hw hs' hl ?_⟩
      intro hW
      rw [recs_all hr ht.declared, Bool.true_and] at hW
      have := lists_announce h1 hW
      exact ⟨by rw [hx, this.1], this.2⟩
  | dct i op =>
    obtain ⟨hi, h1, h1', h2⟩ := ho
    have ht := hw.typed i hi
    cases hx : (s.boxes i).items with
    | list xs =>
      have : (NOp.run cd (.dct i op) s).2 = s := by simp only [NOp.run, nDictOp, hx]
      rw [this]
      exact ⟨hw, hq⟩
    | dict d =>
      have he : (NOp.run cd (.dct i op) s).2 = _ :=
        congrArg Prod.snd (nDictOp_eq ht hx (fun x h => h2 d hx x (added_dict d x h)))
      rw [he]
      have hs' : ∀ j, Slot.box j ∈ (Items.dict (ownedDOp (Slot.leaf .none) op d).items).slots →
          Slot.box j ∈ (s.boxes i).items.slots := by rw [hx]; exact dicts_keep h1 h1' (h2 d hx)
      refine ⟨hw.after hs', hq.after hw hs' hl ?_⟩
      intro hW
      rw [recs_all hr ht.declared, Bool.true_and] at hW
      have := dicts_announce h1' hW
      exact ⟨by rw [hx, this.1], this.2⟩

/-- the object was just loaded or saved -/
structure Pristine (s : NState) : Prop where
  notNew : s.isNew = false
  unmodified : s.isModified = false
  noFields : s.modFields = []
  noPrev : s.prev = []

theorem Pristine.recs {cd : ClassDef} {s : NState} (h : Pristine s) : Recs cd (fun n => s.read (s.fields n)) s := by
  refine ⟨h.notNew, ?_, ?_, fun _ => ⟨h.unmodified, h.noFields⟩, ?_⟩
  · rw [h.noPrev]; exact distinct_nil
  · intro n _
    exact .inl ⟨by rw [h.noPrev]; rfl, rfl⟩
  · intro n x hx
    rw [h.noPrev] at hx
    cases hx

theorem hist_keeps {cd : ClassDef} (hr : cd.resetAllFields = true) (hp : PlainNames cd) {s0 s : NState} (hw : NWf cd s0) (h0 : Pristine s0)
    (h : NHist cd s0 s) : NWf cd s ∧ Recs cd (fun n => s0.read (s0.fields n)) s := by
  induction h with
  | start => exact ⟨hw, h0.recs⟩
  | step op _ ho hl ih => exact run_keeps hr hp ho hl ih.1 ih.2

/-- **C70**: whatever the history, the containers the program reaches through the fields now
are its own to change: none of them is part of a value recorded for `reset`. -/
theorem nested_current {cd : ClassDef} (hr : cd.resetAllFields = true) (hp : PlainNames cd) {s0 s : NState} (hw : NWf cd s0) (h0 : Pristine s0)
    (h : NHist cd s0 s) {n : String} {i : Nat} (hu : Under s.boxes (s.fields n) i) : i < s.next ∧ Free s i := by
  obtain ⟨h1, h2⟩ := hist_keeps hr hp hw h0 h
  exact ⟨under_below h1.down hu (fun j e => (h1.fld n j e).1), fun m x hx hu' => h2.apart m x hx n i hu' hu⟩

/-- the part of being well-formed that reading needs -/
structure NRead (s : NState) : Prop where
  down : Down s.boxes s.next
  fld : ∀ n, (s.fields n).below s.next
  notNew : s.isNew = false

theorem resetLoop_spec {cd : ClassDef} (hp : PlainNames cd) {v0 : String → Val} : ∀ (l : List (String × Prev)) (s : NState), NRead s →
    (l.map Prod.fst).Nodup → (∀ k p, (k, p) ∈ l → (∀ x, p = .kept x → x.below s.next) ∧ ((cd.field? k).isSome → s.prevVal p = v0 k)) →
    NRead (nResetLoop cd l s) ∧
    (l ≠ [] → (nResetLoop cd l s).isModified = false ∧ (nResetLoop cd l s).modFields = [] ∧ (nResetLoop cd l s).prev = []) ∧
    ∀ m, (cd.field? m).isSome →
      (m ∉ l.map Prod.fst → (nResetLoop cd l s).read ((nResetLoop cd l s).fields m) = s.read (s.fields m)) ∧
      (m ∈ l.map Prod.fst → (nResetLoop cd l s).read ((nResetLoop cd l s).fields m) = v0 m ∨
        Same (v0 m) ((nResetLoop cd l s).read ((nResetLoop cd l s).fields m)))
  | [], s, hs, _, _ => ⟨hs, fun h => absurd rfl h, fun m _ => ⟨fun _ => rfl, fun h => by cases h⟩⟩
  | (k, p) :: l, s, hs, hd, hl => by
    have hv := (hl k p (by simp)).2
    rw [List.map_cons, List.nodup_cons] at hd
    have key : ∃ t : NState, nAssign cd k (s.prevVal p) s = t ∧ NRead t ∧ s.next ≤ t.next ∧ (∀ x : Slot, x.below s.next → t.read x = s.read x) ∧
        (∀ m, m ≠ k → t.fields m = s.fields m) ∧
        ((cd.field? k).isSome → t.read (t.fields k) = v0 k ∨ Same (v0 k) (t.read (t.fields k))) := by
      refine ⟨_, rfl, ?_⟩
      cases hf : cd.field? k with
      | none =>
        have : nAssign cd k (s.prevVal p) s = s := by unfold nAssign; rw [hf]
        rw [this]
        exact ⟨hs, Nat.le_refl _, fun _ _ => rfl, fun _ _ => rfl, fun h => by cases h⟩
      | some f =>
        have hn : (cd.field? k).isSome := by rw [hf]; rfl
        rw [hv hn]
        cases he : pyEq (v0 k) (s.read (s.fields k)) with
        | true =>
          have : nAssign cd k (v0 k) s = s := by
            unfold nAssign
            rw [hf]
            simp only [he, if_true]
          rw [this]
          exact ⟨hs, Nat.le_refl _, fun _ _ => rfl, fun _ _ => rfl, fun _ => .inr ((pyEq_iff _ _).1 he)⟩
        | false =>
          obtain ⟨u, x, h1, h2, h3, _, h5⟩ := nAssign_eq hp hn hs.notNew hs.down he
          obtain ⟨m1, m2, m3, _⟩ := assign_mid s k (recs cd k)
          have hdm : Down (s.replaced (recs cd k) k).boxes (s.replaced (recs cd k) k).next := by rw [m1, m2]; exact hs.down
          have hle : s.next ≤ u.next := by have := h1.le; rw [m2] at this; exact this
          rw [h5]
          refine ⟨⟨h1.down hdm, ?_, ?_⟩, hle, ?_, ?_, ?_⟩
          · intro m i hi
            simp only at hi ⊢
            split at hi
            · exact (h2 i hi).2
            · exact Nat.lt_of_lt_of_le (hs.fld m i hi) hle
          · show u.isNew = false
            rw [h1.rest]
            exact m3.trans hs.notNew
          · intro y hy
            have := h1.read hdm (x := y) (by rw [m2]; exact hy)
            show u.read y = s.read y
            rw [this]
            unfold NState.read
            rw [m1, m2]
          · intro m hm
            simp only [if_neg hm]
          · intro _
            left
            show u.read (if k = k then x else _) = _
            rw [if_pos rfl, h3]
    obtain ⟨t, ht, t1, t2, t3, t4, t5⟩ := key
    have hloop : nResetLoop cd ((k, p) :: l) s = nResetLoop cd l { t with isModified := false, modFields := [], prev := [] } := by
      simp only [nResetLoop]
      rw [ht]
    have t1' : NRead { t with isModified := false, modFields := [], prev := [] } := ⟨t1.down, t1.fld, t1.notNew⟩
    obtain ⟨r1, r2, r3⟩ := resetLoop_spec (v0 := v0) hp l { t with isModified := false, modFields := [], prev := [] } t1' hd.2 (by
      intro k' p' hm
      have := hl k' p' (List.mem_cons_of_mem _ hm)
      refine ⟨fun x e => (this.1 x e).mono t2, fun hk => ?_⟩
      rw [← this.2 hk]
      cases p' with
      | kept x => exact t3 x (this.1 x rfl)
      | copy v => rfl)
    rw [hloop]
    refine ⟨r1, fun _ => ?_, fun m hm => ⟨fun hn => ?_, fun hn => ?_⟩⟩
    · cases l with
      | nil => exact ⟨rfl, rfl, rfl⟩
      | cons a l => exact r2 (by simp)
    · rw [List.map_cons, List.mem_cons, not_or] at hn
      rw [(r3 m hm).1 hn.2]
      show t.read (t.fields m) = _
      rw [t4 m hn.1, t3 _ (hs.fld m)]
    · by_cases hml : m ∈ l.map Prod.fst
      · exact (r3 m hm).2 hml
      · have : m = k := by
          rw [List.map_cons, List.mem_cons] at hn
          exact hn.resolve_right hml
        subst this
        rw [(r3 m hm).1 hml]
        exact t5 hm

/-- **C70**: `reset` undoes any history of assignments and of changes inside lists and dicts,
at any depth: every field shows what it showed at the start (or a value equal to it, since
equal values are not assigned), and the object counts as unmodified. -/
theorem nested_reset {cd : ClassDef} (hr : cd.resetAllFields = true) (hp : PlainNames cd) {s0 s : NState} (hw : NWf cd s0) (h0 : Pristine s0)
    (h : NHist cd s0 s) : ∃ s', nReset cd s = (.ok (), s') ∧ Pristine s' ∧
      ∀ n v, (cd.field? n).isSome → Shows s0.boxes (s0.fields n) v →
        ∃ w, Shows s'.boxes (s'.fields n) w ∧ (w = v ∨ Same v w) := by
  obtain ⟨h1, h2⟩ := hist_keeps hr hp hw h0 h
  have hrd : NRead s := ⟨h1.down, fun n i e => (h1.fld n i e).1, h2.notNew⟩
  have hkey : ∀ k p, (k, p) ∈ s.prev → (∀ x, p = .kept x → x.below s.next) ∧
      ((cd.field? k).isSome → s.prevVal p = s0.read (s0.fields k)) := by
    intro k p hm
    refine ⟨?_, fun hk => ?_⟩
    · rintro x rfl i rfl
      exact h1.kept k i hm
    · have hg := (mem_iff_get h2.distinct k p).1 hm
      rcases h2.vals k hk with ⟨a, _⟩ | ⟨x, a, b⟩ | a
      · rw [a] at hg; cases hg
      · rw [a] at hg; cases hg
        exact b
      · rw [a] at hg; cases hg; rfl
  obtain ⟨r1, r2, r3⟩ := resetLoop_spec hp (v0 := fun n => s0.read (s0.fields n)) s.prev s hrd h2.distinct hkey
  refine ⟨nResetLoop cd s.prev s, ?_, ?_, ?_⟩
  · simp [nReset, hr, h2.notNew]
  · by_cases he : s.prev = []
    · have := h2.clean he
      rw [he]
      exact ⟨h2.notNew, this.1, this.2, he⟩
    · have := r2 he
      exact ⟨r1.notNew, this.1, this.2.1, this.2.2⟩
  · intro n v hn hv
    have hv := (shows_iff hw.down (fun i e => (hw.fld n i e).1) v).1 hv
    refine ⟨_, shows_read r1.down _ _ (r1.fld n) (r1.fld n), ?_⟩
    show (nResetLoop cd s.prev s).read _ = v ∨ Same v ((nResetLoop cd s.prev s).read _)
    by_cases hm : n ∈ s.prev.map Prod.fst
    · have := (r3 n hn).2 hm
      rw [hv] at this
      exact this
    · left
      rw [(r3 n hn).1 hm]
      rcases h2.vals n hn with ⟨_, b⟩ | ⟨x, a, _⟩ | a
      · exact b.trans hv
      · exact absurd (List.mem_map_of_mem (f := Prod.fst) (mem_of_get a)) hm
      · exact absurd (List.mem_map_of_mem (f := Prod.fst) (mem_of_get a)) hm

/-! ### noticing -/

theorem after_noticed {cd : ClassDef} {s : NState} (hw : NWf cd s) (hn : s.isNew = false) {i : Nat} {it : Items} {W E : Bool}
    (hs : ∀ j, Slot.box j ∈ it.slots → Slot.box j ∈ (s.boxes i).items.slots)
    (hE : E = false → it = (s.boxes i).items) {n : String} {v w : Val} (h1 : Shows s.boxes (s.fields n) v)
    (h2 : Shows (s.after i it W E).boxes ((s.after i it W E).fields n) w) (hne : v ≠ w) :
    initialKeypath (s.boxes i).path = n ∧ (s.after i it W E).isModified = true ∧ (s.boxes i).path ∈ (s.after i it W E).modFields := by
  have hw' := hw.after (W := W) (E := E) hs
  have h1' := (shows_iff hw.down (fun i e => (hw.fld n i e).1) v).1 h1
  have h2' := (shows_iff hw'.down (fun i e => (hw'.fld n i e).1) w).1 h2
  rw [after_fields] at h2'
  cases E with
  | false =>
    rw [after_read_same (hE rfl)] at h2'
    exact absurd (h1'.symm.trans h2') hne
  | true =>
    refine ⟨?_, ?_, ?_⟩
    · refine Classical.byContradiction fun hc => hne ?_
      rw [after_read (fun hu => hc (field_under hw hu))] at h2'
      exact h1'.symm.trans h2'
    · rw [after_isModified _ _ _ _ _ hn]; rfl
    · rw [after_modFields _ _ _ _ _ hn]
      simp only [if_true, setAdd]
      split <;> simp_all

/-- what an assignment does to the other fields, and that it is noticed -/
theorem assign_effect {cd : ClassDef} (hp : PlainNames cd) {s : NState} (hw : NWf cd s) (hn : s.isNew = false) {n : String} {v : Val}
    (hf : (cd.field? n).isSome) : NRead (nAssign cd n v s) ∧
      (∀ m, m ≠ n → (nAssign cd n v s).read ((nAssign cd n v s).fields m) = s.read (s.fields m)) ∧
      (nAssign cd n v s = s ∨ ((nAssign cd n v s).isModified = true ∧ n ∈ (nAssign cd n v s).modFields)) := by
  have hfb : ∀ m, (s.fields m).below s.next := fun m i e => (hw.fld m i e).1
  cases he : pyEq v (s.read (s.fields n)) with
  | true =>
    have : nAssign cd n v s = s := by
      obtain ⟨f, hf⟩ := Option.isSome_iff_exists.1 hf
      unfold nAssign
      rw [hf]
      simp only [he, if_true]
    rw [this]
    exact ⟨⟨hw.down, hfb, hn⟩, fun _ _ => rfl, .inl rfl⟩
  | false =>
    obtain ⟨u, x, h1, h2, h3, _, h5⟩ := nAssign_eq hp hf hn hw.down he
    obtain ⟨m1, m2, m3, _⟩ := assign_mid s n (recs cd n)
    have hdm : Down (s.replaced (recs cd n) n).boxes (s.replaced (recs cd n) n).next := by rw [m1, m2]; exact hw.down
    have hle : s.next ≤ u.next := by have := h1.le; rw [m2] at this; exact this
    rw [h5]
    refine ⟨⟨h1.down hdm, ?_, ?_⟩, ?_, .inr ?_⟩
    · intro m i hi
      simp only at hi ⊢
      split at hi
      · exact (h2 i hi).2
      · exact Nat.lt_of_lt_of_le (hfb m i hi) hle
    · show u.isNew = false
      rw [h1.rest]
      exact m3.trans hn
    · intro m hm
      show u.read (if m = n then x else s.fields m) = _
      rw [if_neg hm, h1.read hdm (by rw [m2]; exact hfb m)]
      unfold NState.read
      rw [m1, m2]
    · show u.isModified = true ∧ n ∈ u.modFields
      rw [h1.rest]
      have := replaced_flags s n (recs cd n) hn
      refine ⟨this.1, ?_⟩
      show n ∈ (s.replaced (recs cd n) n).modFields
      rw [this.2, setAdd]
      split <;> simp_all

/-- the container a method call is on -/
def NOp.on : NOp → Option Nat
  | .set _ _ => none
  | .lst i _ => some i
  | .dct i _ => some i

theorem noticed_on {cd : ClassDef} {s s' : NState} {op : NOp} {i : Nat} (hi : op.on = some i) (hw : NWf cd s) (hn : s.isNew = false)
    (ho : op.Ok cd s) (hrun : op.run cd s = (.ok (), s')) {n : String} {v w : Val} (h1 : Shows s.boxes (s.fields n) v)
    (h2 : Shows s'.boxes (s'.fields n) w) (hne : v ≠ w) :
    initialKeypath (s.boxes i).path = n ∧ s'.isModified = true ∧ (s.boxes i).path ∈ s'.modFields := by
  cases op with
  | set m v' => cases hi
  | lst k op =>
    cases hi
    obtain ⟨hi, a1, a2⟩ := ho
    have ht := hw.typed i hi
    cases hx : (s.boxes i).items with
    | dict d => simp only [NOp.run, nListOp, hx] at hrun; cases hrun
    | list xs =>
      have he := nListOp_eq ht hx (a2 xs hx)
      rw [show nListOp cd i op s = _ from hrun] at he
      obtain ⟨he1, he2⟩ := Prod.mk.inj he
      rw [he2] at h2 ⊢
      refine after_noticed hw hn ?_ ?_ h1 h2 hne
      · rw [hx]; exact lists_keep a1 (a2 xs hx)
      · intro hE
        rw [hx, quiet_list a1 xs ?_ (filter_nil_iff.1 hE)]
        generalize (ownedOp (fun a b => pyEq (s.read a) (s.read b)) op xs).exc = x at he1
        cases x with
        | none => rfl
        | some e => cases he1
  | dct k op =>
    cases hi
    obtain ⟨hi, a1, a1', a2⟩ := ho
    have ht := hw.typed i hi
    cases hx : (s.boxes i).items with
    | list xs => simp only [NOp.run, nDictOp, hx] at hrun; cases hrun
    | dict d =>
      have he := nDictOp_eq ht hx (fun x h => a2 d hx x (added_dict d x h))
      rw [show nDictOp cd i op s = _ from hrun] at he
      obtain ⟨he1, he2⟩ := Prod.mk.inj he
      rw [he2] at h2 ⊢
      refine after_noticed hw hn ?_ ?_ h1 h2 hne
      · rw [hx]; exact dicts_keep a1 a1' (a2 d hx)
      · intro hE
        rw [hx, quiet_dict a1 a1' d (filter_nil_iff.1 hE)]

/-- **C70**: a call that returns and changes what a field shows, at any depth, is noticed: the
object counts as modified, and a path that starts with the field is among the modified
fields. -/
theorem nested_noticed {cd : ClassDef} (hp : PlainNames cd) {s s' : NState} {op : NOp} (hw : NWf cd s) (hn : s.isNew = false)
    (ho : op.Ok cd s) (hrun : op.run cd s = (.ok (), s')) {n : String} {v w : Val} (h1 : Shows s.boxes (s.fields n) v)
    (h2 : Shows s'.boxes (s'.fields n) w) (hne : v ≠ w) :
    s'.isModified = true ∧ ∃ p ∈ s'.modFields, initialKeypath p = n := by
  cases hop : op.on with
  | some i =>
    obtain ⟨a, b, c⟩ := noticed_on hop hw hn ho hrun h1 h2 hne
    exact ⟨b, _, c, a⟩
  | none =>
    cases op with
    | lst => cases hop
    | dct => cases hop
    | set m v' =>
      have hs : s' = nAssign cd m v' s := (congrArg Prod.snd hrun).symm
      subst hs
      obtain ⟨r1, r2, r3⟩ := assign_effect hp hw hn (v := v') ho.1
      have h1' := (shows_iff hw.down (fun i e => (hw.fld n i e).1) v).1 h1
      have h2' := (shows_iff r1.down (r1.fld n) w).1 h2
      by_cases e : n = m
      · subst e
        rcases r3 with r3 | r3
        · rw [r3] at h2'
          exact absurd (h1'.symm.trans h2') hne
        · exact ⟨r3.1, n, r3.2, (field?_path hp ho.1).2⟩
      · rw [r2 n e] at h2'
        exact absurd (h1'.symm.trans h2') hne

/-- **C70**: an operation reaches one field only: for an assignment the field, for a method
the field the container belongs to. -/
theorem nested_local {cd : ClassDef} (hp : PlainNames cd) {s s' : NState} {op : NOp} (hw : NWf cd s) (hn : s.isNew = false)
    (ho : op.Ok cd s) (hrun : op.run cd s = (.ok (), s')) {n : String} {v w : Val} (h1 : Shows s.boxes (s.fields n) v)
    (h2 : Shows s'.boxes (s'.fields n) w) (hoff : ∀ m v', op = .set m v' → m ≠ n)
    (hoff' : ∀ i, op.on = some i → ¬ Under s.boxes (s.fields n) i) : w = v := by
  refine Classical.byContradiction fun hne => ?_
  cases hop : op.on with
  | some i =>
    cases op with
    | set => cases hop
    | lst k op =>
      cases hop
      obtain ⟨hi, a1, a2⟩ := ho
      have ht := hw.typed i hi
      cases hx : (s.boxes i).items with
      | dict d => simp only [NOp.run, nListOp, hx] at hrun; cases hrun
      | list xs =>
        have he := nListOp_eq ht hx (a2 xs hx)
        rw [show nListOp cd i op s = _ from hrun] at he
        obtain ⟨_, he2⟩ := Prod.mk.inj he
        have hw' := hw.after (i := i) (it := .list (ownedOp (fun a b => pyEq (s.read a) (s.read b)) op xs).items)
          (W := (recs cd (initialKeypath (s.boxes i).path) &&
            !((ownedOp (fun a b => pyEq (s.read a) (s.read b)) op xs).log.filter LEv.isWill).isEmpty))
          (E := (!((ownedOp (fun a b => pyEq (s.read a) (s.read b)) op xs).log.filter (fun e => !e.isWill)).isEmpty))
          (by rw [hx]; exact lists_keep a1 (a2 xs hx))
        rw [← he2] at hw'
        have h1' := (shows_iff hw.down (fun i e => (hw.fld n i e).1) v).1 h1
        have h2' := (shows_iff hw'.down (fun i e => (hw'.fld n i e).1) w).1 h2
        rw [he2, after_fields, after_read (hoff' i rfl)] at h2'
        exact hne (h2'.symm.trans h1')
    | dct k op =>
      cases hop
      obtain ⟨hi, a1, a1', a2⟩ := ho
      have ht := hw.typed i hi
      cases hx : (s.boxes i).items with
      | list xs => simp only [NOp.run, nDictOp, hx] at hrun; cases hrun
      | dict d =>
        have he := nDictOp_eq ht hx (fun x h => a2 d hx x (added_dict d x h))
        rw [show nDictOp cd i op s = _ from hrun] at he
        obtain ⟨_, he2⟩ := Prod.mk.inj he
        have hw' := hw.after (i := i) (it := .dict (ownedDOp (Slot.leaf .none) op d).items)
          (W := (recs cd (initialKeypath (s.boxes i).path) &&
            !((ownedDOp (Slot.leaf .none) op d).log.filter DEv.isWill).isEmpty))
          (E := (!((ownedDOp (Slot.leaf .none) op d).log.filter (fun e => !e.isWill)).isEmpty))
          (by rw [hx]; exact dicts_keep a1 a1' (a2 d hx))
        rw [← he2] at hw'
        have h1' := (shows_iff hw.down (fun i e => (hw.fld n i e).1) v).1 h1
        have h2' := (shows_iff hw'.down (fun i e => (hw'.fld n i e).1) w).1 h2
        rw [he2, after_fields, after_read (hoff' i rfl)] at h2'
        exact hne (h2'.symm.trans h1')
  | none =>
    cases op with
    | lst => cases hop
    | dct => cases hop
    | set m v' =>
      have hs : s' = nAssign cd m v' s := (congrArg Prod.snd hrun).symm
      subst hs
      obtain ⟨r1, r2, _⟩ := assign_effect hp hw hn (v := v') ho.1
      have h1' := (shows_iff hw.down (fun i e => (hw.fld n i e).1) v).1 h1
      have h2' := (shows_iff r1.down (r1.fld n) w).1 h2
      rw [r2 n (hoff m v' rfl).symm] at h2'
      exact hne (h2'.symm.trans h1')

/-! ### persisted_modified_fields -/

/-- **C70**: with field names only, `persisted_modified_fields` are the modified fields that
are stored. -/
theorem persisted_stored {cd : ClassDef} : ∀ {names : List String}, (∀ n ∈ names, (cd.field? n).isSome) →
    ∃ r, persistedModified cd names = .ok r ∧ ∀ m, m ∈ r ↔ m ∈ names ∧ ∃ f, cd.field? m = some f ∧ f.store ≠ .temp
  | [], _ => ⟨[], rfl, fun m => by simp⟩
  | n :: ns, h => by
    obtain ⟨r, hr, hm⟩ := persisted_stored (fun m hm => h m (List.mem_cons_of_mem _ hm))
    obtain ⟨f, hf⟩ := Option.isSome_iff_exists.1 (h n (by simp))
    simp only [persistedModified, hf, hr]
    refine ⟨_, rfl, fun m => ?_⟩
    by_cases ht : f.store = .temp
    · simp only [ht, if_true]
      rw [hm, List.mem_cons]
      constructor
      · exact fun ⟨a, b⟩ => ⟨.inr a, b⟩
      · rintro ⟨rfl | a, g, hg, b⟩
        · rw [hf] at hg; cases hg; exact absurd ht b
        · exact ⟨a, g, hg, b⟩
    · simp only [ht, if_false]
      rw [List.mem_cons, List.mem_cons, hm]
      constructor
      · rintro (rfl | ⟨a, b⟩)
        · exact ⟨.inl rfl, f, hf, ht⟩
        · exact ⟨.inr a, b⟩
      · rintro ⟨rfl | a, b⟩
        · exact .inl rfl
        · exact .inr ⟨a, b⟩

theorem persisted_raises {cd : ClassDef} : ∀ {names : List String} {p : String}, p ∈ names → cd.field? p = none →
    persistedModified cd names = .error .valueError
  | n :: ns, p, hp, hf => by
    cases hn : cd.field? n with
    | none => simp only [persistedModified, hn]
    | some f =>
      have : p ∈ ns := by
        rcases List.mem_cons.1 hp with rfl | h
        · rw [hf] at hn; cases hn
        · exact h
      simp only [persistedModified, hn, persisted_raises this hf]
      rfl

/-- **C70**, where the code falls short: after a change in a container inside another one,
`persisted_modified_fields` raises instead of naming the field. -/
theorem persisted_nested {cd : ClassDef} (hp : PlainNames cd) {s s' : NState} {op : NOp} {i : Nat} (hop : op.on = some i)
    (hin : '.' ∈ (s.boxes i).path.toList) (hw : NWf cd s) (hn : s.isNew = false) (ho : op.Ok cd s) (hrun : op.run cd s = (.ok (), s'))
    {n : String} {v w : Val} (h1 : Shows s.boxes (s.fields n) v) (h2 : Shows s'.boxes (s'.fields n) w) (hne : v ≠ w) :
    persistedModified cd s'.modFields = .error .valueError := by
  obtain ⟨_, _, c⟩ := noticed_on hop hw hn ho hrun h1 h2 hne
  refine persisted_raises c ?_
  cases hf : cd.field? (s.boxes i).path with
  | none => rfl
  | some f =>
    obtain ⟨hm, he⟩ := field?_name hf
    exact absurd (he ▸ hin) (hp f hm).2

/-! ### an object with a list of lists, and where it goes wrong -/

/-- fields `a` (a list), `d` (a dict) and `x` (anything), reset enabled -/
def nestedClass : ClassDef :=
  { name := "N", resetAllFields := true,
    fields := [{ name := "a", ftype := .list }, { name := "d", ftype := .dict }, { name := "x" }] }

/-- `a = [[1]]` -/
def nestedObj : NState :=
  { next := 2
    boxes := fun i => if i = 0 then ⟨.list [.leaf (.int 1)], "a.0"⟩ else ⟨.list [.box 0], "a"⟩
    fields := fun n => if n = "a" then .box 1 else .leaf .none }

theorem nestedClass_names : PlainNames nestedClass := by
  intro f hf
  simp only [nestedClass, List.mem_cons, List.not_mem_nil, or_false] at hf
  rcases hf with rfl | rfl | rfl <;> decide

theorem nestedObj_wf : NWf nestedClass nestedObj := by
  have ha : initialKeypath "a" = "a" := by decide
  have ha0 : initialKeypath "a.0" = "a" := by decide
  have hc : HoldsContainer nestedClass "a" := ⟨_, rfl, .inl rfl⟩
  have hb : ∀ i j, Slot.box j ∈ (nestedObj.boxes i).items.slots → i ≠ 0 ∧ j = 0 := by
    intro i j h
    by_cases e : i = 0
    · simp [nestedObj, e, Items.slots] at h
    · simp [nestedObj, e, Items.slots] at h; exact ⟨e, h⟩
  have hp : ∀ i, initialKeypath (nestedObj.boxes i).path = "a" := by
    intro i
    by_cases e : i = 0 <;> simp [nestedObj, e, ha, ha0]
  constructor
  · intro i _ j hj
    have := hb i j hj
    omega
  · intro i _ j _
    rw [hp, hp]
  · intro i _
    rw [hp]; exact hc
  · intro n i h
    by_cases e : n = "a"
    · simp [nestedObj, e] at h
      subst h
      exact ⟨by decide, by rw [hp, e]⟩
    · simp [nestedObj, e] at h
  · intro n i h
    cases h

theorem nestedObj_pristine : Pristine nestedObj := ⟨rfl, rfl, rfl, rfl⟩

/-- `obj.a[0].append(2)` -/
def nestedAppend : NOp := .lst 0 (.append (.leaf (.int 2)))

theorem nestedAppend_ok {s : NState} (h : 0 < s.next) : nestedAppend.Ok nestedClass s := by
  refine ⟨h, trivial, ?_⟩
  intro xs _ x hx
  simp [ownedOp, added] at hx
  subst hx; rfl

/-- a change at depth two is noticed under the field and undone by `reset` -/
example : (nestedAppend.run nestedClass nestedObj).1 = .ok () ∧
    (let s := (nestedAppend.run nestedClass nestedObj).2
     NHist nestedClass nestedObj s ∧ s.modFields = ["a.0"] ∧ s.read (s.fields "a") = .list [.list [.int 1, .int 2]] ∧
     (nReset nestedClass s).2.read ((nReset nestedClass s).2.fields "a") = .list [.list [.int 1]]) :=
  ⟨rfl, .step nestedAppend (.start _) (nestedAppend_ok (by decide)) (fun _ _ h => by cases h), rfl, rfl, rfl⟩

/-- after the change `persisted_modified_fields` raises -/
example : persistedModified nestedClass (nestedAppend.run nestedClass nestedObj).2.modFields = .error .valueError := rfl

/-- **C70**, where the code falls short: a list the program kept while the field was assigned
another value is still recorded for `reset` as it is, not copied, so a later change in it
spoils `reset`: `old = obj.a; obj.a = []; old[0].append(2); obj.reset()` gives
`[[1, 2]]`. -/
theorem nested_kept_spoils : ∃ (cd : ClassDef) (s : NState) (op1 op2 : NOp), cd.resetAllFields = true ∧ PlainNames cd ∧ NWf cd s ∧
    Pristine s ∧ op1.Ok cd s ∧ op2.Ok cd (op1.run cd s).2 ∧
    (let t := (nReset cd (op2.run cd (op1.run cd s).2).2).2
     Shows s.boxes (s.fields "a") (.list [.list [.int 1]]) ∧ Shows t.boxes (t.fields "a") (.list [.list [.int 1, .int 2]])) := by
  refine ⟨nestedClass, nestedObj, .set "a" (.list []), nestedAppend, rfl, nestedClass_names, nestedObj_wf, nestedObj_pristine,
    ⟨rfl, fun _ => ⟨_, rfl, .inl rfl⟩⟩, nestedAppend_ok (by decide), ?_, ?_⟩
  · exact .list rfl (.cons (.list rfl (.cons (.leaf _) .nil)) .nil)
  · exact .list rfl (.cons (.list rfl (.cons (.leaf _) (.cons (.leaf _) .nil))) .nil)

/-- `x = [1]` in a field that is neither declared a list nor a dict -/
def nestedAny : NState :=
  { next := 1
    boxes := fun _ => ⟨.list [.leaf (.int 1)], "x"⟩
    fields := fun n => if n = "x" then .box 0 else .leaf .none }

/-- **C70**, where the code falls short: a list in a field that is not declared a list or dict
(`types.any`) is changed without its earlier value being recorded: `reset` leaves the change
and the object counts as modified. -/
theorem nested_any_kept : ∃ (cd : ClassDef) (s : NState) (op : NOp), cd.resetAllFields = true ∧ PlainNames cd ∧ Pristine s ∧
    op.Ok cd s ∧ op.Live s ∧
    (let t := (nReset cd (op.run cd s).2).2
     Shows s.boxes (s.fields "x") (.list [.int 1]) ∧ Shows t.boxes (t.fields "x") (.list [.int 1, .int 2]) ∧ t.isModified = true) := by
  refine ⟨nestedClass, nestedAny, nestedAppend, rfl, nestedClass_names, ⟨rfl, rfl, rfl, rfl⟩, nestedAppend_ok (by decide),
    (fun _ _ h => by cases h), ?_, ?_, rfl⟩
  · exact .list rfl (.cons (.leaf _) .nil)
  · exact .list rfl (.cons (.leaf _) (.cons (.leaf _) .nil))

/-- `a = [[1], [2]]` -/
def nestedPair : NState :=
  { next := 3
    boxes := fun i => if i = 0 then ⟨.list [.leaf (.int 1)], "a.0"⟩ else if i = 1 then ⟨.list [.leaf (.int 2)], "a.1"⟩
      else ⟨.list [.box 0, .box 1], "a"⟩
    fields := fun n => if n = "a" then .box 2 else .leaf .none }

theorem nestedPair_wf : NWf nestedClass nestedPair := by
  have ha : initialKeypath "a" = "a" := by decide
  have ha0 : initialKeypath "a.0" = "a" := by decide
  have ha1 : initialKeypath "a.1" = "a" := by decide
  have hb : ∀ i j, Slot.box j ∈ (nestedPair.boxes i).items.slots → 2 ≤ i ∧ j < 2 := by
    intro i j h
    by_cases e : i = 0
    · simp [nestedPair, e, Items.slots] at h
    · by_cases e' : i = 1
      · simp [nestedPair, e', Items.slots] at h
      · simp [nestedPair, e, e', Items.slots] at h; omega
  have hp : ∀ i, initialKeypath (nestedPair.boxes i).path = "a" := by
    intro i
    by_cases e : i = 0
    · simp [nestedPair, e, ha0]
    · by_cases e' : i = 1 <;> simp [nestedPair, e, e', ha, ha1]
  constructor
  · intro i _ j hj
    have := hb i j hj
    omega
  · intro i _ j _
    rw [hp, hp]
  · intro i _
    rw [hp]; exact ⟨_, rfl, .inl rfl⟩
  · intro n i h
    by_cases e : n = "a"
    · simp [nestedPair, e] at h
      subst h
      exact ⟨by decide, by rw [hp, e]⟩
    · simp [nestedPair, e] at h
  · intro n i h
    cases h

/-- **C70**, where the code falls short: the path recorded for a nested container is the one it
had when the field was assigned. After `obj.a.pop(0)` the list at `a.0` is the former `a.1`;
a change in it is recorded as a change of `a.1`, where there is nothing. -/
theorem nested_stale_path : ∃ (cd : ClassDef) (s : NState) (op1 op2 : NOp), PlainNames cd ∧ NWf cd s ∧ Pristine s ∧ op1.Ok cd s ∧
    op2.Ok cd (op1.run cd s).2 ∧
    (let t := (op1.run cd s).2
     let u := (op2.run cd t).2
     Shows t.boxes (t.fields "a") (.list [.list [.int 2]]) ∧ Shows u.boxes (u.fields "a") (.list [.list []]) ∧
     "a.1" ∈ u.modFields ∧ "a.0" ∉ u.modFields) := by
  refine ⟨nestedClass, nestedPair, .lst 2 (.pop (some 0)), .lst 1 .clear, nestedClass_names, nestedPair_wf, ⟨rfl, rfl, rfl, rfl⟩,
    ⟨by decide, trivial, ?_⟩, ⟨by decide, trivial, ?_⟩, ?_, ?_, by decide, by decide⟩
  · intro xs h x hx
    cases h
    cases hx
  · intro xs h x hx
    cases h
    cases hx
  · exact .list rfl (.cons (.list rfl (.cons (.leaf _) .nil)) .nil)
  · exact .list rfl (.cons (.list rfl .nil) .nil)

end JC
