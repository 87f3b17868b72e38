import Verif.Model.OGraph
import Verif.Props.Demo

/-
C40: object graphs.
-/
namespace JC
variable {env : Env}

/-! ### Specification -/

/-- class and printed primary key of an object that has one -/
def HasKey (env : Env) (w : World) (i : Nat) (k : String × String) : Prop :=
  w.id env i ≠ .none ∧ k = ((w.heap i).cls, env.pystr (w.id env i))

/-- the graph knows object `o` under `k` -/
def Knows (g : GTable) (k : String × String) (o : Nat) : Prop := gLookup g k = some o

/-- a table without two entries for one key -/
def DistinctG (g : GTable) : Prop := (g.map Prod.fst).Nodup

/-! ### Tables -/

theorem graphKey_ok_iff (w : World) (i : Nat) (k : String × String) : graphKey env w i = .ok k ↔ HasKey env w i k := by
  unfold graphKey HasKey
  cases h : w.id env i <;> simp [eq_comm]

theorem graphKey_error_iff (w : World) (i : Nat) : graphKey env w i = .error .unlinkable ↔ w.id env i = .none := by
  unfold graphKey
  cases h : w.id env i <;> simp

theorem graphKey_error (w : World) (i : Nat) {e : Exc} (h : graphKey env w i = .error e) : e = .unlinkable := by
  unfold graphKey at h
  cases h' : w.id env i <;> rw [h'] at h <;> cases h; rfl

theorem gLookup_gPut (k k' : String × String) (i : Nat) (g : GTable) :
    gLookup (gPut k i g) k' = if k' = k then some i else gLookup g k' := by
  induction g with
  | nil =>
    by_cases h : k = k'
    · subst h; simp [gPut, gLookup]
    · simp [gPut, gLookup, h, Ne.symm h]
  | cons x g ih =>
    obtain ⟨kx, o⟩ := x
    by_cases h : kx = k
    · subst h
      by_cases h' : kx = k'
      · subst h'; simp [gPut, gLookup]
      · simp [gPut, gLookup, h', Ne.symm h']
    · rw [gPut, if_neg h, gLookup, ih]
      by_cases h' : kx = k'
      · subst h'; simp [gLookup, h]
      · rw [gLookup, if_neg h', if_neg h']

/-- **C40**, put: afterwards the graph returns that object for every object of the same
class and printed key, and what it returned before for every other. -/
theorem ograph_get_put {w : World} {i : Nat} {g g' : GTable} (h : ographPut env w i g = .ok g')
    {j : Nat} {k : String × String} (hj : HasKey env w j k) :
    ographGet env w j g' = .ok (if k = ((w.heap i).cls, env.pystr (w.id env i)) then some i else gLookup g k) := by
  unfold ographPut at h
  unfold ographGet
  rw [(graphKey_ok_iff w j k).2 hj]
  cases hi : graphKey env w i with
  | error e => rw [hi] at h; cases h
  | ok ki =>
    rw [hi] at h; cases h
    simp only [gLookup_gPut]
    have h1 := (graphKey_ok_iff w i ki).1 hi
    rw [← h1.2]

/-- **C40**: objects without a primary key value are refused, by all operations. -/
theorem ograph_unlinkable {w : World} {i : Nat} (h : w.id env i = .none) (g : GTable) :
    ographPut env w i g = .error .unlinkable ∧ ographGet env w i g = .error .unlinkable ∧ ographHas env w i g = .error .unlinkable := by
  have := (graphKey_error_iff (env := env) w i).2 h
  simp [ographPut, ographGet, ographHas, this]

/-- **C40**, histories: after putting objects (all with primary keys), the graph returns
for each key the last object put with that key. -/
theorem ograph_history {w : World} (is : List Nat) (h : ∀ i ∈ is, w.id env i ≠ .none) :
    ∀ (g : GTable) (k : String × String), gLookup (ographInit env w is g) k =
      ((is.reverse.find? (fun i => decide (((w.heap i).cls, env.pystr (w.id env i)) = k))).orElse (fun _ => gLookup g k)) := by
  induction is with
  | nil => intro g k; rfl
  | cons i is ih =>
    intro g k
    have hk : graphKey env w i = .ok ((w.heap i).cls, env.pystr (w.id env i)) := (graphKey_ok_iff w i _).2 ⟨h i (by simp), rfl⟩
    have hp : ographPut env w i g = .ok (gPut ((w.heap i).cls, env.pystr (w.id env i)) i g) := by unfold ographPut; rw [hk]
    rw [ographInit, hp]
    simp only []
    rw [ih (fun j hj => h j (by simp [hj])), gLookup_gPut, List.reverse_cons, List.find?_append]
    cases List.find? (fun i => decide (((w.heap i).cls, env.pystr (w.id env i)) = k)) is.reverse with
    | some x => rfl
    | none =>
      by_cases hki : k = ((w.heap i).cls, env.pystr (w.id env i))
      · subst hki; simp
      · simp [hki, Ne.symm hki]

/-- **C40**, membership: `has` is True exactly if an object of the same class with the same
printed key was put. -/
theorem ograph_has {w : World} {is : List Nat} (h : ∀ i ∈ is, w.id env i ≠ .none) {j : Nat} (hj : w.id env j ≠ .none) :
    ∃ b, ographHas env w j (ographInit env w is []) = .ok b ∧
      (b = true ↔ ∃ i ∈ is, (w.heap i).cls = (w.heap j).cls ∧ env.pystr (w.id env i) = env.pystr (w.id env j)) := by
  have hk := (graphKey_ok_iff w j _).2 ⟨hj, rfl⟩
  refine ⟨_, by unfold ographHas ographGet; rw [hk], ?_⟩
  rw [ograph_history is h]
  cases hf : List.find? (fun i => decide (((w.heap i).cls, env.pystr (w.id env i)) = ((w.heap j).cls, env.pystr (w.id env j)))) is.reverse with
  | none =>
    simp only [List.find?_eq_none, List.mem_reverse, decide_eq_true_eq, Prod.mk.injEq, not_and] at hf
    refine ⟨fun hb => (by cases hb), fun ⟨i, hi, h1, h2⟩ => absurd h2 (hf i hi h1)⟩
  | some i =>
    refine ⟨fun _ => ⟨i, by simpa using List.mem_of_find?_eq_some hf, ?_⟩, fun _ => rfl⟩
    have := List.find?_some hf
    simpa using this

/-- **Finding**: a list of objects is put up to the first one without a primary key value;
the rest is silently left out. -/
theorem ograph_init_stops {w : World} {i : Nat} (h : w.id env i = .none) (is : List Nat) (g : GTable) :
    ographInit env w (i :: is) g = g := by
  rw [ographInit, (ograph_unlinkable h g).1]

/-! ### Merging -/

/-- **C40**, merge: the merged table knows everything both sides knew, and nothing else. -/
theorem merge_ok {w : World} (os : List Nat) : ∀ {g g' : GTable}, mergeLoop env w os g = .ok g' →
    (∀ o ∈ os, ∃ k, HasKey env w o k ∧ Knows g' k o) ∧
    (∀ k o, Knows g k o → Knows g' k o) ∧
    (∀ k o, Knows g' k o → Knows g k o ∨ (o ∈ os ∧ HasKey env w o k)) := by
  induction os with
  | nil => intro g g' h; cases h; exact ⟨by simp, fun _ _ h => h, fun _ _ h => .inl h⟩
  | cons o os ih =>
    intro g g' h
    rw [mergeLoop] at h
    cases hk : graphKey env w o with
    | error e => rw [hk] at h; cases h
    | ok k =>
      rw [hk] at h
      simp only [] at h
      have hkey := (graphKey_ok_iff w o k).1 hk
      have step : (gLookup g k = none ∨ gLookup g k = some o) → mergeLoop env w os (gPut k o g) = .ok g' →
          (∀ o' ∈ o :: os, ∃ k, HasKey env w o' k ∧ Knows g' k o') ∧ (∀ k o, Knows g k o → Knows g' k o) ∧
          (∀ k o', Knows g' k o' → Knows g k o' ∨ (o' ∈ o :: os ∧ HasKey env w o' k)) := by
        intro hg hm
        obtain ⟨h1, h2, h3⟩ := ih hm
        refine ⟨?_, ?_, ?_⟩
        · intro o' ho'
          rcases List.mem_cons.1 ho' with rfl | ho'
          · exact ⟨k, hkey, h2 k _ (by unfold Knows; rw [gLookup_gPut, if_pos rfl])⟩
          · exact h1 o' ho'
        · intro k' o' hk'
          apply h2
          unfold Knows at hk' ⊢
          rw [gLookup_gPut]
          by_cases he : k' = k
          · subst he
            rw [if_pos rfl]
            rcases hg with hg | hg
            · rw [hg] at hk'; cases hk'
            · rw [← hg, hk']
          · rw [if_neg he]; exact hk'
        · intro k' o' hk'
          rcases h3 k' o' hk' with hh | ⟨hh1, hh2⟩
          · unfold Knows at hh
            rw [gLookup_gPut] at hh
            by_cases he : k' = k
            · subst he
              rw [if_pos rfl] at hh; cases hh
              exact .inr ⟨by simp, hkey⟩
            · rw [if_neg he] at hh; exact .inl hh
          · exact .inr ⟨by simp [hh1], hh2⟩
      cases hl : gLookup g k with
      | none => rw [hl] at h; exact step (.inl hl) h
      | some o' =>
        rw [hl] at h
        simp only [] at h
        by_cases he : o' = o
        · subst he; rw [if_pos rfl] at h; exact step (.inr hl) h
        · rw [if_neg he] at h; cases h

/-- **C40**, conflict: when one side knows an object and the other brings a different one of
the same class and printed key, the merge raises. -/
theorem merge_conflict {w : World} {os : List Nat} {g : GTable} {k : String × String} {o o' : Nat}
    (ho : o ∈ os) (hk : HasKey env w o k) (hg : Knows g k o') (hne : o' ≠ o) : ∃ e, mergeLoop env w os g = .error e := by
  cases h : mergeLoop env w os g with
  | error e => exact ⟨e, rfl⟩
  | ok g' =>
    obtain ⟨h1, h2, _⟩ := merge_ok os h
    obtain ⟨k', hk', hkn⟩ := h1 o ho
    have : k' = k := by rw [hk'.2, hk.2]
    subst this
    have := h2 _ _ hg
    unfold Knows at this hkn
    rw [hkn] at this
    exact absurd (Option.some.inj this).symm hne

/-- … and it raises only for an object without primary key or two different objects with
the same class and printed key. -/
theorem merge_error {w : World} (os : List Nat) : ∀ {g : GTable} {e : Exc}, mergeLoop env w os g = .error e →
    (e = .unlinkable ∧ ∃ o ∈ os, w.id env o = .none) ∨
    (e = .mergeConflict ∧ ∃ o ∈ os, ∃ k o', HasKey env w o k ∧ o' ≠ o ∧ (Knows g k o' ∨ (o' ∈ os ∧ HasKey env w o' k))) := by
  induction os with
  | nil => intro g e h; cases h
  | cons o os ih =>
    intro g e h
    rw [mergeLoop] at h
    cases hk : graphKey env w o with
    | error e' =>
      rw [hk] at h; cases h
      have he := graphKey_error w o hk
      subst he
      exact .inl ⟨rfl, o, by simp, (graphKey_error_iff w o).1 hk⟩
    | ok k =>
      rw [hk] at h
      simp only [] at h
      have hkey := (graphKey_ok_iff w o k).1 hk
      have step : mergeLoop env w os (gPut k o g) = .error e → (e = .unlinkable ∧ ∃ o' ∈ o :: os, w.id env o' = .none) ∨
          (e = .mergeConflict ∧ ∃ o₁ ∈ o :: os, ∃ k o', HasKey env w o₁ k ∧ o' ≠ o₁ ∧ (Knows g k o' ∨ (o' ∈ o :: os ∧ HasKey env w o' k))) := by
        intro hm
        rcases ih hm with ⟨h1, o₁, h2, h3⟩ | ⟨h1, o₁, h2, k₁, o₂, h3, h4, h5⟩
        · exact .inl ⟨h1, o₁, by simp [h2], h3⟩
        · refine .inr ⟨h1, o₁, by simp [h2], k₁, o₂, h3, h4, ?_⟩
          rcases h5 with h5 | ⟨h5, h6⟩
          · unfold Knows at h5
            rw [gLookup_gPut] at h5
            by_cases he : k₁ = k
            · subst he
              rw [if_pos rfl] at h5; cases h5
              exact .inr ⟨by simp, hkey⟩
            · rw [if_neg he] at h5; exact .inl h5
          · exact .inr ⟨by simp [h5], h6⟩
      cases hl : gLookup g k with
      | none => rw [hl] at h; exact step h
      | some o' =>
        rw [hl] at h
        simp only [] at h
        by_cases he : o' = o
        · subst he; rw [if_pos rfl] at h; exact step h
        · rw [if_neg he] at h; cases h
          exact .inr ⟨rfl, o, by simp, k, o', hkey, he, .inl hl⟩

theorem gLookup_mem {g : GTable} {k : String × String} {o : Nat} (h : gLookup g k = some o) : o ∈ ographIter g := by
  induction g with
  | nil => cases h
  | cons x g ih =>
    obtain ⟨k', o'⟩ := x
    rw [gLookup] at h
    by_cases he : k' = k
    · rw [if_pos he] at h; cases h; simp [ographIter]
    · rw [if_neg he] at h
      have := ih h
      simp only [ographIter, List.map_cons, List.mem_cons] at this ⊢
      exact .inr this

theorem mem_gLookup {g : GTable} (hd : DistinctG g) {o : Nat} (h : o ∈ ographIter g) : ∃ k, Knows g k o := by
  induction g with
  | nil => cases h
  | cons x g ih =>
    obtain ⟨k', o'⟩ := x
    simp only [ographIter, List.map_cons, List.mem_cons] at h
    have hd' := List.nodup_cons.1 hd
    rcases h with h | h
    · exact ⟨k', by simp [Knows, gLookup, h]⟩
    · obtain ⟨k, hk⟩ := ih hd'.2 h
      refine ⟨k, ?_⟩
      unfold Knows at hk ⊢
      rw [gLookup, if_neg]
      · exact hk
      · rintro rfl
        apply hd'.1
        clear ih hd hd' h
        induction g with
        | nil => cases hk
        | cons y g ih =>
          obtain ⟨k₂, o₂⟩ := y
          rw [gLookup] at hk
          by_cases he : k₂ = k'
          · simp [he]
          · rw [if_neg he] at hk
            have := ih hk
            simp only [List.map_cons, List.mem_cons]
            exact .inr this

/-- **C40**, linking: when two objects of different graphs are linked without an
exception, every object known to either graph afterwards has the same graph, and that
graph knows, under its key, every object either graph knew. -/
theorem linkGraph_shared {i j : Nat} {w w' : World} (hne : (w.heap i).graph ≠ (w.heap j).graph)
    (h : linkGraph env i j w = (.ok (), w')) :
    (∀ k o, Knows (w.graphs (w.heap i).graph) k o → Knows (w'.graphs (w'.heap i).graph) k o ∧ (w'.heap o).graph = (w'.heap i).graph) ∧
    (∀ o ∈ ographIter (w.graphs (w.heap j).graph), ∃ k, HasKey env w o k ∧
      Knows (w'.graphs (w'.heap i).graph) k o ∧ (w'.heap o).graph = (w'.heap i).graph) ∧
    (∀ k o, Knows (w'.graphs (w'.heap i).graph) k o → o = i ∨ Knows (w.graphs (w.heap i).graph) k o ∨ o ∈ ographIter (w.graphs (w.heap j).graph)) := by
  unfold linkGraph mergeGraphs at h
  simp only [] at h
  generalize hw₁ : putSelf env i w = w₁ at h
  unfold putSelf at hw₁
  -- putting self first keeps everything
  have hp : w₁.heap = w.heap ∧ w₁.nextg = w.nextg ∧ w₁.graphs (w.heap j).graph = w.graphs (w.heap j).graph ∧
      (∀ k o, Knows (w.graphs (w.heap i).graph) k o → Knows (w₁.graphs (w.heap i).graph) k o) ∧
      (∀ k o, Knows (w₁.graphs (w.heap i).graph) k o → o = i ∨ Knows (w.graphs (w.heap i).graph) k o) := by
    cases hk : graphKey env w i with
    | error e => rw [hk] at hw₁; subst hw₁; exact ⟨rfl, rfl, rfl, fun _ _ h => h, fun _ _ h => .inr h⟩
    | ok k =>
      rw [hk] at hw₁
      simp only [] at hw₁
      cases hl : gLookup (w.graphs (w.heap i).graph) k with
      | some o => rw [hl] at hw₁; subst hw₁; exact ⟨rfl, rfl, rfl, fun _ _ h => h, fun _ _ h => .inr h⟩
      | none =>
        rw [hl] at hw₁; subst hw₁
        refine ⟨rfl, rfl, by simp only [if_neg (Ne.symm hne)], ?_, ?_⟩
        · intro k' o hko
          simp only [Knows, if_true, gLookup_gPut] at hko ⊢
          by_cases he : k' = k
          · subst he; rw [hl] at hko; cases hko
          · rw [if_neg he]; exact hko
        · intro k' o hko
          simp only [Knows, if_true, gLookup_gPut] at hko ⊢
          by_cases he : k' = k
          · subst he; rw [if_pos rfl] at hko; cases hko; exact .inl rfl
          · rw [if_neg he] at hko; exact .inr hko
  obtain ⟨hh, hng, hgj, hk1, hk2⟩ := hp
  rw [hh, hgj, if_neg hne] at h
  cases hm : mergeLoop env w₁ (List.map Prod.snd (w.graphs (w.heap j).graph)) (w₁.graphs (w.heap i).graph) with
  | error e => rw [hm] at h; cases h
  | ok g =>
    rw [hm] at h
    simp only [Prod.mk.injEq, true_and] at h
    subst h
    obtain ⟨m1, m2, m3⟩ := merge_ok _ hm
    have hkey : ∀ o k, HasKey env w₁ o k → HasKey env w o k := by
      intro o k hk
      unfold HasKey World.id World.cdef World.attr at hk ⊢
      rw [hh] at hk; exact hk
    have hmem : ∀ {k o}, Knows g k o → (o = i ∨ o ∈ List.map Prod.snd g) := fun hk => .inr (gLookup_mem hk)
    simp only [if_true, true_or]
    refine ⟨?_, ?_, ?_⟩
    · intro k o hk
      have := m2 k o (hk1 k o hk)
      refine ⟨this, ?_⟩
      rw [if_pos (hmem this)]
    · intro o ho
      obtain ⟨k, hk, hkn⟩ := m1 o ho
      refine ⟨k, hkey o k hk, hkn, ?_⟩
      rw [if_pos (hmem hkn)]
    · intro k o hk
      rcases m3 k o hk with h1 | ⟨h1, _⟩
      · rcases hk2 k o h1 with h2 | h2
        · exact .inl h2
        · exact .inr (.inl h2)
      · exact .inr (.inr h1)

/-- **C40**: when linking raises, no object changed its graph. -/
theorem linkGraph_error {i j : Nat} {w w' : World} {e : Exc} (h : linkGraph env i j w = (.error e, w')) : w'.heap = w.heap := by
  unfold linkGraph mergeGraphs at h
  simp only [] at h
  generalize hw₁ : putSelf env i w = w₁ at h
  unfold putSelf at hw₁
  have hh : w₁.heap = w.heap := by
    cases hk : graphKey env w i with
    | error e => rw [hk] at hw₁; subst hw₁; rfl
    | ok k =>
      rw [hk] at hw₁
      simp only [] at hw₁
      cases hl : gLookup (w.graphs (w.heap i).graph) k with
      | some o => rw [hl] at hw₁; subst hw₁; rfl
      | none => rw [hl] at hw₁; subst hw₁; rfl
  by_cases hg : (w₁.heap i).graph = (w₁.heap j).graph
  · rw [if_pos hg] at h; cases h
  · rw [if_neg hg] at h
    cases hm : mergeLoop env w₁ (List.map Prod.snd (w₁.graphs (w₁.heap j).graph)) (w₁.graphs (w₁.heap i).graph) with
    | error e => rw [hm] at h; cases h; exact hh
    | ok g => rw [hm] at h; cases h

/-! ### Concrete cases -/

/-- the two users of the demo program, each in a graph of its own -/
def Demo.apart : World := { Demo.world with
  heap := fun i => { Demo.world.heap i with graph := i }
  graphs := fun n => if n = 0 then [(("User", "u0"), 0)] else if n = 1 then [(("User", "u1"), 1), (("Post", "p"), 2)] else []
  nextg := 5 }

/-- linking them merges the graphs … -/
example : ∃ w', linkGraph Demo.env 0 1 Demo.apart = (.ok (), w') ∧ (Demo.apart.heap 0).graph ≠ (Demo.apart.heap 1).graph ∧
    Knows (Demo.apart.graphs 1) ("Post", "p") 2 ∧ (w'.heap 2).graph = 5 :=
  ⟨(linkGraph Demo.env 0 1 Demo.apart).2, rfl, by decide, rfl, rfl⟩

/-- … and a second user 3 with the key of the first is a conflict -/
example : HasKey Demo.env { Demo.apart with heap := fun i => if i = 3 then Demo.world.heap 0 else Demo.world.heap i } 3 ("User", "u0") ∧
    (linkGraph Demo.env 0 3 { Demo.apart with
      heap := fun i => if i = 3 then { Demo.world.heap 0 with graph := 3 } else Demo.world.heap i
      graphs := fun n => if n = 0 then [(("User", "u0"), 0)] else [(("User", "u0"), 3)] }).1 = .error .mergeConflict :=
  ⟨⟨(by intro h; cases h), rfl⟩, rfl⟩

/-- the hypotheses of the history theorem -/
example : ∀ i ∈ [0, 1, 2], Demo.world.id Demo.env i ≠ .none := by
  intro i hi
  simp only [List.mem_cons, List.not_mem_nil, or_false] at hi
  rcases hi with rfl | rfl | rfl <;> (intro h; cases h)

/-- **Finding**: an object that gets the key of another one in its graph is not
registered and no conflict is raised: `put` in `__link_graph__` is skipped. -/
theorem linkGraph_taken_key_silent {i o : Nat} {w : World} {k : String × String} (hk : HasKey env w i k)
    (ho : Knows (w.graphs (w.heap i).graph) k o) : putSelf env i w = w := by
  unfold putSelf
  rw [(graphKey_ok_iff w i k).2 hk]
  unfold Knows at ho
  simp only [ho]

end JC
