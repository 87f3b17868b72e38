import Verif.Model.CGraph

/-
C41: class graphs.
-/
namespace JC

/-! ### Specification -/

/-- class declarations that go to graph `g` under name `n` -/
def Decl.isClassIn (g : Option String) (n : String) : Decl → Option Cls
  | .jsonclass g' c => if some (match g' with | none => "default" | some s => if s = "" then "default" else s) = g ∧ c.name = n
      then some c else none
  | .jsonenum _ _ => none

/-- enum declarations that go to graph `g` under name `n` -/
def Decl.isEnumIn (g : Option String) (n : String) : Decl → Option Cls
  | .jsonenum g' c => if g' = g ∧ c.name = n then some c else none
  | .jsonclass _ _ => none

/-! ### Lemmas -/

theorem clsGet_append (m : List (String × Cls)) (c : Cls) (n k : String) :
    clsGet (m ++ [(n, c)]) k = (clsGet m k).or (if n = k then some c else none) := by
  unfold clsGet
  rw [List.find?_append]
  cases List.find? (fun p => p.1 == k) m with
  | some x => rfl
  | none =>
    by_cases h : n = k <;> simp [h]

theorem put_classes (g : CGState) (c : Cls) (k : String) :
    clsGet (g.put c).2.classes k = (clsGet g.classes k).or (if c.name = k then some c else none) ∧ (g.put c).2.enums = g.enums := by
  unfold CGState.put
  cases h : clsGet g.classes c.name with
  | none => exact ⟨clsGet_append _ _ _ _, rfl⟩
  | some x =>
    refine ⟨?_, rfl⟩
    by_cases hk : c.name = k
    · subst hk; simp [h]
    · simp [hk]

theorem putEnum_enums (g : CGState) (c : Cls) (k : String) :
    clsGet (g.putEnum c).2.enums k = (clsGet g.enums k).or (if c.name = k then some c else none) ∧ (g.putEnum c).2.classes = g.classes := by
  unfold CGState.putEnum
  cases h : clsGet g.enums c.name with
  | none => exact ⟨clsGet_append _ _ _ _, rfl⟩
  | some x =>
    refine ⟨?_, rfl⟩
    by_cases hk : c.name = k
    · subst hk; simp [h]
    · simp [hk]

theorem declare_class (gs : CGraphs) (d : Decl) (g : Option String) (n : String) :
    clsGet ((declare gs d).2 g).classes n = (clsGet (gs g).classes n).or (d.isClassIn g n) := by
  cases d with
  | jsonclass g' c =>
    simp only [declare, CGraphs.upd, Decl.isClassIn]
    change clsGet (if g = some (confGraph g') then _ else _ : CGState).classes n = _
    change _ = Option.or _ (if some (confGraph g') = g ∧ c.name = n then some c else none)
    by_cases h : g = some (confGraph g')
    · subst h
      rw [if_pos rfl, (put_classes _ c n).1]
      simp
    · rw [if_neg h]
      simp [Ne.symm h]
  | jsonenum g' c =>
    simp only [declare, CGraphs.upd, Decl.isClassIn]
    by_cases h : g = g'
    · subst h
      rw [if_pos rfl, (putEnum_enums _ c n).2]; simp
    · rw [if_neg h]; simp

theorem declare_enum (gs : CGraphs) (d : Decl) (g : Option String) (n : String) :
    clsGet ((declare gs d).2 g).enums n = (clsGet (gs g).enums n).or (d.isEnumIn g n) := by
  cases d with
  | jsonenum g' c =>
    simp only [declare, CGraphs.upd, Decl.isEnumIn]
    by_cases h : g = g'
    · subst h
      rw [if_pos rfl, (putEnum_enums _ c n).1]; simp
    · rw [if_neg h]
      simp [Ne.symm h]
  | jsonclass g' c =>
    simp only [declare, CGraphs.upd, Decl.isEnumIn]
    by_cases h : g = some (confGraph g')
    · subst h
      rw [if_pos rfl, (put_classes _ c n).2]; simp
    · rw [if_neg h]; simp

/-! ### C41 -/

/-- **C41**: after any program of class and enum declarations, a name looked up in a graph
is the first class declared there under that name, whatever happened in other graphs, and
a lookup fails exactly when there was none. -/
theorem cgraph_history (ds : List Decl) (g : Option String) (n : String) :
    (declareAll .init ds g).fetch (.name n) = (match ds.findSome? (Decl.isClassIn g n) with
      | some c => .ok c
      | none => .error .notFound) ∧
    (declareAll .init ds g).has (.name n) = (ds.findSome? (Decl.isClassIn g n)).isSome := by
  have : ∀ (gs : CGraphs), clsGet (declareAll gs ds g).classes n = (clsGet (gs g).classes n).or (ds.findSome? (Decl.isClassIn g n)) := by
    induction ds with
    | nil => intro gs; simp [declareAll]
    | cons d ds ih =>
      intro gs
      rw [declareAll, ih, declare_class, List.findSome?_cons, Option.or_assoc]
      cases Decl.isClassIn g n d <;> rfl
  have h := this .init
  have h0 : clsGet (CGraphs.init g).classes n = none := rfl
  rw [h0, Option.none_or] at h
  unfold CGState.fetch CGState.has NameOrClass.key
  simp only []
  rw [h]
  exact ⟨rfl, rfl⟩

/-- **C41**, enums. -/
theorem cgraph_enum_history (ds : List Decl) (g : Option String) (n : String) :
    (declareAll .init ds g).fetchEnum (.name n) = (match ds.findSome? (Decl.isEnumIn g n) with
      | some c => .ok c
      | none => .error .notFound) ∧
    (declareAll .init ds g).hasEnum (.name n) = (ds.findSome? (Decl.isEnumIn g n)).isSome := by
  have : ∀ (gs : CGraphs), clsGet (declareAll gs ds g).enums n = (clsGet (gs g).enums n).or (ds.findSome? (Decl.isEnumIn g n)) := by
    induction ds with
    | nil => intro gs; simp [declareAll]
    | cons d ds ih =>
      intro gs
      rw [declareAll, ih, declare_enum, List.findSome?_cons, Option.or_assoc]
      cases Decl.isEnumIn g n d <;> rfl
  have h := this .init
  have h0 : clsGet (CGraphs.init g).enums n = none := rfl
  rw [h0, Option.none_or] at h
  unfold CGState.fetchEnum CGState.hasEnum NameOrClass.key
  simp only []
  rw [h]
  exact ⟨rfl, rfl⟩

/-- **C41**: a declaration raises exactly when its name is taken in its graph, and then
no graph changes. -/
theorem cgraph_redefinition (gs : CGraphs) (g : Option String) (c : Cls) :
    ((declare gs (.jsonclass g c)).1 = .ok () ↔ (gs (some (confGraph g))).has (.name c.name) = false) ∧
    ((gs (some (confGraph g))).has (.name c.name) = true →
      declare gs (.jsonclass g c) = (.error .redefinition, gs)) := by
  unfold CGState.has NameOrClass.key declare CGState.put
  simp only []
  cases h : clsGet (gs (some (confGraph g))).classes c.name with
  | none => simp
  | some x =>
    simp only [Option.isSome_some, forall_const]
    refine ⟨by simp, ?_⟩
    congr 1
    funext m
    unfold CGraphs.upd
    by_cases hm : m = some (confGraph g) <;> simp [hm]

/-- **Finding**: declaring an enum twice raises an AttributeError in place of the
redefinition exception (no graph changes either). -/
theorem cgraph_enum_redefinition (gs : CGraphs) (g : Option String) (c : Cls)
    (h : (gs g).hasEnum (.name c.name) = true) : declare gs (.jsonenum g c) = (.error .attributeError, gs) := by
  unfold CGState.hasEnum NameOrClass.key at h
  unfold declare CGState.putEnum
  simp only [] at h ⊢
  cases h' : clsGet (gs g).enums c.name with
  | none => rw [h'] at h; cases h
  | some x =>
    congr 1
    funext m
    unfold CGraphs.upd
    by_cases hm : m = g <;> simp [hm]

/-- **C41**: looking up by class object is looking up by its name, so a class of the same
name that is not registered finds the registered one. -/
theorem cgraph_fetch_class (gs : CGraphs) (g : Option String) (c : Cls) :
    (gs g).fetch (.cls c) = (gs g).fetch (.name c.name) ∧ (gs g).has (.cls c) = (gs g).has (.name c.name) := ⟨rfl, rfl⟩

/-- **C41**: a type given by name resolves to the first class of that name in the graph,
otherwise to the first enum of that name, otherwise it is an error. -/
theorem cgraph_resolve (ds : List Decl) (g : Option String) (n : String) :
    (declareAll .init ds g).resolve n = (match ds.findSome? (Decl.isClassIn g n), ds.findSome? (Decl.isEnumIn g n) with
      | some c, _ => .ok (.inl c)
      | none, some e => .ok (.inr e)
      | none, none => .error .unresolved) := by
  obtain ⟨h1, h2⟩ := cgraph_history ds g n
  obtain ⟨h3, h4⟩ := cgraph_enum_history ds g n
  unfold CGState.resolve
  rw [h1, h2, h3, h4]
  cases ds.findSome? (Decl.isClassIn g n) with
  | some c => rfl
  | none => cases ds.findSome? (Decl.isEnumIn g n) <;> rfl

/-- a class and an enum may share a name, and two graphs may use one name -/
example : (declareAll .init [.jsonclass (some "a") ⟨1, "X"⟩, .jsonclass (some "b") ⟨2, "X"⟩, .jsonenum (some "a") ⟨3, "X"⟩,
    .jsonclass (some "a") ⟨4, "X"⟩] (some "a")).fetch (.name "X") = .ok ⟨1, "X"⟩ := rfl

/-- **Finding**: an empty or missing `class_graph` means the default graph for classes but
not for enums, so an enum declared beside a class with the same argument is not found. -/
theorem cgraph_enum_empty_name (c e : Cls) (h : e.name ≠ c.name) :
    (declareAll .init [.jsonenum (some "") e, .jsonclass (some "") c] (some (confGraph (some "")))).resolve e.name
      = .error .unresolved := by
  rw [cgraph_resolve]
  have : ¬ (c.name = e.name) := fun h' => h h'.symm
  simp [List.findSome?, Decl.isClassIn, Decl.isEnumIn, confGraph, this]

end JC
