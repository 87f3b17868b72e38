import Verif.Model.KeySet
import Verif.Props.Assign
import Verif.Props.InputKeys
import Verif.Props.Keypath
import Verif.Props.Symmetry

/-
C54: `set` with key paths writes exactly the place named.
-/
namespace JC
variable {env : Env}

/-! ### Specification -/

/-- a place inside a value, and what is there -/
inductive At : Val → List PKey → Val → Prop
  | here (v : Val) : At v [] v
  | item {xs : List Val} {k : Nat} {y x : Val} {ps : List PKey} : xs[k]? = some y → At y ps x → At (.list xs) (.idx k :: ps) x
  | entry {kvs : List (String × Val)} {s : String} {y x : Val} {ps : List PKey} :
      dictGet kvs s = some y → At y ps x → At (.dict kvs) (.key s :: ps) x

/-- neither place is inside the other -/
def Apart (p q : List PKey) : Prop := ¬ p <+: q ∧ ¬ q <+: p

/-- `k` is the text of a valid index of `xs`, counting from either end -/
def ListKey (xs : List Val) (k : String) (m : Nat) : Prop :=
  ∃ z, keyInt k = some z ∧ m < xs.length ∧ (z = m ∨ z = (m : Int) - xs.length)

/-- The place a list of keys names in a value of declared type: the last key of a list must
exist, the last key of a dict need not. -/
inductive NamesPlace : FTy → List Mod → Val → List String → List PKey → Prop
  | idx {ch : List Mod} {xs : List Val} {k : String} {m : Nat} : ListKey xs k m → NamesPlace .list ch (.list xs) [k] [.idx m]
  | key {ch : List Mod} {kvs : List (String × Val)} {k : String} : NamesPlace .dict ch (.dict kvs) [k] [.key k]
  | idxs {ch : List Mod} {xs : List Val} {k : String} {m : Nat} {x : Val} {ks : List String} {ps : List PKey} :
      ListKey xs k m → xs[m]? = some x → NamesPlace (chainFTy (chainItems ch)) (chainItems ch) x ks ps →
      NamesPlace .list ch (.list xs) (k :: ks) (.idx m :: ps)
  | keys {ch : List Mod} {kvs : List (String × Val)} {k : String} {x : Val} {ks : List String} {ps : List PKey} :
      dictGet kvs k = some x → NamesPlace (chainFTy (chainItems ch)) (chainItems ch) x ks ps →
      NamesPlace .dict ch (.dict kvs) (k :: ks) (.key k :: ps)

/-- the declared type is a list or dict, `m` levels deep -/
def Nested : Nat → FTy → List Mod → Prop
  | 0, _, _ => True
  | m + 1, ty, ch => (ty = .list ∨ ty = .dict) ∧ Nested m (chainFTy (chainItems ch)) (chainItems ch)

/-- field and reference names have no dots -/
def DotFree (cd : ClassDef) : Prop := ∀ f ∈ cd.fields, '.' ∉ f.name.toList ∧ '.' ∉ f.refName.toList

/-! ### Values -/

theorem at_iff {v x : Val} {ps : List PKey} : At v ps x ↔ pathGet v ps = some x := by
  constructor
  · intro h
    induction h with
    | here v => rfl
    | item h1 _ ih => simp [pathGet, stepGet, h1, ih]
    | entry h1 _ ih => simp [pathGet, stepGet, h1, ih]
  · intro h
    induction ps generalizing v with
    | nil => cases h; exact .here _
    | cons p ps ih =>
      rw [pathGet] at h
      cases hp : stepGet v p with
      | none => simp [hp] at h
      | some y =>
        simp only [hp] at h
        cases p with
        | idx k =>
          cases v <;> simp [stepGet] at hp
          exact .item hp (ih h)
        | key s =>
          cases v <;> simp [stepGet] at hp
          exact .entry hp (ih h)

/-- a place that can be written -/
def CanStep (v : Val) : PKey → Prop
  | .idx k => ∃ xs, v = .list xs ∧ k < xs.length
  | .key _ => ∃ kvs, v = .dict kvs

theorem canStep_of_get {v y : Val} {p : PKey} (h : stepGet v p = some y) : CanStep v p := by
  cases p with
  | idx k =>
    cases v <;> simp [stepGet] at h
    rename_i xs
    exact ⟨xs, rfl, (List.getElem?_eq_some_iff.1 h).1⟩
  | key s =>
    cases v <;> simp [stepGet] at h
    exact ⟨_, rfl⟩

theorem step_same {v : Val} {p : PKey} {x : Val} (h : CanStep v p) : stepGet (stepSet v p x) p = some x := by
  cases p with
  | idx k => obtain ⟨xs, rfl, hk⟩ := h; simp [stepSet, stepGet, hk]
  | key s => obtain ⟨kvs, rfl⟩ := h; simp [stepSet, stepGet, dictGet_dictSet]

theorem step_other {v : Val} {p q : PKey} {x : Val} (h : p ≠ q) : stepGet (stepSet v p x) q = stepGet v q := by
  cases p with
  | idx k =>
    cases v <;> try rfl
    cases q with
    | idx m =>
      have : k ≠ m := fun e => h (by rw [e])
      simp [stepSet, stepGet, this]
    | key s => rfl
  | key s =>
    cases v <;> try rfl
    cases q with
    | idx m => rfl
    | key t =>
      have : s ≠ t := fun e => h (by rw [e])
      simp [stepSet, stepGet, dictGet_dictSet, this]

theorem pathSet_at {path : List PKey} {p : PKey} {x : Val} : ∀ {v c : Val}, pathGet v path = some c → CanStep c p →
    pathGet (pathSet v path (stepSet c p x)) (path ++ [p]) = some x := by
  induction path with
  | nil =>
    intro v c h hc
    simp [pathSet, pathGet, step_same hc]
  | cons q qs ih =>
    intro v c h hc
    rw [pathGet] at h
    cases hq : stepGet v q with
    | none => simp [hq] at h
    | some y =>
      simp only [hq] at h
      rw [pathSet, List.cons_append, pathGet]
      simp only [hq, step_same (canStep_of_get hq)]
      exact ih h hc

theorem pathSet_apart {path : List PKey} {p : PKey} {x : Val} : ∀ {v c : Val} {q : List PKey}, pathGet v path = some c →
    Apart (path ++ [p]) q → pathGet (pathSet v path (stepSet c p x)) q = pathGet v q := by
  induction path with
  | nil =>
    intro v c q h ha
    obtain rfl : v = c := by simpa [pathGet] using h
    cases q with
    | nil => exact absurd (List.nil_prefix) ha.2
    | cons q qs =>
      have : p ≠ q := fun e => ha.1 (by simp [e])
      rw [pathSet, pathGet, pathGet, step_other this]
  | cons r rs ih =>
    intro v c q h ha
    rw [pathGet] at h
    cases hr : stepGet v r with
    | none => simp [hr] at h
    | some y =>
      simp only [hr] at h
      rw [pathSet]
      simp only [hr]
      cases q with
      | nil => exact absurd (List.nil_prefix) ha.2
      | cons q qs =>
        by_cases e : r = q
        · subst e
          rw [pathGet, pathGet, step_same (canStep_of_get hr), hr]
          refine ih h ⟨fun hp => ha.1 ?_, fun hp => ha.2 ?_⟩
          · exact (List.prefix_cons_inj r).2 hp
          · exact (List.prefix_cons_inj r).2 hp
        · rw [pathGet, pathGet, step_other e]

theorem pathGet_append : ∀ {path : List PKey} {p : PKey} {v c y : Val}, pathGet v path = some c → stepGet c p = some y →
    pathGet v (path ++ [p]) = some y
  | [], p, v, c, y, h, hy => by
    obtain rfl : v = c := by simpa [pathGet] using h
    simp [pathGet, hy]
  | q :: qs, p, v, c, y, h, hy => by
    rw [pathGet] at h
    rw [List.cons_append, pathGet]
    cases hq : stepGet v q with
    | none => simp [hq] at h
    | some z =>
      simp only [hq] at h ⊢
      exact pathGet_append h hy

theorem dictSet_same {kvs : List (String × Val)} {s : String} {y : Val} (h : dictGet kvs s = some y) :
    dictSet s y kvs = kvs := by
  induction kvs with
  | nil => simp [dictGet] at h
  | cons kv r ih =>
    obtain ⟨k, v⟩ := kv
    by_cases e : k = s
    · subst e
      simp [dictGet] at h
      simp [dictSet, h]
    · have h' : dictGet r s = some y := by simpa [dictGet, List.find?_cons, e] using h
      simp [dictSet, e, ih h']

theorem step_self {v y : Val} {p : PKey} (h : stepGet v p = some y) : stepSet v p y = v := by
  cases p with
  | idx k =>
    cases v <;> simp [stepGet] at h
    obtain ⟨hk, rfl⟩ := List.getElem?_eq_some_iff.1 h
    exact congrArg Val.list (List.set_getElem_self hk)
  | key s =>
    cases v <;> simp [stepGet] at h
    simp [stepSet, dictSet_same h]

theorem pathSet_self {path : List PKey} : ∀ {v c : Val}, pathGet v path = some c → pathSet v path c = v := by
  induction path with
  | nil => intro v c h; simp [pathGet] at h; simp [pathSet, h]
  | cons p ps ih =>
    intro v c h
    rw [pathGet] at h
    rw [pathSet]
    cases hp : stepGet v p with
    | none => rfl
    | some y =>
      simp only [hp] at h ⊢
      rw [ih h, step_self hp]

/-! ### Keys -/

theorem normIdx_listKey {xs : List Val} {k : String} {z : Int} (hk : keyInt k = some z) (m : Nat) :
    normIdx xs.length z = some m ↔ ListKey xs k m := by
  unfold normIdx ListKey
  simp only []
  by_cases hz : z < 0
  · rw [if_pos hz]
    constructor
    · intro h
      by_cases hc : 0 ≤ z + (xs.length : Int) ∧ z + (xs.length : Int) < xs.length
      · rw [if_pos hc] at h
        have := Option.some.inj h
        exact ⟨z, hk, by omega, by omega⟩
      · rw [if_neg hc] at h; cases h
    · rintro ⟨z', hz', hm, hc⟩
      obtain rfl : z = z' := by rw [hk] at hz'; exact Option.some.inj hz'
      rw [if_pos (by omega)]; congr 1; omega
  · rw [if_neg hz]
    constructor
    · intro h
      by_cases hc : 0 ≤ z ∧ z < (xs.length : Int)
      · rw [if_pos hc] at h
        have := Option.some.inj h
        exact ⟨z, hk, by omega, by omega⟩
      · rw [if_neg hc] at h; cases h
    · rintro ⟨z', hz', hm, hc⟩
      obtain rfl : z = z' := by rw [hk] at hz'; exact Option.some.inj hz'
      rw [if_pos (by omega)]; congr 1; omega

/-! ### Key paths of containers -/

/-- nothing is linked through this name -/
def CalmKey (cd : ClassDef) (kp : String) : Prop := cd.localKey? kp = none ∧ ∀ f, cd.field? kp = some f → f.isRef = false

theorem joinL_dot (a b : List Char) (r : List (List Char)) : '.' ∈ joinL ['.'] (a :: b :: r) := by
  rw [joinL] <;> simp

theorem calm_path {cd : ClassDef} {n : String} (hd : DotFree cd) (hp : PlainField cd n) (hn : n ≠ "") (path : List PKey) :
    CalmKey cd (concatKeypath (.s n :: path.map PKey.toKey)) := by
  obtain ⟨f, hf, hl, hr, -⟩ := hp
  have hn' : decide (n.toList.length > 0) = true := by
    have : n.toList ≠ [] := fun h => hn (String.toList_eq_nil_iff.1 h)
    have := List.length_pos_iff.2 this
    simpa using this
  unfold concatKeypath
  rw [List.map_cons, List.filter_cons_of_pos (by simpa [Key.str] using hn')]
  generalize ((path.map PKey.toKey).map Key.str).filter (fun s => decide (s.toList.length > 0)) = r
  cases r with
  | nil =>
    have e : dotJoin [Key.str (.s n)] = n := by simp [dotJoin, joinL, Key.str]
    rw [e]
    exact ⟨hl, fun g hg => by rw [hf] at hg; cases hg; exact hr⟩
  | cons a r =>
    have hdot : '.' ∈ (dotJoin (Key.str (.s n) :: a :: r)).toList := by
      simp only [dotJoin, List.map_cons, String.toList_ofList]
      exact joinL_dot _ _ _
    refine ⟨?_, fun g hg => ?_⟩
    · cases h : cd.localKey? (dotJoin (Key.str (.s n) :: a :: r)) with
      | none => rfl
      | some g =>
        have h1 := List.find?_some h
        have h2 := List.mem_of_find?_eq_some h
        have h3 : g.refName = dotJoin (Key.str (.s n) :: a :: r) := by
          simp only [Bool.and_eq_true, decide_eq_true_eq] at h1
          exact h1.2
        exact absurd (h3 ▸ hdot) (hd g h2).2
    · have h1 := List.find?_some hg
      have h2 := List.mem_of_find?_eq_some hg
      have h3 : g.name = dotJoin (Key.str (.s n) :: a :: r) := by simpa using h1
      exact absurd (h3 ▸ hdot) (hd g h2).1

theorem olistDel_calm {i : Nat} {kp : String} {v : Val} {w : World} (hfuel : env.fuel ≠ 0) (hc : CalmKey (w.cdef env i) kp) :
    olistDel env i kp v w = (.ok (), w.upd i (markObj kp)) := by
  obtain ⟨n', hn'⟩ : ∃ n', env.fuel = n' + 1 := ⟨env.fuel - 1, by omega⟩
  unfold olistDel
  rw [hn']
  simp only [runU, delBody, Py.bind_run, Py.get_run]
  rw [hc.1]
  cases hf : (w.cdef env i).field? kp with
  | none => simp only [delRef, Py.bind_run, Py.pure_run]; rfl
  | some f => simp only [delRef, hc.2 f hf, Bool.false_eq_true, if_false, Py.bind_run, Py.pure_run]; rfl

theorem olistAdd_calm {i : Nat} {kp : String} {k : Int} {v : Val} {w : World} (hfuel : env.fuel ≠ 0)
    (hc : CalmKey (w.cdef env i) kp) (hv : NotContainer v) : olistAdd env i kp k v w = (.ok (), w.upd i (markObj kp)) := by
  obtain ⟨n', hn'⟩ : ∃ n', env.fuel = n' + 1 := ⟨env.fuel - 1, by omega⟩
  unfold olistAdd
  rw [hn']
  simp only [runL, addBody, Py.bind_run, Py.get_run]
  rw [hc.1]
  cases hf : (w.cdef env i).field? kp with
  | none =>
    simp only [addRef, Py.bind_run, Py.pure_run]
    cases v <;> first | rfl | exact absurd hv (by simp [NotContainer])
  | some f =>
    simp only [addRef, hc.2 f hf, Bool.false_eq_true, if_false, Py.bind_run, Py.pure_run]
    cases v <;> first | rfl | exact absurd hv (by simp [NotContainer])

theorem odictAdd_calm {i : Nat} {kp : String} {v : Val} {w : World} (hfuel : env.fuel ≠ 0) (hv : NotContainer v) :
    odictAdd i kp env.fuel v w = (.ok (), w.upd i (markObj kp)) := by
  obtain ⟨n', hn'⟩ : ∃ n', env.fuel = n' + 1 := ⟨env.fuel - 1, by omega⟩
  rw [hn']
  exact (odictAdd_plain i kp v n' w).1 hv

/-! ### Writing one entry -/

/-- One attribute of one object has a new value; the object may be marked as modified. -/
structure Wrote (i : Nat) (n : String) (x : Val) (w w' : World) : Prop where
  value : w'.attr i n = x
  attrs : ∀ m, m ≠ n → w'.attr i m = w.attr i m
  others : ∀ j, j ≠ i → w'.heap j = w.heap j
  cls : (w'.heap i).cls = (w.heap i).cls
  marked : (w.heap i).isNew = false → (w'.heap i).isModified = true

theorem markObj_modified (kp : String) (o : Obj) : (markObj kp o).isNew = o.isNew ∧
    (o.isNew = false → (markObj kp o).isModified = true) := by
  unfold markObj
  cases h : o.isNew <;> simp [h]

theorem wrote_upd {i : Nat} {n : String} {x : Val} {w : World} {g : Obj → Obj}
    (h1 : ∀ o, (g o).attrs = fun m => if m = n then x else o.attrs m) (h2 : ∀ o, (g o).cls = o.cls)
    (h3 : ∀ o, o.isNew = false → (g o).isModified = true) : Wrote i n x w (w.upd i g) := by
  refine ⟨?_, fun m hm => ?_, fun j hj => upd_heap_other w g hj, ?_, fun hn => ?_⟩
  · unfold World.attr; rw [upd_heap_self, h1]; simp
  · unfold World.attr; rw [upd_heap_self, h1]; simp [hm]
  · rw [upd_heap_self, h2]
  · rw [upd_heap_self]; exact h3 _ hn

/-- marks made after the write -/
theorem forEvs_marks {ε : Type} {run : ε → Py World Unit} {i : Nat} {kp : String} {cd : ClassDef}
    {log : List ε} (hrun : ∀ e ∈ log, ∀ w, w.cdef env i = cd → run e w = (.ok (), w.upd i (markObj kp))) :
    ∀ {w : World}, w.cdef env i = cd → log ≠ [] → forEvs run log w = (.ok (), w.upd i (markObj kp)) := by
  induction log with
  | nil => intro w _ h; exact absurd rfl h
  | cons e es ih =>
    intro w hcd _
    rw [forEvs, Py.bind_run, hrun e (by simp) w hcd]
    simp only []
    cases es with
    | nil => rfl
    | cons e' es =>
      rw [ih (fun e he => hrun e (by simp [he])) (by rw [← hcd]; exact cdef_upd (markObj_cls _ _).1) (by simp), upd_upd]
      congr 1
      exact upd_congr _ _ (markObj_idem _ _)

theorem write_run {i : Nat} {n kp : String} {x : Val} {w : World} {f : Field} {b : Bool} {ε : Type} {run : ε → Py World Unit}
    {log : List ε} (hf : (w.cdef env i).field? n = some f) (hlog : log ≠ [])
    (hrun : ∀ e ∈ log, ∀ w1, w1.cdef env i = w.cdef env i → run e w1 = (.ok (), w1.upd i (markObj kp))) :
    ∃ w', ((do
      pyWhen true (willChange env b i n)
      rawSet i n x
      forEvs run log
      raiseOpt none) : Py World Unit) w = (.ok (), w') ∧ Wrote i n x w w' := by
  refine ⟨w.upd i (fun o => markObj kp (setVal n x (willObj (w.cdef env i) f n o))), ?_, ?_⟩
  · have e1 : (w.upd i (willObj (w.cdef env i) f n)).cdef env i = w.cdef env i := cdef_upd (willObj_cls _ _ _ _).1
    simp only [Py.bind_run, pyWhen, if_true, willChange_run b i n f w hf]
    have e2 : rawSet i n x (w.upd i (willObj (w.cdef env i) f n)) =
        (.ok (), w.upd i (fun o => setVal n x (willObj (w.cdef env i) f n o))) := by
      rw [← upd_upd w i (willObj (w.cdef env i) f n) (setVal n x)]; rfl
    rw [e2]
    simp only []
    have e3 : (w.upd i (fun o => setVal n x (willObj (w.cdef env i) f n o))).cdef env i = w.cdef env i :=
      cdef_upd (willObj_cls _ _ _ _).1
    rw [forEvs_marks hrun e3 hlog, upd_upd]
    rfl
  · refine wrote_upd (fun o => ?_) (fun o => ?_) (fun o hn => ?_)
    · rw [(markObj_cls _ _).2.1]; unfold setVal; simp only [(willObj_cls _ _ _ _).2.1]
    · rw [(markObj_cls _ _).1]; exact (willObj_cls _ _ _ _).1
    · exact (markObj_modified kp _).2 ((willObj_cls _ _ _ _).2.2.1.trans hn)

theorem listSetAt_run {i : Nat} {n : String} {path : List PKey} {k : Int} {v : Val} {w : World} {xs : List Val} {m : Nat}
    {f : Field} (hfuel : env.fuel ≠ 0) (hf : (w.cdef env i).field? n = some f)
    (hc : CalmKey (w.cdef env i) (concatKeypath (.s n :: path.map PKey.toKey))) (hv : NotContainer v)
    (hx : pathGet (w.attr i n) path = some (.list xs)) (hm : normIdx xs.length k = some m) :
    ∃ w', listSetAt env i n path k v w = (.ok (), w') ∧
      Wrote i n (pathSet (w.attr i n) path (stepSet (.list xs) (.idx m) v)) w w' := by
  unfold listSetAt
  have hop : ownedOp pyEq (.setIdx k v) xs = ⟨none, xs.set m v, .will :: (dels (getIdxs xs [m]) ++
      [.add (if k < 0 then xs.length + k else k) v])⟩ := by
    simp [ownedOp, notified, withIdx, hm]
  have hlog : ((.will :: (dels (getIdxs xs [m]) ++ [.add (if k < 0 then xs.length + k else k) v])) : List (LEv Val)).filter
      (fun e => !e.isWill) = dels (getIdxs xs [m]) ++ [.add (if k < 0 then xs.length + k else k) v] := by
    rw [List.filter_cons_of_neg (by simp [LEv.isWill]), List.filter_eq_self]
    intro e he
    rcases List.mem_append.1 he with he | he
    · obtain ⟨y, -, rfl⟩ := List.mem_map.1 he; rfl
    · simp at he; subst he; rfl
  have hwill : decide ((((.will :: (dels (getIdxs xs [m]) ++ [.add (if k < 0 then xs.length + k else k) v])) : List (LEv Val)).filter
      LEv.isWill).length > 0) = true := by
    rw [List.filter_cons_of_pos rfl]; simp
  have h := write_run (env := env) (i := i) (n := n) (kp := concatKeypath (.s n :: path.map PKey.toKey)) (b := false)
    (x := pathSet (w.attr i n) path (stepSet (.list xs) (.idx m) v))
    (run := ownerLEv env i (concatKeypath (.s n :: path.map PKey.toKey)))
    (log := dels (getIdxs xs [m]) ++ [.add (if k < 0 then xs.length + k else k) v]) hf (by simp) (by
      intro e he w1 hcd
      rcases List.mem_append.1 he with he | he
      · obtain ⟨y, -, rfl⟩ := List.mem_map.1 he
        exact olistDel_calm hfuel (hcd ▸ hc)
      · simp at he; subst he
        exact olistAdd_calm hfuel (hcd ▸ hc) hv)
  obtain ⟨w', h1, h2⟩ := h
  refine ⟨w', ?_, h2⟩
  rw [← h1, Py.bind_run, Py.get_run]
  simp only [hx, hop, hlog, hwill, stepSet]

theorem dictSetAt_run {i : Nat} {n : String} {path : List PKey} {k : String} {v : Val} {w : World} {kvs : List (String × Val)}
    {f : Field} (hfuel : env.fuel ≠ 0) (hf : (w.cdef env i).field? n = some f) (hv : NotContainer v)
    (hx : pathGet (w.attr i n) path = some (.dict kvs)) :
    ∃ w', dictSetAt env i n path k v w = (.ok (), w') ∧
      Wrote i n (pathSet (w.attr i n) path (stepSet (.dict kvs) (.key k) v)) w w' := by
  unfold dictSetAt
  have hlog : ((.will :: ((dictGet kvs k).toList.map .del ++ [.add k v])) : List (DEv Val)).filter
      (fun e => !e.isWill) = (dictGet kvs k).toList.map .del ++ [.add k v] := by
    rw [List.filter_cons_of_neg (by simp [DEv.isWill]), List.filter_eq_self]
    intro e he
    rcases List.mem_append.1 he with he | he
    · obtain ⟨y, -, rfl⟩ := List.mem_map.1 he; rfl
    · simp at he; subst he; rfl
  have hwill : decide ((((.will :: ((dictGet kvs k).toList.map .del ++ [.add k v])) : List (DEv Val)).filter
      DEv.isWill).length > 0) = true := by
    rw [List.filter_cons_of_pos rfl]; simp
  have h := write_run (env := env) (i := i) (n := n) (kp := concatKeypath (.s n :: path.map PKey.toKey)) (b := true)
    (x := pathSet (w.attr i n) path (stepSet (.dict kvs) (.key k) v))
    (run := ownerDEv env i (concatKeypath (.s n :: path.map PKey.toKey)))
    (log := (dictGet kvs k).toList.map .del ++ [.add k v]) hf (by simp) (by
      intro e he w1 hcd
      rcases List.mem_append.1 he with he | he
      · obtain ⟨y, -, rfl⟩ := List.mem_map.1 he
        exact markModified_run _ _ _
      · simp at he; subst he
        exact odictAdd_calm hfuel hv)
  obtain ⟨w', h1, h2⟩ := h
  refine ⟨w', ?_, h2⟩
  rw [← h1, Py.bind_run, Py.get_run]
  have hop : ownedDOp Val.none (.setItem k v) kvs = ⟨none, .none, dictSet k v kvs, .will :: ((dictGet kvs k).toList.map .del ++ [.add k v])⟩ := rfl
  simp only [hx, hop, hlog, hwill, stepSet]

/-! ### The walk -/

theorem keyWalk_list_one {vis : Visitor} {v : Val} {k : String} {i : Nat} {n : String} {path : List PKey} {ch : List Mod}
    {xs : List Val} : keyWalk env vis v [k] i n path .list ch (.list xs) = (do
      let m ← intKey k
      listSetAt env i n path m v) := by rw [keyWalk]

theorem keyWalk_list_more {vis : Visitor} {v : Val} {k : String} {ks : List String} {i : Nat} {n : String} {path : List PKey}
    {ch : List Mod} {xs : List Val} (h : ks ≠ []) : keyWalk env vis v (k :: ks) i n path .list ch (.list xs) = (do
      let m ← intKey k
      let x ← listItem xs m
      keyWalk env vis v ks i n (path ++ [.idx x.1]) (chainFTy (chainItems ch)) (chainItems ch) x.2) := by
  cases ks with
  | nil => exact absurd rfl h
  | cons k' ks => rw [keyWalk]

theorem keyWalk_dict_one {vis : Visitor} {v : Val} {k : String} {i : Nat} {n : String} {path : List PKey} {ch : List Mod}
    {kvs : List (String × Val)} : keyWalk env vis v [k] i n path .dict ch (.dict kvs) = dictSetAt env i n path k v := by
  rw [keyWalk]

theorem keyWalk_dict_more {vis : Visitor} {v : Val} {k : String} {ks : List String} {i : Nat} {n : String} {path : List PKey}
    {ch : List Mod} {kvs : List (String × Val)} (h : ks ≠ []) : keyWalk env vis v (k :: ks) i n path .dict ch (.dict kvs) = (do
      let x ← dictItemOf kvs k
      keyWalk env vis v ks i n (path ++ [.key k]) (chainFTy (chainItems ch)) (chainItems ch) x) := by
  cases ks with
  | nil => exact absurd rfl h
  | cons k' ks => rw [keyWalk]

theorem intKey_run {k : String} {z : Int} (h : keyInt k = some z) (w : World) : intKey k w = (.ok z, w) := by
  unfold intKey; rw [h]; rfl

theorem listItem_run {xs : List Val} {z : Int} {m : Nat} {x : Val} (h : normIdx xs.length z = some m) (hx : xs[m]? = some x)
    (w : World) : listItem xs z w = (.ok (m, x), w) := by
  unfold listItem; rw [h]; simp only [hx]; rfl

theorem dictItemOf_run {kvs : List (String × Val)} {k : String} {x : Val} (h : dictGet kvs k = some x) (w : World) :
    dictItemOf kvs k w = (.ok x, w) := by
  unfold dictItemOf; rw [h]; rfl

theorem denotes_ne {ty : FTy} {ch : List Mod} {v : Val} {ks : List String} {ps : List PKey} (h : NamesPlace ty ch v ks ps) :
    ks ≠ [] := by cases h <;> simp

theorem keyWalk_ok {vis : Visitor} {v : Val} {i : Nat} {n : String} {w : World} {f : Field} (hfuel : env.fuel ≠ 0)
    (hf : (w.cdef env i).field? n = some f)
    (hc : ∀ path : List PKey, CalmKey (w.cdef env i) (concatKeypath (.s n :: path.map PKey.toKey))) (hv : NotContainer v)
    {ty : FTy} {ch : List Mod} {dest : Val} {ks : List String} {ps : List PKey} (h : NamesPlace ty ch dest ks ps) :
    ∀ {path : List PKey}, pathGet (w.attr i n) path = some dest →
    ∃ w' q p c, keyWalk env vis v ks i n path ty ch dest w = (.ok (), w') ∧ path ++ ps = q ++ [p] ∧
      pathGet (w.attr i n) q = some c ∧ CanStep c p ∧ Wrote i n (pathSet (w.attr i n) q (stepSet c p v)) w w' := by
  induction h with
  | @idx ch xs k m hk =>
    intro path hp
    obtain ⟨z, hz, hlen, -⟩ := id hk
    obtain ⟨w', h1, h2⟩ := listSetAt_run (v := v) hfuel hf (hc path) hv hp ((normIdx_listKey hz m).2 hk)
    refine ⟨w', path, .idx m, .list xs, ?_, rfl, hp, ⟨xs, rfl, hlen⟩, h2⟩
    rw [keyWalk_list_one, Py.bind_run, intKey_run hz]
    exact h1
  | @key ch kvs k =>
    intro path hp
    obtain ⟨w', h1, h2⟩ := dictSetAt_run (k := k) (v := v) hfuel hf hv hp
    refine ⟨w', path, .key k, .dict kvs, ?_, rfl, hp, ⟨kvs, rfl⟩, h2⟩
    rw [keyWalk_dict_one]
    exact h1
  | @idxs ch xs k m x ks ps hk hx hd ih =>
    intro path hp
    obtain ⟨z, hz, hlen, -⟩ := id hk
    obtain ⟨w', q, p, c, h1, h2, h3⟩ := ih (path := path ++ [.idx m]) (pathGet_append (p := .idx m) hp hx)
    refine ⟨w', q, p, c, ?_, by rw [← h2]; simp, h3⟩
    rw [keyWalk_list_more (denotes_ne hd), Py.bind_run, intKey_run hz]
    simp only []
    rw [Py.bind_run, listItem_run ((normIdx_listKey hz m).2 hk) hx]
    exact h1
  | @keys ch kvs k x ks ps hx hd ih =>
    intro path hp
    obtain ⟨w', q, p, c, h1, h2, h3⟩ := ih (path := path ++ [.key k]) (pathGet_append (p := .key k) hp hx)
    refine ⟨w', q, p, c, ?_, by rw [← h2]; simp, h3⟩
    rw [keyWalk_dict_more (denotes_ne hd), Py.bind_run, dictItemOf_run hx]
    exact h1

/-! ### Paths that name nothing -/

/-- the values and marks of all objects are as before (a value to go back to may have been
recorded) -/
structure SameValues (w w' : World) : Prop where
  attrs : ∀ j m, w'.attr j m = w.attr j m
  cls : ∀ j, (w'.heap j).cls = (w.heap j).cls
  modified : ∀ j, (w'.heap j).isModified = (w.heap j).isModified
  fields : ∀ j, (w'.heap j).modFields = (w.heap j).modFields

theorem sameValues_refl (w : World) : SameValues w w := ⟨fun _ _ => rfl, fun _ => rfl, fun _ => rfl, fun _ => rfl⟩

theorem sameValues_upd {i : Nat} {w : World} {g : Obj → Obj} (h : (g (w.heap i)).attrs = (w.heap i).attrs ∧
    (g (w.heap i)).cls = (w.heap i).cls ∧ (g (w.heap i)).isModified = (w.heap i).isModified ∧
    (g (w.heap i)).modFields = (w.heap i).modFields) : SameValues w (w.upd i g) := by
  have hh : ∀ j, ((w.upd i g).heap j).attrs = (w.heap j).attrs ∧ ((w.upd i g).heap j).cls = (w.heap j).cls ∧
      ((w.upd i g).heap j).isModified = (w.heap j).isModified ∧ ((w.upd i g).heap j).modFields = (w.heap j).modFields := by
    intro j
    by_cases e : j = i
    · subst e; rw [upd_heap_self]; exact h
    · rw [upd_heap_other _ _ e]; exact ⟨rfl, rfl, rfl, rfl⟩
  exact ⟨fun j m => by unfold World.attr; rw [(hh j).1], fun j => (hh j).2.1, fun j => (hh j).2.2.1, fun j => (hh j).2.2.2⟩

theorem listSetAt_fails {i : Nat} {n : String} {path : List PKey} {k : Int} {v : Val} {w : World} {xs : List Val} {f : Field}
    (hf : (w.cdef env i).field? n = some f)
    (hx : pathGet (w.attr i n) path = some (.list xs)) (hm : normIdx xs.length k = none) :
    ∃ w', listSetAt env i n path k v w = (.error .indexError, w') ∧ SameValues w w' := by
  unfold listSetAt
  have hop : ownedOp pyEq (.setIdx k v) xs = ⟨some .indexError, xs, [.will]⟩ := by
    simp [ownedOp, notified, withIdx, hm, failed]
  refine ⟨w.upd i (fun o => setVal n (w.attr i n) (willObj (w.cdef env i) f n o)), ?_, ?_⟩
  · rw [Py.bind_run, Py.get_run]
    simp only [hx, hop, pathSet_self hx]
    simp only [List.filter_cons, LEv.isWill, if_true, List.filter_nil, List.length_cons, List.length_nil, Bool.not_true,
      Bool.false_eq_true, if_false, forEvs, raiseOpt]
    simp only [Py.bind_run, pyWhen]
    rw [show decide (0 + 1 > 0) = true from rfl, if_pos rfl, willChange_run false i n f w hf, ← upd_upd w i (willObj (w.cdef env i) f n) (setVal n (w.attr i n))]
    rfl
  · refine sameValues_upd ⟨?_, (willObj_cls _ _ _ _).1, (willObj_cls _ _ _ _).2.2.2.2, (willObj_cls _ _ _ _).2.2.2.1⟩
    simp only [setVal, (willObj_cls _ _ _ _).2.1, World.attr]
    funext m
    by_cases e : m = n <;> simp [e]

theorem keyWalk_bad {vis : Visitor} {v : Val} {i : Nat} {n : String} {w : World} {f : Field}
    (hf : (w.cdef env i).field? n = some f) :
    ∀ {ks : List String} {ty : FTy} {ch : List Mod} {dest : Val} {path : List PKey}, ks ≠ [] → Nested ks.length ty ch →
    (∀ ps, ¬ NamesPlace ty ch dest ks ps) → pathGet (w.attr i n) path = some dest →
    ∃ e w', keyWalk env vis v ks i n path ty ch dest w = (.error e, w') ∧ SameValues w w'
  | [], _, _, _, _, h, _, _, _ => absurd rfl h
  | k :: ks, ty, ch, dest, path, _, hn, hd, hp => by
    rcases hn with ⟨rfl | rfl, hn⟩
    · cases dest with
      | list xs =>
        cases hz : keyInt k with
        | none =>
          refine ⟨.valueError, w, ?_, sameValues_refl w⟩
          cases ks with
          | nil => rw [keyWalk_list_one, Py.bind_run]; unfold intKey; rw [hz]; rfl
          | cons k' ks => rw [keyWalk_list_more (by simp), Py.bind_run]; unfold intKey; rw [hz]; rfl
        | some z =>
          cases hm : normIdx xs.length z with
          | none =>
            cases ks with
            | nil =>
              obtain ⟨w', h1, h2⟩ := listSetAt_fails (v := v) hf hp hm
              refine ⟨.indexError, w', ?_, h2⟩
              rw [keyWalk_list_one, Py.bind_run, intKey_run hz]
              exact h1
            | cons k' ks =>
              refine ⟨.indexError, w, ?_, sameValues_refl w⟩
              rw [keyWalk_list_more (by simp), Py.bind_run, intKey_run hz]
              simp only []
              rw [Py.bind_run]
              unfold listItem
              rw [hm]
              rfl
          | some m =>
            have hk := (normIdx_listKey hz m).1 hm
            cases ks with
            | nil => exact absurd (.idx hk) (hd _)
            | cons k' ks =>
              obtain ⟨_, _, hlen, _⟩ := id hk
              have hx : xs[m]? = some xs[m] := by simp [hlen]
              obtain ⟨e, w', h1, h2⟩ := keyWalk_bad (vis := vis) (v := v) hf (ks := k' :: ks) (path := path ++ [.idx m])
                (by simp) hn (fun ps hps => hd _ (.idxs hk hx hps)) (pathGet_append (p := .idx m) hp hx)
              refine ⟨e, w', ?_, h2⟩
              rw [keyWalk_list_more (by simp), Py.bind_run, intKey_run hz]
              simp only []
              rw [Py.bind_run, listItem_run hm hx]
              exact h1
      | none => exact ⟨_, w, by rw [keyWalk]; rfl, sameValues_refl w⟩
      | _ => exact ⟨.typeError, w, by rw [keyWalk] <;> simp <;> rfl, sameValues_refl w⟩
    · cases dest with
      | dict kvs =>
        cases ks with
        | nil => exact absurd .key (hd _)
        | cons k' ks =>
          rw [keyWalk_dict_more (by simp), Py.bind_run]
          cases hx : dictGet kvs k with
          | none =>
            refine ⟨.keyError, w, ?_, sameValues_refl w⟩
            unfold dictItemOf; rw [hx]; rfl
          | some x =>
            rw [dictItemOf_run hx]
            exact keyWalk_bad hf (by simp) hn (fun ps hps => hd _ (.keys hx hps)) (pathGet_append (p := .key k) hp hx)
      | none => exact ⟨_, w, by rw [keyWalk]; rfl, sameValues_refl w⟩
      | _ => exact ⟨.typeError, w, by rw [keyWalk] <;> simp <;> rfl, sameValues_refl w⟩

/-! ### `set` without single keys -/

theorem transformFields_empty {ops : Field → Ops World} {c : Ctx} {i : Nat} {soft : Bool} {w : World}
    (hb : c.cfg.fillBlanks = false) : ∀ fs : List Field, transformFields env ops c i soft [] fs w = (.ok (), w)
  | [] => rfl
  | f :: fs => by
    have h : transformField env ops c i soft [] f w = (.ok (), w) := by
      unfold transformField
      rw [if_neg (by simp [hasFieldValue, dictGet])]
      unfold absentField
      split
      · split
        · simp [setRefKey, getD, dictGet, Val.isNone, Py.bind_run]
        · rfl
      · simp [hb]
    rw [transformFields, Py.bind_run, h]
    exact transformFields_empty hb fs

/-- the lists of linked objects that may not be null are lists already (a constructor sees to it) -/
def ListsFilled (env : Env) (w : World) (i : Nat) : Prop := ∀ f ∈ (w.cdef env i).fields, f.isRef = true → f.ftype = .list →
  f.collNonnull = true → ∃ x, w.getattr env i f.name = .ok x ∧ x.isNone = false

theorem fillRefLists_empty {i : Nat} {w : World} : ∀ {ns : List String},
    (∀ n ∈ ns, ∃ x, w.getattr env i n = .ok x ∧ x.isNone = false) → fillRefLists env i ns w = (.ok (), w)
  | [], _ => rfl
  | n :: ns, h => by
    obtain ⟨x, h1, h2⟩ := h n (by simp)
    have hr : readW (fun w => w.getattr env i n) w = (.ok x, w) := by simp only [readW, h1]
    rw [fillRefLists, Py.bind_run, hr]
    simp only [h2, pyWhen, Bool.false_eq_true, if_false]
    rw [Py.bind_run]
    exact fillRefLists_empty (fun n hn => h n (by simp [hn]))

theorem setDict_empty {m i : Nat} {w : World} (h : ListsFilled env w i) :
    setDict (instOps env (m + 1)) i [] false w = (.ok (), w) := by
  unfold setDict
  rw [Py.bind_run, Py.get_run]
  simp only []
  rw [Py.bind_run]
  unfold withFreshMarks
  rw [root_transform, Py.bind_run]
  have hpk : inputPk env (w.heap i).cls [] = .none := by
    unfold inputPk; split <;> simp [getD, dictGet]
  rw [hpk]
  simp only [Val.isNone, Bool.not_true, pyWhen, Bool.false_eq_true, if_false]
  have happ : ∀ c : Ctx, c.cfg.fillBlanks = false → applyDict env (Field.ops env (instOps env m)) (w.heap i).cls none c i false []
      { w with marks := [] } = (.ok (), { w with marks := [] }) := by
    intro c hb
    unfold applyDict
    rw [Py.bind_run, Py.get_run]
    simp only []
    rw [Py.bind_run]
    have h1 : pyWhen ((none : Option Bool).getD (env.cls (w.heap i).cls).strictInput) (readW (fun _ => strictCheck c
        (World.cdef env { w with marks := [] } i).availableNames [])) { w with marks := [] } = (.ok (), { w with marks := [] }) := by
      unfold pyWhen; split <;> rfl
    rw [h1]
    simp only []
    rw [Py.bind_run, transformFields_empty hb]
    simp only []
    refine fillRefLists_empty ?_
    intro n hn
    obtain ⟨f, hf, rfl⟩ := List.mem_map.1 hn
    have hf' := List.mem_filter.1 hf
    simp only [Bool.and_eq_true, decide_eq_true_eq] at hf'
    exact h f hf'.1 hf'.2.1.1.2 hf'.2.1.2 hf'.2.2
  rw [Py.pure_run]
  simp only []
  rw [Py.bind_run, happ _ rfl]
  rfl

/-! ### C54 -/

theorem keySetAll_one {vis : Visitor} {i : Nat} {k : String} {v : Val} {w : World} :
    keySetAll env vis i [(k, v)] w = keySet env vis i (keypathSplit k) v w := by
  rw [keySetAll, Py.bind_run]
  rcases h : keySet env vis i (keypathSplit k) v w with ⟨_ | _, w'⟩ <;> rfl

theorem writePath_compound {n : String} {r : List (Bool × String)} (hr : r ≠ []) : isCompound (writePath n r) = true := by
  cases r with
  | nil => exact absurd rfl hr
  | cons x r =>
    obtain ⟨b, k⟩ := x
    cases b <;> simp [isCompound, writePath, isSep]

theorem apiSetAll_one {m i : Nat} {n : String} {r : List (Bool × String)} {v : Val} {w : World} (h : ListsFilled env w i)
    (hn : Component n) (hr : ∀ x ∈ r, Component x.2) (hne : r ≠ []) :
    apiSetAll env (m + 1) i [(writePath n r, v)] w = keySet env (instOps env (m + 1)) i (n :: r.map Prod.snd) v w := by
  unfold apiSetAll
  have h1 : singleKeyArgs [(writePath n r, v)] = [] := by simp [singleKeyArgs, writePath_compound hne]
  have h2 : compoundKeyArgs [(writePath n r, v)] = [(writePath n r, v)] := by simp [compoundKeyArgs, writePath_compound hne]
  rw [h1, h2, Py.bind_run, setDict_empty h]
  simp only []
  rw [keySetAll_one, keypathSplit_writePath n r hn hr]

theorem keyField_run {i : Nat} {n : String} {w : World} {f : Field} (hf : (w.cdef env i).field? n = some f)
    (hs : f.store ≠ .calculated) : keyField env i n w = (.ok (f, w.attr i n), w) := by
  unfold keyField
  rw [Py.bind_run, Py.get_run]
  simp only [hf]
  rw [Py.bind_run]
  have : readW (fun w => w.getattr env i n) w = (.ok (w.attr i n), w) := by
    unfold readW World.getattr; simp only [hf, if_neg hs]
  rw [this]
  rfl

/-- **C54**, the place: `obj.set(**{'n.k1.k2': v})`, spelled with dots or brackets, for a path
through lists and dicts that names a place (an existing position of a list, any key of a dict).
Afterwards that place holds the value; every other place in the field holds what it held; all
other fields and all other objects are untouched; the object counts as modified. Partial: values
that are lists or dicts are left out (`keyset_container_diverges`). -/
theorem keyset_exact_partial {m i : Nat} {n : String} {r : List (Bool × String)} {v : Val} {w : World} {f : Field}
    {ps : List PKey} (hfuel : env.fuel ≠ 0) (hl : ListsFilled env w i) (hd : DotFree (w.cdef env i))
    (hp : PlainField (w.cdef env i) n) (hf : (w.cdef env i).field? n = some f)
    (hn : Component n) (hr : ∀ x ∈ r, Component x.2)
    (hden : NamesPlace f.ftype f.chain (w.attr i n) (r.map Prod.snd) ps) (hv : NotContainer v) :
    ∃ w', apiSetAll env (m + 1) i [(writePath n r, v)] w = (.ok (), w') ∧
      At (w'.attr i n) ps v ∧ (∀ q x, Apart ps q → (At (w'.attr i n) q x ↔ At (w.attr i n) q x)) ∧
      (∀ k, k ≠ n → w'.attr i k = w.attr i k) ∧ (∀ j, j ≠ i → w'.heap j = w.heap j) ∧
      ((w.heap i).isNew = false → (w'.heap i).isModified = true) := by
  obtain ⟨g, hg, hloc, href, hst⟩ := id hp
  obtain rfl : g = f := by rw [hf] at hg; exact (Option.some.inj hg).symm
  obtain ⟨w', q, p, c, h1, h2, h3, h4, h5⟩ := keyWalk_ok (vis := instOps env (m + 1)) (v := v) hfuel hf
    (calm_path hd hp hn.1) hv hden (path := []) rfl
  have hne : r ≠ [] := fun e => denotes_ne hden (by simp [e])
  obtain rfl : ps = q ++ [p] := by simpa using h2
  refine ⟨w', ?_, ?_, ?_, h5.attrs, h5.others, h5.marked⟩
  · rw [apiSetAll_one hl hn hr hne]
    unfold keySet
    simp only []
    rw [Py.bind_run, keyField_run hf hst]
    exact h1
  · rw [h5.value, at_iff]; exact pathSet_at h3 h4
  · intro q' x ha
    rw [h5.value, at_iff, at_iff, pathSet_apart h3 ha]

/-- **C54**, no place: a path that does not name a place of the field raises, and no field of any
object changes. -/
theorem keyset_bad_path {m i : Nat} {n : String} {r : List (Bool × String)} {v : Val} {w : World} {f : Field}
    (hl : ListsFilled env w i) (hf : (w.cdef env i).field? n = some f) (hs : f.store ≠ .calculated)
    (hn : Component n) (hr : ∀ x ∈ r, Component x.2) (hne : r ≠ []) (ht : Nested r.length f.ftype f.chain)
    (hden : ∀ ps, ¬ NamesPlace f.ftype f.chain (w.attr i n) (r.map Prod.snd) ps) :
    ∃ e w', apiSetAll env (m + 1) i [(writePath n r, v)] w = (.error e, w') ∧ SameValues w w' := by
  obtain ⟨e, w', h1, h2⟩ := keyWalk_bad (vis := instOps env (m + 1)) (v := v) hf (ks := r.map Prod.snd) (path := [])
    (by simpa using hne) (by simpa using ht) hden rfl
  refine ⟨e, w', ?_, h2⟩
  rw [apiSetAll_one hl hn hr hne]
  unfold keySet
  simp only []
  rw [Py.bind_run, keyField_run hf hs]
  exact h1

/-- the object a list of keys leads to, from a value of declared type -/
inductive LeadsTo : FTy → List Mod → Val → List String → Nat → Prop
  | here {ch : List Mod} {j : Nat} : LeadsTo .inst ch (.obj j) [] j
  | item {ch : List Mod} {xs : List Val} {k : String} {m : Nat} {x : Val} {ks : List String} {j : Nat} :
      ListKey xs k m → xs[m]? = some x → LeadsTo (chainFTy (chainItems ch)) (chainItems ch) x ks j →
      LeadsTo .list ch (.list xs) (k :: ks) j
  | entry {ch : List Mod} {kvs : List (String × Val)} {k : String} {x : Val} {ks : List String} {j : Nat} :
      dictGet kvs k = some x → LeadsTo (chainFTy (chainItems ch)) (chainItems ch) x ks j →
      LeadsTo .dict ch (.dict kvs) (k :: ks) j

theorem keyWalk_obj {vis : Visitor} {v : Val} {k : String} {r : List String} {ty : FTy} {ch : List Mod} {dest : Val}
    {ks : List String} {j : Nat} (h : LeadsTo ty ch dest ks j) : ∀ {i : Nat} {n : String} {path : List PKey} {w : World},
    keyWalk env vis v (ks ++ k :: r) i n path ty ch dest w =
      (if r = [] then setDict vis j [(k, v)] false else keySet env vis j (k :: r) v) w := by
  induction h with
  | here =>
    intro i n path w
    cases r with
    | nil => rw [List.nil_append, keyWalk]; simp
    | cons k' r => rw [List.nil_append, keyWalk, keySet]; simp
  | @item ch xs k' m x ks j hk hx hd ih =>
    intro i n path w
    obtain ⟨z, hz, hlen, -⟩ := id hk
    rw [List.cons_append, keyWalk_list_more (by simp), Py.bind_run, intKey_run hz]
    simp only []
    rw [Py.bind_run, listItem_run ((normIdx_listKey hz m).2 hk) hx]
    exact ih
  | @entry ch kvs k' x ks j hx hd ih =>
    intro i n path w
    rw [List.cons_append, keyWalk_dict_more (by simp), Py.bind_run, dictItemOf_run hx]
    exact ih

/-- **C54**, objects: when the path leads to a field of another object, the call is `set` of
that object with the rest of the path, whatever the value: its write rules, transformations
and links apply. -/
theorem keyset_object {m i j : Nat} {n k : String} {r s : List (Bool × String)} {b : Bool} {v : Val} {w : World} {f : Field}
    (hl : ListsFilled env w i) (hl' : ListsFilled env w j)
    (hf : (w.cdef env i).field? n = some f) (hs : f.store ≠ .calculated)
    (hn : Component n) (hr : ∀ x ∈ r, Component x.2) (hk : Component k) (hsc : ∀ x ∈ s, Component x.2)
    (hlead : LeadsTo f.ftype f.chain (w.attr i n) (r.map Prod.snd) j) :
    apiSetAll env (m + 1) i [(writePath n (r ++ (b, k) :: s), v)] w = apiSetAll env (m + 1) j [(writePath k s, v)] w := by
  rw [apiSetAll_one hl hn (by
    intro x hx
    rcases List.mem_append.1 hx with hx | hx
    · exact hr x hx
    · rcases List.mem_cons.1 hx with rfl | hx
      · exact hk
      · exact hsc x hx) (by simp)]
  unfold keySet
  simp only []
  rw [Py.bind_run, keyField_run hf hs]
  simp only []
  rw [List.map_append, List.map_cons, keyWalk_obj hlead]
  by_cases e : s = []
  · subst e
    simp only [List.map_nil, if_true]
    unfold apiSetAll
    have hc : isCompound (writePath k []) = false := by
      simp only [writePath, isCompound]
      rw [List.any_eq_false]
      intro c hc
      simp [hk.isSep c hc]
    have h1 : singleKeyArgs [(writePath k [], v)] = [(k, v)] := by simp [singleKeyArgs, hc]; rfl
    have h2 : compoundKeyArgs [(writePath k [], v)] = [] := by simp [compoundKeyArgs, hc]
    rw [h1, h2, Py.bind_run]
    rcases h : setDict (instOps env (m + 1)) j [(k, v)] false w with ⟨_ | _, w'⟩ <;> rfl
  · have : s.map Prod.snd ≠ [] := by simpa using e
    rw [if_neg this, apiSetAll_one hl' hk hsc e]

/-! ### Numerals as keys -/

theorem digitsVal_eq : ∀ (cs : List Char) (acc : Nat), (∀ c ∈ cs, c.isDigit = true) →
    digitsVal acc cs = some (Nat.ofDigitChars 10 cs acc)
  | [], acc, _ => by simp [digitsVal]
  | c :: cs, acc, h => by
    rw [digitsVal, if_pos (h c (by simp)), digitsVal_eq cs _ (fun d hd => h d (by simp [hd])), Nat.ofDigitChars_cons,
      Nat.mul_comm]
    rfl

theorem digitsVal_repr (n : Nat) : digitsVal 0 (Nat.toDigits 10 n) = some n := by
  rw [digitsVal_eq _ _ (fun c hc => Nat.isDigit_of_mem_toDigits (by decide) (by decide) hc), Nat.ofDigitChars_toDigits (by decide) (by decide)]

/-- the decimal numeral of a number, with a sign if negative, is read as that number -/
theorem keyInt_str (z : Int) : keyInt (Key.str (.i z)) = some z := by
  cases z with
  | ofNat n =>
    have e : (Key.str (.i (Int.ofNat n))).toList = Nat.toDigits 10 n := by
      show (Nat.repr n).toList = _
      simp [Nat.repr]
    have hd : ∀ c ∈ Nat.toDigits 10 n, c.isDigit = true := fun c hc => Nat.isDigit_of_mem_toDigits (by decide) (by decide) hc
    have hv := digitsVal_repr n
    unfold keyInt
    rw [e]
    cases hl : Nat.toDigits 10 n with
    | nil => exact absurd hl Nat.toDigits_ne_nil
    | cons c cs =>
      rw [hl] at hd hv
      have hc := hd c (by simp)
      split
      · rename_i heq; cases heq; exact absurd hc (by decide)
      · rename_i heq; cases heq; exact absurd hc (by decide)
      · rename_i heq; cases heq; rw [hv]; rfl
      · rename_i heq; cases heq
  | negSucc n =>
    have e : (Key.str (.i (Int.negSucc n))).toList = '-' :: Nat.toDigits 10 (n + 1) := by
      show ("-" ++ Nat.repr (n + 1)).toList = _
      simp [String.toList_append, Nat.repr]
    have hv := digitsVal_repr (n + 1)
    unfold keyInt
    rw [e]
    cases hl : Nat.toDigits 10 (n + 1) with
    | nil => exact absurd hl Nat.toDigits_ne_nil
    | cons c cs =>
      rw [hl] at hv
      simp only [hv]
      rfl

/-- a plus sign does not change what a numeral means -/
theorem keyInt_plus (n : Nat) : keyInt ("+" ++ Key.str (.i n)) = some (n : Int) := by
  have e : ("+" ++ Key.str (.i (n : Int))).toList = '+' :: Nat.toDigits 10 n := by
    show ("+" ++ Nat.repr n).toList = _
    simp [String.toList_append, Nat.repr]
  have hv := digitsVal_repr n
  unfold keyInt
  rw [e]
  cases hl : Nat.toDigits 10 n with
  | nil => exact absurd hl Nat.toDigits_ne_nil
  | cons c cs =>
    rw [hl] at hv
    simp only [hv]
    rfl
/-- positions of a list can be written as numerals, from either end -/
theorem listKey_pos {xs : List Val} {m : Nat} (h : m < xs.length) : ListKey xs (Key.str (.i m)) m ∧
    ListKey xs (Key.str (.i ((m : Int) - xs.length))) m :=
  ⟨⟨_, keyInt_str _, h, .inl rfl⟩, ⟨_, keyInt_str _, h, .inr rfl⟩⟩

end JC

namespace JC.KeySetDemo
open JC

/-- `scores: dict[str, list[int]]`, `tags: list[str]` (read only), `note: str`, `best: Item`,
and `items: list[Item]` -/
def box : ClassDef := { name := "Box", fields := [
  { name := "scores", jsonName := "scores", ftype := .dict, chain := [.dictOf false [.listOf false .no [.leaf Demo.optStr]]] },
  { name := "tags", jsonName := "tags", ftype := .list, writeRule := .noWrite, chain := [.listOf false .no [.leaf Demo.reqStr]] },
  { name := "note", jsonName := "note", chain := [.leaf Demo.optStr] },
  { name := "items", jsonName := "items", ftype := .list, chain := [.listOf false .no [.instOf "Item" none]] }] }

def item : ClassDef := { name := "Item", fields := [{ name := "title", jsonName := "title", chain := [.leaf Demo.optStr] }] }

def env : Env where
  cls := fun n => if n = "Box" then box else if n = "Item" then item else {}
  pystr := fun _ => ""

def world : World where
  heap := fun i => match i with
    | 0 => { cls := "Box", isNew := false, attrs := Demo.attrsOf [("scores", .dict [("ann", .list [.int 1, .int 2]), ("bob", .list [])]),
        ("tags", .list [.str "a", .str "b"]), ("items", .list [.obj 1])] }
    | 1 => { cls := "Item", isNew := false, attrs := Demo.attrsOf [("title", .str "t")] }
    | _ => {}
  next := 2

theorem filled (i : Nat) : ListsFilled env world i := by
  intro f hf hr
  exfalso
  have : ∀ c : String, ∀ f ∈ (env.cls c).fields, f.isRef = false := by
    intro c f hf
    simp only [env] at hf
    split at hf
    · simp [box] at hf
      rcases hf with rfl | rfl | rfl | rfl <;> decide
    · split at hf
      · simp [item] at hf; subst hf; decide
      · exact absurd hf (by simp)
  rw [this _ f hf] at hr
  cases hr

/-- the hypotheses of `keyset_exact_partial`: `box.set(**{'scores[ann].-1': 9})` -/
example : ∃ w', apiSetAll env 1 0 [(writePath "scores" [(true, "ann"), (false, "-1")], .int 9)] world = (.ok (), w') ∧
    At (w'.attr 0 "scores") [.key "ann", .idx 1] (.int 9) ∧ At (w'.attr 0 "scores") [.key "ann", .idx 0] (.int 1) ∧
    (w'.heap 0).isModified = true := by
  have hf : (world.cdef env 0).field? "scores" = some box.fields[0] := rfl
  obtain ⟨w', h1, h2, h3, -, -, h4⟩ := keyset_exact_partial (env := env) (m := 0) (i := 0) (n := "scores")
    (r := [(true, "ann"), (false, "-1")]) (v := .int 9) (w := world) (f := box.fields[0]) (ps := [.key "ann", .idx 1])
    (by decide) (filled 0) (by
      intro f hf
      have hf : f ∈ box.fields := hf
      simp [box] at hf
      rcases hf with rfl | rfl | rfl | rfl <;> decide)
    ⟨box.fields[0], rfl, rfl, rfl, by decide⟩ hf (by unfold Component; decide)
    (by simp [Component])
    (NamesPlace.keys (x := .list [.int 1, .int 2]) rfl (NamesPlace.idx (m := 1) ⟨-1, by decide, by decide, by decide⟩)) trivial
  exact ⟨w', h1, h2, (h3 _ _ (by unfold Apart; decide)).2 (.entry rfl (.item rfl (.here _))), h4 rfl⟩

/-- the hypotheses of `keyset_bad_path`: index 2 of a list of two -/
example : ∃ e w', apiSetAll env 1 0 [("scores.ann.2", .int 9)] world = (.error e, w') ∧ SameValues world w' :=
  keyset_bad_path (env := env) (m := 0) (i := 0) (n := "scores") (r := [(false, "ann"), (false, "2")]) (f := box.fields[0])
    (filled 0) rfl (by decide) (by unfold Component; decide) (by simp [Component]) (by simp)
    ⟨.inr rfl, .inl rfl, trivial⟩ (by
      intro ps h
      cases h with
      | keys h1 h2 =>
        obtain rfl : Val.list [.int 1, .int 2] = _ := Option.some.inj h1
        cases h2 with
        | idx hk =>
          obtain ⟨z, hz, hm, hc⟩ := hk
          obtain rfl : (2 : Int) = z := Option.some.inj ((by decide : keyInt "2" = some 2).symm.trans hz)
          simp at hm hc
          omega
        | idxs _ _ h3 => cases h3)

/-- the hypotheses of `keyset_object`: `box.set(**{'items.0.title': 'x'})` is
`box.items[0].set(title='x')` -/
example (v : Val) : apiSetAll env 1 0 [("items.0.title", v)] world = apiSetAll env 1 1 [("title", v)] world :=
  keyset_object (env := env) (m := 0) (n := "items") (k := "title") (r := [(false, "0")]) (s := []) (b := false) (f := box.fields[3])
    (filled 0) (filled 1) rfl (by decide) (by unfold Component; decide) (by simp [Component]) (by unfold Component; decide) (by simp)
    (.item (m := 0) ⟨0, by decide, by decide, by decide⟩ rfl .here)

/-! ### Where `set` with key paths goes wrong -/

def isRecursion : Except Exc Unit × World → Bool
  | (.error .recursion, _) => true
  | _ => false

/-- setting a list or a dict by key path never comes back: the owner stores an owned copy, which is
reported as an addition again (whatever depth is allowed; shown for 20) -/
theorem keyset_container_diverges : isRecursion (apiSetAll env 1 0 [("scores.ann", .list [.int 1])] world) = true := by
  decide +kernel

/-- text at a place, or nothing -/
def textAt (v : Val) (k : Nat) : Option String := match v with
  | .list xs => match xs[k]? with
    | some (.str s) => some s
    | _ => none
  | _ => none

/-- write rules are not applied: the field `tags` is read only, so `set(tags=['x', 'x'])` is
ignored, but `set(**{'tags.0': 'x'})` writes it -/
theorem keyset_ignores_readonly : textAt ((apiSetAll env 2 0 [("tags", .list [.str "x", .str "x"])] world).2.attr 0 "tags") 0 = some "a" ∧
    textAt ((apiSetAll env 2 0 [("tags.0", .str "x")] world).2.attr 0 "tags") 0 = some "x" := by
  decide +kernel

/-- a path into a field that is not a list, a dict or an object is ignored without an error -/
theorem keyset_ignores_scalar (v : Val) : apiSetAll env 1 0 [("note.x", v)] world = (.ok (), world) := by
  have := apiSetAll_one (env := env) (m := 0) (n := "note") (r := [(false, "x")]) (v := v) (filled 0)
    (by unfold Component; decide) (by simp [Component]) (by simp)
  exact this

end JC.KeySetDemo
