import Verif.Props.SubPipe

/-
C57: nested pipelines with `eager` and `preserialize` marks.
-/
namespace JC

/-! ### Specification -/

/-- Values flow through the modifiers one after the other, and each modifier accepts what it
makes of the value before the next one gets it. -/
inductive CheckedFlows (h : Heap) (c : Ctx) : List Leaf → Val → Val → Prop
  | nil (v) : CheckedFlows h c [] v v
  | cons {l ls v v' t} : l.transform h (c.nval v) = .ok v' → l.validate h (c.nval v') = .ok () →
      CheckedFlows h c ls v' t → CheckedFlows h c (l :: ls) v t

/-- The modifiers of a pipeline that are no marks. -/
def leavesOf : Pipe → List Leaf
  | [] => []
  | .leaf l :: p => l :: leavesOf p
  | _ :: p => leavesOf p

/-- A pipeline with marks: the modifiers `E` stand before the last `eager`, the modifiers `N`
between it and the first `preserialize`; what stands after that is not named. -/
inductive Arranged : Pipe → List Leaf → List Leaf → Prop
  /-- no `eager` -/
  | lazy (N : List Leaf) (T : Pipe) : T = [] ∨ (∃ T', T = .pre :: T') → .eager ∉ T →
      Arranged (plain N ++ T) [] N
  | eager (Q : Pipe) (N : List Leaf) (T : Pipe) : .pre ∉ Q → T = [] ∨ (∃ T', T = .pre :: T') → .eager ∉ T →
      Arranged (Q ++ .eager :: plain N ++ T) (leavesOf Q) N

/-- The value of the context satisfies a pipeline with marks: it flows through the eager part,
every modifier of it accepting the value at its own place; the result flows through the rest,
every modifier of which accepts the final value. -/
def SatisfiedM (h : Heap) (c : Ctx) (E N : List Leaf) : Prop :=
  ∃ u t, CheckedFlows h c E c.val u ∧ Flows h c N u t ∧ ∀ l ∈ N, l.validate h (c.nval t) = .ok ()

/-! ### The stages of the nested chain -/

theorem isEager_ops (h : Heap) {T : Pipe} (hT : .eager ∉ T) : ∀ m ∈ T.map (LMod.ops h), m.isEager = false := by
  intro m hm
  obtain ⟨x, hx, rfl⟩ := List.mem_map.1 hm
  cases x with
  | eager => exact absurd hx hT
  | pre => rfl
  | leaf l => rfl

theorem isPre_ops (h : Heap) {T : Pipe} (hT : .pre ∉ T) : ∀ m ∈ T.map (LMod.ops h), m.isPre = false := by
  intro m hm
  obtain ⟨x, hx, rfl⟩ := List.mem_map.1 hm
  cases x with
  | eager => rfl
  | pre => exact absurd hx hT
  | leaf l => rfl

theorem plain_no_mark (N : List Leaf) : .eager ∉ plain N ∧ .pre ∉ plain N := by
  constructor <;> · intro hm; obtain ⟨_, _, h⟩ := List.mem_map.1 hm; cases h

theorem preHead_ops (h : Heap) {T : Pipe} (hT : T = [] ∨ ∃ T', T = .pre :: T') :
    T.map (LMod.ops h) = [] ∨ ∃ p P', T.map (LMod.ops h) = p :: P' ∧ p.isPre = true := by
  rcases hT with rfl | ⟨T', rfl⟩
  · exact Or.inl rfl
  · exact Or.inr ⟨_, _, rfl, rfl⟩

theorem staged_lazy (h : Heap) (N : List Leaf) {T : Pipe} (hT : T = [] ∨ ∃ T', T = .pre :: T') (he : .eager ∉ T) :
    Staged ((plain N ++ T).map (LMod.ops h)) [] ((plain N).map (LMod.ops h)) (T.map (LMod.ops h)) where
  eq := by simp
  noPre := by simpa using isPre_ops h (plain_no_mark N).2
  preHead := preHead_ops h hT
  noEagerAfter := by
    intro m hm
    rcases List.mem_append.1 hm with hm | hm
    · exact isEager_ops h (plain_no_mark N).1 m (List.mem_of_mem_tail hm)
    · exact isEager_ops h he m hm
  mark := fun hA => absurd rfl hA

theorem staged_eager (h : Heap) {Q : Pipe} (N : List Leaf) {T : Pipe} (hQ : .pre ∉ Q)
    (hT : T = [] ∨ ∃ T', T = .pre :: T') (he : .eager ∉ T) :
    Staged ((Q ++ .eager :: plain N ++ T).map (LMod.ops h)) (Q.map (LMod.ops h))
      ((LMod.eager :: plain N).map (LMod.ops h)) (T.map (LMod.ops h)) where
  eq := by simp
  noPre := by
    intro m hm
    rcases List.mem_append.1 hm with hm | hm
    · exact isPre_ops h hQ m hm
    · exact isPre_ops h (T := .eager :: plain N)
        (fun hx => by rcases List.mem_cons.1 hx with hx | hx; · cases hx
                      · exact (plain_no_mark N).2 hx) m hm
  preHead := preHead_ops h hT
  noEagerAfter := by
    intro m hm
    rcases List.mem_append.1 hm with hm | hm
    · exact isEager_ops h (plain_no_mark N).1 m hm
    · exact isEager_ops h he m hm
  mark := fun _ => ⟨_, _, rfl, rfl⟩

theorem reduce_checked (h : Heap) (c : Ctx) (Q : Pipe) : ∀ (v u : Val),
    reduceM (fun m v => vt m (c.nval v)) (Q.map (LMod.ops h)) v () = (.ok u, ()) ↔ CheckedFlows h c (leavesOf Q) v u := by
  induction Q with
  | nil =>
    intro v u
    constructor
    · intro he
      have he : (Except.ok v : Except Exc Val) = .ok u := congrArg Prod.fst he
      injection he with he
      subst he
      exact .nil v
    · intro hf
      cases hf
      rfl
  | cons x Q ih =>
    intro v u
    cases x with
    | eager =>
      rw [← show leavesOf (LMod.eager :: Q) = leavesOf Q from rfl] at ih
      exact ih v u
    | pre =>
      rw [← show leavesOf (LMod.pre :: Q) = leavesOf Q from rfl] at ih
      exact ih v u
    | leaf l =>
      have hstep : reduceM (fun (m : Ops Unit) v => vt m (c.nval v)) ((LMod.leaf l :: Q).map (LMod.ops h)) v () =
          match l.transform h (c.nval v) with
          | .error e => (.error e, ())
          | .ok v' => match l.validate h (c.nval v') with
            | .error e => (.error e, ())
            | .ok _ => reduceM (fun (m : Ops Unit) v => vt m (c.nval v)) (Q.map (LMod.ops h)) v' () := by
        simp only [List.map_cons, reduceM, LMod.ops, vt, Py.bind_run]
        cases hv : l.transform h (c.nval v) with
        | error e => rfl
        | ok v' =>
          have hn : (c.nval v).nval v' = c.nval v' := rfl
          simp only [hn]
          cases hw : l.validate h (c.nval v') with
          | error e => rfl
          | ok w => rfl
      rw [hstep]
      constructor
      · intro he
        cases hv : l.transform h (c.nval v) with
        | error e => rw [hv] at he; cases he
        | ok v' =>
          rw [hv] at he
          simp only at he
          cases hw : l.validate h (c.nval v') with
          | error e => rw [hw] at he; cases he
          | ok w =>
            rw [hw] at he
            exact .cons hv hw ((ih v' u).1 he)
      · intro hf
        cases hf with
        | cons hv hw hr =>
          rw [hv]
          simp only
          rw [hw]
          exact (ih _ u).2 hr

/-- C57: `transform(types…)` and `fmt(types…)` with marks yield what flows out of the eager
part, checked modifier by modifier, and then out of the rest; what stands after
`preserialize` plays no part. -/
theorem transform_marked_iff {p : Pipe} {E N : List Leaf} (ha : Arranged p E N) (h : Heap) (c : Ctx) (t : Val) :
    ((transformLeaf (.types p)).transform h c = .ok t ↔ ∃ u, CheckedFlows h c E c.val u ∧ Flows h c N u t) ∧
    ((fmtLeaf (.types p)).tojson h c = .ok t ↔ ∃ u, CheckedFlows h c E c.val u ∧ Flows h c N u t) := by
  suffices hs : p.transform h c = .ok t ↔ ∃ u, CheckedFlows h c E c.val u ∧ Flows h c N u t from ⟨hs, hs⟩
  unfold Pipe.transform chainTransform
  cases ha with
  | lazy _ T hT he =>
    rw [(staged_lazy h N hT he).tvs_eq, (staged_lazy h N hT he).nvs_eq]
    refine Iff.trans (reduce_flows h c N c.val t) ⟨fun hf => ⟨_, .nil _, hf⟩, ?_⟩
    rintro ⟨u, hc, hf⟩
    cases hc
    exact hf
  | eager Q _ T hQ hT he =>
    rw [(staged_eager h N hQ hT he).tvs_eq, (staged_eager h N hQ hT he).nvs_eq, Py.bind_run]
    constructor
    · intro ho
      rcases hr : reduceM (fun m v => vt m (c.nval v)) (Q.map (LMod.ops h)) c.val () with ⟨r, s⟩
      rw [hr] at ho
      cases r with
      | error e => cases ho
      | ok u => exact ⟨u, (reduce_checked h c Q _ _).1 hr, (reduce_flows h c N u t).1 ho⟩
    · rintro ⟨u, hc, hf⟩
      rw [(reduce_checked h c Q _ _).2 hc]
      exact (reduce_flows h c N u t).2 hf

theorem marked_validate_eq {p : Pipe} {E N : List Leaf} (ha : Arranged p E N) (h : Heap) (c : Ctx) :
    p.validate h c = (plain N).validate h c := by
  unfold Pipe.validate chainValidate
  cases ha with
  | lazy _ T hT he => rw [(staged_lazy h N hT he).nvs_eq, (plain_staged h N).nvs_eq]
  | eager Q _ T hQ hT he =>
    rw [(staged_eager h N hQ hT he).nvs_eq, (plain_staged h N).nvs_eq]
    rfl

theorem tryMarked_iff {h : Heap} {p : Pipe} {E N : List Leaf} (ha : Arranged p E N) (hp : Proper h N) (c : Ctx) (e : Exc) :
    tryPipe p h c (.error e) = .ok () ↔ SatisfiedM h c E N := by
  have htr : ∀ t, p.transform h c = .ok t ↔ _ := fun t => (transform_marked_iff ha h c t).1
  unfold tryPipe
  constructor
  · intro ho
    cases ht : p.transform h c with
    | error e => rw [ht] at ho; cases ho
    | ok t =>
      rw [ht] at ho
      simp only [marked_validate_eq ha] at ho
      obtain ⟨u, hc, hf⟩ := (htr t).1 ht
      cases hv : (plain N).validate h (c.nval t) with
      | ok w => exact ⟨u, t, hc, hf, (plain_validate_iff hp _).1 hv⟩
      | error e' =>
        rw [hv] at ho
        cases e' <;> cases ho
  · rintro ⟨u, t, hc, hf, hv⟩
    rw [(htr t).2 ⟨u, hc, hf⟩]
    simp only [marked_validate_eq ha]
    rw [(plain_validate_iff hp _).2 hv]

/-- C57: `validate(types…)` with marks accepts a value exactly when the value satisfies the
pipeline. -/
theorem validate_marked_iff {h : Heap} {p : Pipe} {E N : List Leaf} (ha : Arranged p E N) (hp : Proper h N)
    (msg : Option String) (c : Ctx) :
    (validateLeaf (.types p) msg).validate h c = .ok () ↔ SatisfiedM h c E N :=
  tryMarked_iff ha hp c _

/-- C57: every pipeline in which no `eager` follows a `preserialize` is covered. -/
theorem arranged_exists (p : Pipe) (hp : ∀ A B, p = A ++ .pre :: B → .eager ∉ B) : ∃ E N, Arranged p E N := by
  -- the part before the first `preserialize`
  have h1 : ∀ q : Pipe, ∃ B T, q = B ++ T ∧ .pre ∉ B ∧ (T = [] ∨ ∃ T', T = .pre :: T') := by
    intro q
    induction q with
    | nil => exact ⟨[], [], rfl, by simp, Or.inl rfl⟩
    | cons x q ih =>
      obtain ⟨B, T, rfl, hB, hT⟩ := ih
      cases x with
      | pre => exact ⟨[], .pre :: (B ++ T), rfl, by simp, Or.inr ⟨_, rfl⟩⟩
      | eager => exact ⟨.eager :: B, T, rfl, by simpa using hB, hT⟩
      | leaf l => exact ⟨.leaf l :: B, T, rfl, by simpa using hB, hT⟩
  -- the part after the last `eager`
  have h2 : ∀ B : Pipe, .pre ∉ B → (∃ N, B = plain N) ∨ ∃ Q N, B = Q ++ .eager :: plain N := by
    intro B
    induction B with
    | nil => exact fun _ => Or.inl ⟨[], rfl⟩
    | cons x B ih =>
      intro hB
      rcases ih (fun hx => hB (List.mem_cons_of_mem _ hx)) with ⟨N, rfl⟩ | ⟨Q, N, rfl⟩
      · cases x with
        | pre => simp at hB
        | eager => exact Or.inr ⟨[], N, rfl⟩
        | leaf l => exact Or.inl ⟨l :: N, rfl⟩
      · exact Or.inr ⟨x :: Q, N, rfl⟩
  obtain ⟨B, T, rfl, hB, hT⟩ := h1 p
  have he : .eager ∉ T := by
    rcases hT with rfl | ⟨T', rfl⟩
    · simp
    · have := hp B T' rfl
      simpa using this
  rcases h2 B hB with ⟨N, rfl⟩ | ⟨Q, N, rfl⟩
  · exact ⟨_, _, .lazy N T hT he⟩
  · exact ⟨_, _, .eager Q N T (fun hx => hB (List.mem_append.2 (Or.inl hx))) hT he⟩

/-- C57: an error raised in the eager part reaches the caller of `validate(types…, message)` as
it is; the given message is not used. -/
theorem eager_error_escapes {h : Heap} {c : Ctx} {Q : Pipe} {N : List Leaf} {T : Pipe} (hQ : .pre ∉ Q)
    (hT : T = [] ∨ ∃ T', T = .pre :: T') (he : .eager ∉ T) {Q₁ Q₂ : Pipe} {l : Leaf}
    (hq : Q = Q₁ ++ .leaf l :: Q₂) {v v' : Val} (h₁ : CheckedFlows h c (leavesOf Q₁) c.val v)
    (h₂ : l.transform h (c.nval v) = .ok v') {e : Exc} (h₃ : l.validate h (c.nval v') = .error e) (msg : Option String) :
    (validateLeaf (.types (Q ++ .eager :: plain N ++ T)) msg).validate h c = .error e := by
  have htr : Pipe.transform (Q ++ .eager :: plain N ++ T) h c = .error e := by
    unfold Pipe.transform
    rw [chain_transform_eager_reject (staged_eager h N hQ hT he) c (A₁ := Q₁.map (LMod.ops h))
      (A₂ := Q₂.map (LMod.ops h)) (m := LMod.ops h (.leaf l)) (by simp [hq]) (s := ()) (s₁ := ()) (s₂ := ()) (s₃ := ())
      (v := v) (r := v') (e := e) ?_ ?_ ?_]
    · rw [← reduce_checked h c Q₁ c.val v, reduceM_pipe] at h₁
      exact h₁
    · simp only [LMod.ops, h₂]
    · simp only [LMod.ops, h₃]
  change tryPipe _ h c _ = _
  unfold tryPipe
  rw [htr]

end JC

/-! ### Concrete cases -/
namespace JC.SubPipeMarksDemo
open JC JC.SubPipeDemo

/-- a number, checked eagerly, becomes a text; a check after `preserialize` is not consulted -/
def p₁ : Pipe := [.leaf isNumber, .eager, .leaf toText, .leaf isText, .pre, .leaf isNumber]

theorem p₁_arranged : Arranged p₁ [isNumber] [toText, isText] :=
  .eager [.leaf isNumber] [toText, isText] [.pre, .leaf isNumber] (by simp) (Or.inr ⟨_, rfl⟩) (by simp)

/-- without the mark the number check would meet the text and refuse -/
example : (validateLeaf (.types p₁) none).validate aHeap { val := .int 3 } = .ok () :=
  (validate_marked_iff p₁_arranged (toText_tame aHeap).proper _ _).2
    ⟨.int 3, .str "n", .cons rfl rfl (.nil _), .cons rfl (.cons rfl (.nil _)), by
      intro l hl
      simp only [List.mem_cons, List.not_mem_nil, or_false] at hl
      rcases hl with rfl | rfl <;> rfl⟩
example : ¬ Satisfied aHeap { val := .int 3 } [isNumber, toText, isText] := by
  rintro ⟨t, hf, hv⟩
  have h1 := hv isNumber (by simp)
  have h2 := hv isText (by simp)
  cases t <;> simp_all [isNumber, isText, Ctx.nval, Ctx.vexc]

/-- a bool is refused in the eager part: with the message of that modifier, not with the given one -/
example : (validateLeaf (.types p₁) (some "bad")).validate aHeap { val := .bool true, fkeypathr := [.s "a"] } =
    .error (.validation [("a", "value is not number")]) :=
  eager_error_escapes (Q := [.leaf isNumber]) (N := [toText, isText]) (T := [.pre, .leaf isNumber]) (by simp)
    (Or.inr ⟨_, rfl⟩) (by simp) (Q₁ := []) (Q₂ := []) (l := isNumber) rfl (.nil _) rfl rfl _

/-- C57, violation: a number satisfies the second alternative, but `oneisvalid` reports the error
of the first one, whose check is eager. -/
theorem oneisvalid_eager_broken :
    SatisfiedM aHeap { val := .int 3, fkeypathr := [.s "a"] } [] [isNumber] ∧
    Arranged (plain [isNumber]) [] [isNumber] ∧
    (oneIsValidLeaf (fun _ => false) [.types [.leaf isText, .eager], .types (plain [isNumber])]).validate aHeap
      { val := .int 3, fkeypathr := [.s "a"] } = .error (.validation [("a", "value is not text")]) :=
  ⟨⟨.int 3, .int 3, .nil _, .cons rfl (.nil _), by simp [isNumber, Ctx.nval]⟩,
   .lazy [isNumber] [] (Or.inl rfl) (by simp), rfl⟩

end JC.SubPipeMarksDemo
