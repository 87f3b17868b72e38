import Verif.Model.SubPipe
import Verif.Props.Chain
import Verif.Props.ValidateSound
import Verif.Props.ValidateCases
import Mathlib.Data.List.Forall2

/-
C57: validators given as nested pipelines or callables.
-/
namespace JC

/-! ### Specification -/

/-- Values flow through the modifiers one after the other: each gets the result of the one
before it. -/
inductive Flows (h : Heap) (c : Ctx) : List Leaf → Val → Val → Prop
  | nil (v) : Flows h c [] v v
  | cons {l ls v v' t} : l.transform h (c.nval v) = .ok v' → Flows h c ls v' t → Flows h c (l :: ls) v t

/-- The value of the context satisfies a pipeline: it flows through the pipeline, and every
modifier of it accepts the result. -/
def Satisfied (h : Heap) (c : Ctx) (ls : List Leaf) : Prop :=
  ∃ t, Flows h c ls c.val t ∧ ∀ l ∈ ls, l.validate h (c.nval t) = .ok ()

/-- A pipeline without eager and preserialize marks. -/
def plain (ls : List Leaf) : Pipe := ls.map .leaf

/-- No modifier of the pipeline raises a validation error without a message. -/
def Proper (h : Heap) (ls : List Leaf) : Prop := ∀ l ∈ ls, ∀ c, l.validate h c ≠ .error (.validation [])

/-- The modifiers transform every value, and raise only validation errors with a message. -/
def Tame (h : Heap) (ls : List Leaf) : Prop :=
  ∀ l ∈ ls, (∀ c, ∃ t, l.transform h c = .ok t) ∧
    ∀ c e, l.validate h c = .error e → ∃ m, e = .validation m ∧ m ≠ []

theorem Tame.proper {h : Heap} {ls : List Leaf} (ht : Tame h ls) : Proper h ls := by
  intro l hl c he
  obtain ⟨m, hm, hne⟩ := (ht l hl).2 c _ he
  cases hm
  exact hne rfl

/-! ### Nested pipelines do what the specification says -/

theorem plain_staged (h : Heap) (ls : List Leaf) :
    Staged ((plain ls).map (LMod.ops h)) [] ((plain ls).map (LMod.ops h)) [] where
  eq := by simp
  noPre := by
    intro m hm
    simp only [plain, List.nil_append, List.map_map, List.mem_map] at hm
    obtain ⟨l, -, rfl⟩ := hm
    rfl
  preHead := Or.inl rfl
  noEagerAfter := by
    intro m hm
    rw [List.append_nil] at hm
    have hm := List.mem_of_mem_tail hm
    simp only [plain, List.map_map, List.mem_map] at hm
    obtain ⟨l, -, rfl⟩ := hm
    rfl
  mark := fun hA => absurd rfl hA

theorem reduce_flows (h : Heap) (c : Ctx) (ls : List Leaf) : ∀ (v t : Val),
    (reduceM (fun m v => m.transform (c.nval v)) ((plain ls).map (LMod.ops h)) v ()).1 = .ok t ↔ Flows h c ls v t := by
  induction ls with
  | nil =>
    intro v t
    constructor
    · intro he
      injection he with he
      subst he
      exact .nil v
    · intro hf
      cases hf
      rfl
  | cons l ls ih =>
    intro v t
    have hstep : reduceM (fun (m : Ops Unit) v => m.transform (c.nval v)) ((plain (l :: ls)).map (LMod.ops h)) v () =
        match l.transform h (c.nval v) with
        | .ok v' => reduceM (fun (m : Ops Unit) v => m.transform (c.nval v)) ((plain ls).map (LMod.ops h)) v' ()
        | .error e => (.error e, ()) := by
      simp only [plain, List.map_cons, reduceM, LMod.ops]
      cases hv : l.transform h (c.nval v) with
      | ok v' => simp only [Py.bind_run]
      | error e => simp only [Py.bind_run]
    rw [hstep]
    constructor
    · intro he
      cases hv : l.transform h (c.nval v) with
      | ok v' =>
        rw [hv] at he
        exact .cons hv ((ih v' t).1 he)
      | error e =>
        rw [hv] at he
        cases he
    · intro hf
      cases hf with
      | cons hv hr =>
        rw [hv]
        exact (ih _ t).2 hr

theorem plain_transform_iff (h : Heap) (c : Ctx) (ls : List Leaf) (t : Val) :
    (plain ls).transform h c = .ok t ↔ Flows h c ls c.val t := by
  unfold Pipe.transform chainTransform
  rw [(plain_staged h ls).tvs_eq, (plain_staged h ls).nvs_eq]
  exact reduce_flows h c ls c.val t

theorem accepts_iff (h : Heap) (c : Ctx) (ls : List Leaf) :
    Accepts c ((plain ls).map (LMod.ops h)) () () ↔ ∀ l ∈ ls, l.validate h c = .ok () := by
  induction ls with
  | nil => exact ⟨fun _ => by simp, fun _ => .nil ()⟩
  | cons l ls ih =>
    constructor
    · intro ha
      cases ha with
      | cons hv hr =>
        rename_i s'
        have hl : l.validate h c = .ok () := by
          have := congrArg Prod.fst hv
          simpa [LMod.ops] using this
        intro x hx
        rcases List.mem_cons.1 hx with rfl | hx
        · exact hl
        · exact ih.1 hr x hx
    · intro ha
      refine .cons (s' := ()) ?_ (ih.2 fun x hx => ha x (List.mem_cons_of_mem _ hx))
      simp only [LMod.ops, ha l (by simp)]

theorem plain_nonempty {h : Heap} {ls : List Leaf} (hp : Proper h ls) (c : Ctx) :
    NonEmptyMsgs c ((plain ls).map (LMod.ops h)) := by
  intro m hm s s' msgs he hnil
  subst hnil
  simp only [plain, List.map_map, List.mem_map] at hm
  obtain ⟨l, hl, rfl⟩ := hm
  exact hp l hl c (congrArg Prod.fst he)

theorem plain_validate_iff {h : Heap} {ls : List Leaf} (hp : Proper h ls) (c : Ctx) :
    (plain ls).validate h c = .ok () ↔ ∀ l ∈ ls, l.validate h c = .ok () := by
  rw [← accepts_iff]
  have := chain_validate_ok_iff (plain_staged h ls) c (plain_nonempty hp c) () ()
  rw [← this]
  unfold Pipe.validate
  constructor
  · intro he
    rcases hr : chainValidate ((plain ls).map (LMod.ops h)) c () with ⟨r, u⟩
    rw [hr] at he
    simp only at he
    rw [he]
  · intro he
    rw [he]

theorem tame_flows {h : Heap} {ls : List Leaf} (ht : Tame h ls) (c : Ctx) : ∀ v, ∃ t, Flows h c ls v t := by
  induction ls with
  | nil => exact fun v => ⟨v, .nil v⟩
  | cons l ls ih =>
    intro v
    obtain ⟨v', hv⟩ := (ht l (by simp)).1 (c.nval v)
    obtain ⟨t, hf⟩ := ih (fun x hx => ht x (List.mem_cons_of_mem _ hx)) v'
    exact ⟨t, .cons hv hf⟩

theorem tame_loop {h : Heap} {ls : List Leaf} (ht : Tame h ls) (c : Ctx) : ∀ acc,
    ∃ r, validateLoop c ((plain ls).map (LMod.ops h)) acc () = (.ok r, ()) := by
  induction ls with
  | nil => exact fun acc => ⟨acc, rfl⟩
  | cons l ls ih =>
    intro acc
    have ih := ih (fun x hx => ht x (List.mem_cons_of_mem _ hx))
    simp only [plain, List.map_cons, validateLoop, LMod.ops]
    cases hv : l.validate h c with
    | ok u => exact ih acc
    | error e =>
      obtain ⟨m, rfl, -⟩ := (ht l (by simp)).2 c e hv
      simp only
      split
      · exact ih _
      · exact ⟨_, rfl⟩

theorem tame_validate {h : Heap} {ls : List Leaf} (ht : Tame h ls) (c : Ctx) :
    (plain ls).validate h c = .ok () ∨ ∃ m, (plain ls).validate h c = .error (.validation m) := by
  obtain ⟨r, hr⟩ := tame_loop ht c []
  unfold Pipe.validate chainValidate
  rw [(plain_staged h ls).nvs_eq, Py.bind_run, hr]
  cases r with
  | nil => exact Or.inl rfl
  | cons x xs => exact Or.inr ⟨_, rfl⟩

theorem tryPipe_ok {h : Heap} {ls : List Leaf} (hp : Proper h ls) {c : Ctx} {r : Except Exc Unit}
    (ho : tryPipe (plain ls) h c r = .ok ()) : Satisfied h c ls ∨ r = .ok () := by
  unfold tryPipe at ho
  cases ht : (plain ls).transform h c with
  | error e => rw [ht] at ho; cases ho
  | ok t =>
    rw [ht] at ho
    simp only at ho
    cases hv : (plain ls).validate h (c.nval t) with
    | ok u => exact Or.inl ⟨t, (plain_transform_iff h c ls t).1 ht, (plain_validate_iff hp _).1 hv⟩
    | error e =>
      rw [hv] at ho
      cases e <;> first | exact Or.inr ho | cases ho

theorem tryPipe_satisfied {h : Heap} {ls : List Leaf} (hp : Proper h ls) {c : Ctx} (hs : Satisfied h c ls)
    (r : Except Exc Unit) : tryPipe (plain ls) h c r = .ok () := by
  obtain ⟨t, hf, hv⟩ := hs
  unfold tryPipe
  rw [(plain_transform_iff h c ls t).2 hf]
  simp only
  rw [(plain_validate_iff hp _).2 hv]

theorem tryPipe_iff {h : Heap} {ls : List Leaf} (hp : Proper h ls) (c : Ctx) (e : Exc) :
    tryPipe (plain ls) h c (.error e) = .ok () ↔ Satisfied h c ls := by
  constructor
  · intro ho
    rcases tryPipe_ok hp ho with hs | hr
    · exact hs
    · cases hr
  · exact fun hs => tryPipe_satisfied hp hs _

theorem tryPipe_refused {h : Heap} {ls : List Leaf} (ht : Tame h ls) {c : Ctx} (hs : ¬ Satisfied h c ls)
    (r : Except Exc Unit) : tryPipe (plain ls) h c r = r := by
  obtain ⟨t, hf⟩ := tame_flows ht c c.val
  unfold tryPipe
  rw [(plain_transform_iff h c ls t).2 hf]
  simp only
  rcases tame_validate ht (c.nval t) with hv | ⟨m, hv⟩
  · exact absurd ⟨t, hf, (plain_validate_iff ht.proper _).1 hv⟩ hs
  · rw [hv]

/-! ### C57: `validate` and `oneisvalid` -/

/-- C57: `validate(types…)` accepts a value exactly when the value satisfies the pipeline. -/
theorem validate_types_iff {h : Heap} {ls : List Leaf} (hp : Proper h ls) (msg : Option String) (c : Ctx) :
    (validateLeaf (.types (plain ls)) msg).validate h c = .ok () ↔ Satisfied h c ls :=
  tryPipe_iff hp c _

/-- C57: a value that does not satisfy the pipeline is reported with the given message, under
the key path of the value. -/
theorem validate_types_message {h : Heap} {ls : List Leaf} (ht : Tame h ls) (m : String) {c : Ctx}
    (hs : ¬ Satisfied h c ls) :
    (validateLeaf (.types (plain ls)) (some m)).validate h c = .error (.validation [(c.sfkeypathr, m)]) :=
  tryPipe_refused ht hs _

/-- C57: `validate(callable)` accepts exactly: no value, or a result that is neither `False`
nor a text. -/
theorem validate_callable_iff (n : Nat) (f : Heap → Ctx → Except Exc Val) (msg : Option String) (h : Heap) (c : Ctx) :
    (validateLeaf (.fn n f) msg).validate h c = .ok () ↔
      c.val = .none ∨ ∃ r, f h c = .ok r ∧ r ≠ .bool false ∧ ∀ s, r ≠ .str s := by
  simp only [validateLeaf]
  by_cases hn : c.val = .none
  · simp [hn, Val.isNone]
  · have hn' : c.val.isNone = false := by
      cases hb : c.val.isNone with
      | false => rfl
      | true => exact absurd ((Val.isNone_iff _).1 hb) hn
    rw [hn']
    simp only [Bool.false_eq_true, if_false, hn, false_or]
    cases hf : f h c with
    | error e => simp
    | ok r =>
      simp only [Except.ok.injEq, exists_eq_left']
      unfold judge
      split <;> simp_all

/-- C57: the messages of a callable: the given one if there is one, else the returned text. -/
theorem validate_callable_message (n : Nat) {f : Heap → Ctx → Except Exc Val} (msg : Option String) {h : Heap} {c : Ctx}
    {s : String} (hn : c.val ≠ .none) (hf : f h c = .ok (.str s)) :
    (validateLeaf (.fn n f) msg).validate h c = .error (.validation [(c.sfkeypathr, msg.getD s)]) := by
  have hn' : c.val.isNone = false := by
    cases hb : c.val.isNone with
    | false => rfl
    | true => exact absurd ((Val.isNone_iff _).1 hb) hn
  simp only [validateLeaf, hn', hf, Bool.false_eq_true, if_false]
  rfl

/-- C57 (partial): with pipelines as alternatives, `oneisvalid` accepts a value exactly when it
satisfies one of them, and otherwise reports one message. Missing from the full statement:
alternatives given as callables, see `oneisvalid_ignores_callables`. -/
theorem oneisvalid_iff_partial (isCallable : Val → Bool) {h : Heap} (alts : List (List Leaf))
    (ht : ∀ ls ∈ alts, Tame h ls) (c : Ctx) :
    ((oneIsValidLeaf isCallable (alts.map (.types ∘ plain))).validate h c = .ok () ↔ ∃ ls ∈ alts, Satisfied h c ls) ∧
    ((¬ ∃ ls ∈ alts, Satisfied h c ls) →
      (oneIsValidLeaf isCallable (alts.map (.types ∘ plain))).validate h c =
        .error (.validation [(c.sfkeypathr, "none is valid")])) := by
  have hrej : (¬ ∃ ls ∈ alts, Satisfied h c ls) →
      oneIsValidLoop isCallable h c (alts.map (.types ∘ plain)) = .error (c.vexc "none is valid") := by
    intro hs
    induction alts with
    | nil => rfl
    | cons a as ih =>
      change tryPipe (plain a) h c (oneIsValidLoop isCallable h c (as.map (.types ∘ plain))) = _
      rw [tryPipe_refused (ht a (by simp)) (fun hsa => hs ⟨a, by simp, hsa⟩)]
      exact ih (fun ls hl => ht ls (List.mem_cons_of_mem _ hl))
        (fun ⟨ls, hl, hsl⟩ => hs ⟨ls, List.mem_cons_of_mem _ hl, hsl⟩)
  refine ⟨⟨fun ho => ?_, fun hs => ?_⟩, hrej⟩
  · apply Classical.byContradiction
    intro hs
    have ho' : oneIsValidLoop isCallable h c (alts.map (.types ∘ plain)) = .ok () := ho
    rw [hrej hs] at ho'
    cases ho'
  · change oneIsValidLoop isCallable h c (alts.map (.types ∘ plain)) = .ok ()
    clear hrej
    induction alts with
    | nil => obtain ⟨_, hl, _⟩ := hs; cases hl
    | cons a as ih =>
      change tryPipe (plain a) h c (oneIsValidLoop isCallable h c (as.map (.types ∘ plain))) = _
      by_cases hsa : Satisfied h c a
      · exact tryPipe_satisfied (ht a (by simp)).proper hsa _
      · rw [tryPipe_refused (ht a (by simp)) hsa]
        obtain ⟨ls, hl, hsl⟩ := hs
        refine ih (fun ls hl => ht ls (List.mem_cons_of_mem _ hl)) ⟨ls, ?_, hsl⟩
        rcases List.mem_cons.1 hl with rfl | hl
        · exact absurd hsl hsa
        · exact hl

/-- Two alternatives that differ at most in the body of a callable. -/
inductive SameShape : Check → Check → Prop
  | types (p) : SameShape (.types p) (.types p)
  | fn (n f g) : SameShape (.fn n f) (.fn n g)

/-- C57, violation: what `oneisvalid` answers does not depend on the callables given to it:
they are never called. -/
theorem oneisvalid_ignores_callables (isCallable : Val → Bool) (h : Heap) (c : Ctx) {xs ys : List Check}
    (hs : List.Forall₂ SameShape xs ys) :
    (oneIsValidLeaf isCallable xs).validate h c = (oneIsValidLeaf isCallable ys).validate h c := by
  change oneIsValidLoop isCallable h c xs = oneIsValidLoop isCallable h c ys
  induction hs with
  | nil => rfl
  | cons hxy _ ih =>
    cases hxy with
    | types p => simp only [oneIsValidLoop, ih]
    | fn n f g => simp only [oneIsValidLoop, ih]

/-- C57, violation: a value that the callable accepts is refused by `oneisvalid` (when the
value itself cannot be called), and a callable with two parameters makes it raise TypeError. -/
theorem oneisvalid_callable_broken (isCallable : Val → Bool) (h : Heap) (c : Ctx) (hv : isCallable c.val = false) :
    (oneIsValidLeaf isCallable [.fn 1 fun _ _ => .ok (.bool true)]).validate h c =
        .error (.validation [(c.sfkeypathr, "none is valid")]) ∧
    (oneIsValidLeaf isCallable [.fn 2 fun _ _ => .ok (.bool true)]).validate h c = .error .typeError := by
  constructor
  · simp [oneIsValidLeaf, oneIsValidLoop, hv, Ctx.vexc]
  · rfl

/-- C57: `transform(types…)` and `fmt(types…)` yield what flows out of the pipeline. -/
theorem transform_types_iff (h : Heap) (c : Ctx) (ls : List Leaf) (t : Val) :
    ((transformLeaf (.types (plain ls))).transform h c = .ok t ↔ Flows h c ls c.val t) ∧
    ((fmtLeaf (.types (plain ls))).tojson h c = .ok t ↔ Flows h c ls c.val t) :=
  ⟨plain_transform_iff h c ls t, plain_transform_iff h c ls t⟩

/-! ### C57: `compare` -/

/-- **C57**: a callable given to `transform` or `fmt` replaces the value by its result, except None, for which
it is not called. -/
theorem callable_applied (n : Nat) (f : Heap → Ctx → Except Exc Val) (h : Heap) (c : Ctx) :
    (c.val = .none → (transformLeaf (.fn n f)).transform h c = .ok .none ∧ (fmtLeaf (.fn n f)).tojson h c = .ok .none) ∧
    (c.val ≠ .none → (transformLeaf (.fn n f)).transform h c = f h c ∧ (fmtLeaf (.fn n f)).tojson h c = f h c) := by
  refine ⟨fun hv => ?_, fun hv => ?_⟩
  · simp [transformLeaf, fmtLeaf, Check.apply, hv, Val.isNone]
  · have : c.val.isNone = false := by
      cases hc : c.val <;> simp_all [Val.isNone]
    simp [transformLeaf, fmtLeaf, Check.apply, this]
example (h : Heap) (c : Ctx) := ((callable_applied 1 (fun _ c => .ok (.list [c.val])) h (c.nval (.int 1))).2 (fun h => nomatch h)).1

theorem compareJudge_ok_iff (c : Ctx) (r : Val) : compareJudge c r = .ok () ↔ r = .bool true ∨ r = .none := by
  unfold compareJudge
  split <;> simp_all

/-- C57: at a field of an object, `compare` accepts exactly: no recorded previous value of
the field, or a callable that answers `True` or `None` for the previous and the present value. -/
theorem compare_iff (f : Heap → Val → Ctx → Except Exc Val) (h : Heap) (c : Ctx) (p : Nat) (ks : List Key) (n : String)
    (hp : c.parent = some p) (hk : c.keypathp = ks ++ [.s n]) :
    (compareLeaf f).validate h c = .ok () ↔
      ∀ prev, dictGet (h p).prev n = some prev → f h prev c = .ok (.bool true) ∨ f h prev c = .ok .none := by
  have hl : c.keypathp.getLast? = some (.s n) := by rw [hk]; simp
  simp only [compareLeaf, hl, hp]
  cases hd : dictGet (h p).prev n with
  | none => simp
  | some prev =>
    simp only [Option.some.injEq, forall_eq']
    cases hf : f h prev c with
    | error e => simp
    | ok r => simp only [compareJudge_ok_iff, Except.ok.injEq]

/-- C57, violation: on a field that holds an object, `compare` raises IndexError, whatever the
callable, the object and the previous values are. -/
theorem compare_instance_field_broken (env : Env) (f : Heap → Val → Ctx → Except Exc Val) (w : World) (c : Ctx) (j : Nat)
    (g : Field) (hg : g.ftype = .inst) (v : Val) (h : Heap) :
    (compareLeaf f).validate h (fieldCtx env w c j g v) = .error .indexError := by
  simp [compareLeaf, fieldCtx, hg, Ctx.nexto]

/-- C57, violation: on a field of an object that is an item of a list or dict, `compare`
raises AttributeError: the previous values are looked up in the list. -/
theorem compare_in_collection_broken (env : Env) (f : Heap → Val → Ctx → Except Exc Val) (w : World) (c : Ctx) (j : Nat)
    (k : Key) (g : Field) (hg : g.ftype ≠ .inst) (v : Val) (h : Heap) :
    (compareLeaf f).validate h (fieldCtx env w (c.colval (.obj j) k) j g v) = .error .attributeError := by
  simp [compareLeaf, fieldCtx, hg, Ctx.nextvo, Ctx.nextv, Ctx.colval]

end JC

/-! ### Concrete cases -/
namespace JC.SubPipeDemo
open JC

/-- `types.str` as a validator, and a callable that appends a letter -/
def isText : Leaf where
  validate := fun _ c => match c.val with
    | .str _ => .ok ()
    | _ => .error (c.vexc "value is not text")
def isNumber : Leaf where
  validate := fun _ c => match c.val with
    | .int _ => .ok ()
    | _ => .error (c.vexc "value is not number")
def toText : Leaf where
  transform := fun _ c => match c.val with
    | .int _ => .ok (.str "n")
    | v => .ok v

theorem isText_tame (h : Heap) : Tame h [isText] := by
  intro l hl
  rw [List.mem_singleton] at hl
  subst hl
  refine ⟨fun c => ⟨c.val, rfl⟩, fun c e he => ?_⟩
  simp only [isText] at he
  split at he
  · cases he
  · injection he with he
    exact ⟨_, he.symm, by simp⟩

theorem isNumber_tame (h : Heap) : Tame h [isNumber] := by
  intro l hl
  rw [List.mem_singleton] at hl
  subst hl
  refine ⟨fun c => ⟨c.val, rfl⟩, fun c e he => ?_⟩
  simp only [isNumber] at he
  split at he
  · cases he
  · injection he with he
    exact ⟨_, he.symm, by simp⟩

theorem toText_tame (h : Heap) : Tame h [toText, isText] := by
  intro l hl
  simp only [List.mem_cons, List.not_mem_nil, or_false] at hl
  rcases hl with rfl | rfl
  · refine ⟨fun c => ?_, fun c e he => by cases he⟩
    simp only [toText]
    split <;> exact ⟨_, rfl⟩
  · exact isText_tame h _ (by simp)

def aHeap : Heap := fun _ => {}

/-- a number becomes text in the nested pipeline, and is then accepted; a bool is not -/
example : (validateLeaf (.types (plain [toText, isText])) (some "bad")).validate aHeap { val := .int 3 } = .ok () :=
  (validate_types_iff (toText_tame aHeap).proper _ _).2
    ⟨.str "n", .cons rfl (.cons rfl (.nil _)), by
      intro l hl
      simp only [List.mem_cons, List.not_mem_nil, or_false] at hl
      rcases hl with rfl | rfl <;> rfl⟩
example : (validateLeaf (.types (plain [toText, isText])) (some "bad")).validate aHeap
    { val := .bool true, fkeypathr := [.s "a"] } = .error (.validation [("a", "bad")]) := rfl

/-- text or number: both alternatives matter -/
example : (oneIsValidLeaf (fun _ => false) ([[isText], [isNumber]].map (.types ∘ plain))).validate aHeap { val := .int 3 } = .ok () :=
  (oneisvalid_iff_partial _ _ (by
    intro ls hl
    simp only [List.mem_cons, List.not_mem_nil, or_false] at hl
    rcases hl with rfl | rfl
    · exact isText_tame _
    · exact isNumber_tame _) _).1.2
    ⟨[isNumber], by simp, .int 3, .cons rfl (.nil _), by
      intro l hl
      rw [List.mem_singleton] at hl
      subst hl
      rfl⟩
example : (oneIsValidLeaf (fun _ => false) ([[isText], [isNumber]].map (.types ∘ plain))).validate aHeap
    { val := .bool true, fkeypathr := [.s "a"] } = .error (.validation [("a", "none is valid")]) := rfl

/-- callables -/
example : (validateLeaf (.fn 1 fun _ _ => .ok (.str "too old")) none).validate aHeap
    { val := .int 3, fkeypathr := [.s "a"] } = .error (.validation [("a", "too old")]) :=
  validate_callable_message 1 none (by simp) rfl
example : List.Forall₂ SameShape [.fn 1 fun _ _ => .ok (.bool true)] [.fn 1 fun _ _ => .ok (.bool false)] :=
  .cons (.fn _ _ _) .nil

/-- a price that may only go up: 3 was recorded before -/
def rises : Heap → Val → Ctx → Except Exc Val := fun _ prev c => match prev, c.val with
  | .int a, .int b => .ok (.bool (decide (a ≤ b)))
  | _, _ => .ok .none
def priced : Heap := fun _ => { prev := [("price", .int 3)] }
def priceAt (n : Int) : Ctx := { parent := some 0, keypathp := [.s "price"], fkeypathr := [.s "price"], val := .int n }
example : (compareLeaf rises).validate priced (priceAt 4) = .ok () :=
  (compare_iff rises priced (priceAt 4) 0 [] "price" rfl rfl).2 (by
    intro prev hp
    have : prev = .int 3 := by
      have h3 : dictGet (priced 0).prev "price" = some (.int 3) := rfl
      rw [h3] at hp
      exact (Option.some.inj hp).symm
    subst this
    exact Or.inl rfl)
example : (compareLeaf rises).validate priced (priceAt 2) = .error (.validation [("price", "compare failed")]) := rfl

end JC.SubPipeDemo
