import Verif.Model.Calc
import Verif.Props.ReportNames

/-
C77: assigning to calculated fields.
-/
namespace JC
variable {env : Env}

/-! ### Specification -/

/-- One operation after the other, all of which complete, none of them an assignment to a
calculated field. The operations satisfy `P`, which may depend on the class of the object. -/
inductive OrdinarySteps (env : Env) (P : ClassDef → FOp → Prop) : World → World → Prop where
  | none (w) : OrdinarySteps env P w w
  | more {w w₁ w₂ : World} {i : Nat} {op : FOp} : P (w.cdef env i) op →
      (∀ n v f, op = .set n v → (w.cdef env i).localKey? n = Option.none → (w.cdef env i).field? n = some f → f.store ≠ .calculated) →
      op.run env i w = (.ok (), w₁) → OrdinarySteps env P w₁ w₂ → OrdinarySteps env P w w₂

/-- The same, and then possibly one operation that raises. -/
def Stopped (env : Env) (P : ClassDef → FOp → Prop) (w w' : World) : Prop :=
  ∃ w₁, OrdinarySteps env P w w₁ ∧ (w' = w₁ ∨ ∃ i op e, P (w₁.cdef env i) op ∧ op.run env i w₁ = (.error e, w'))

/-- All operations of a setter satisfy `P`, whatever it reads; `K` are the classes of objects. -/
inductive SetterRun.Only (env : Env) (P : ClassDef → FOp → Prop) (K : Nat → String) : SetterRun → Prop where
  | done : SetterRun.Only env P K .done
  | fail (e : Exc) : SetterRun.Only env P K (.fail e)
  | act {i : Nat} {o : FOp} {k : Heap → SetterRun} : P (env.cls (K i)) o → (∀ h, (k h).Only env P K) → SetterRun.Only env P K (.act i o k)

/-- The operations of setters given as callables satisfy `P`. Nothing is asked of setters given as
pipelines. -/
def Setters.Only (env : Env) (P : ClassDef → FOp → Prop) (K : Nat → String) (S : Setters) : Prop :=
  ∀ c n g, S c n = some (.fn g) → ∀ i v h, K i = c → (g i v h).Only env P K

/-- the classes of the objects of a world -/
def World.classes (w : World) : Nat → String := fun j => (w.heap j).cls

/-! ### Proof -/

variable {P : ClassDef → FOp → Prop} {K : Nat → String}

theorem OrdinarySteps.trans {w w₁ w₂ : World} (h : OrdinarySteps env P w w₁) (h' : OrdinarySteps env P w₁ w₂) : OrdinarySteps env P w w₂ := by
  induction h with
  | none => exact h'
  | more hp hn hr _ ih => exact .more hp hn hr (ih h')

/-- operations keep the classes of objects -/
theorem run_keeps_classes (i : Nat) (op : FOp) (w : World) : (op.run env i w).2.classes = w.classes := by
  have hx : ∀ c n, Nameable env (fun _ _ => True) c n := fun _ _ => .inr (.inr trivial)
  have key : ∀ K, Kp' (NamesK env (fun _ _ => True) K) (op.run env i) := by
    intro K
    cases op with
    | set n v => exact nk_setAttr i n v
    | lst n op =>
      show Kp' _ (listOp env i n op)
      unfold listOp
      refine Kp.get.bind (fun w _ => ?_)
      split
      · rename_i xs _
        have hev : ∀ p : LEv Val → Bool, ∀ e ∈ (ownedOp pyEq op xs).log.filter p, Kp' (NamesK env (fun _ _ => True) K) (ownerLEv env i n e) := fun p e he =>
          nk_ownerLEv (.inr (hx _ _)) (fun h => hx _ _)
        exact (nk_forEvs _ (hev _)).bind' (fun _ => (nk_rawSet _ _ _).bind' (fun _ => (nk_forEvs _ (hev _)).bind' (fun _ => nk_raiseOpt _)))
      · exact Kp.raise _
    | dct n op =>
      show Kp' _ (dictOp env i n op)
      unfold dictOp
      refine Kp.get.bind (fun w _ => ?_)
      have hev : ∀ xs : List (DEv Val), ∀ e ∈ xs, Kp' (NamesK env (fun _ _ => True) K) (ownerDEv env i n e) := fun _ e _ => nk_ownerDEv (hx _ _) e
      split
      · exact (nk_forEvs _ (hev _)).bind' (fun _ => (nk_rawSet _ _ _).bind' (fun _ => (nk_forEvs _ (hev _)).bind' (fun _ => nk_raiseOpt _)))
      · exact Kp.raise _
  funext j
  exact ((key w.classes w (fun j => ⟨rfl, fun _ _ => hx _ _⟩)).1 j).1

theorem OrdinarySteps.classes {w w' : World} (h : OrdinarySteps env P w w') : w'.classes = w.classes := by
  induction h with
  | none => rfl
  | @more w₀ w₁ w₂ i op _ _ hr _ ih =>
    rw [ih, ← run_keeps_classes (env := env) i op w₀, hr]

/-- the computation only makes ordinary operations -/
def OrdRun (env : Env) (P : ClassDef → FOp → Prop) (K : Nat → String) {α : Type} (m : Py World α) : Prop :=
  ∀ w, w.classes = K → (∀ a w', m w = (.ok a, w') → OrdinarySteps env P w w') ∧ ∀ e w', m w = (.error e, w') → Stopped env P w w'

section
variable {α β : Type}

theorem OrdRun.bind {m : Py World α} {k : α → Py World β} (hm : OrdRun env P K m) (hk : ∀ a, OrdRun env P K (k a)) : OrdRun env P K (m >>= k) := by
  intro w hw
  have key : ∀ r w', (m >>= k) w = (r, w') → (∃ e, r = .error e ∧ m w = (.error e, w')) ∨ ∃ a w₁, m w = (.ok a, w₁) ∧ k a w₁ = (r, w') := by
    intro r w' h
    rw [Py.bind_run] at h
    cases hr : m w with
    | mk x w₁ =>
      rw [hr] at h
      cases x with
      | error e => cases h; exact .inl ⟨e, rfl, rfl⟩
      | ok a => exact .inr ⟨a, w₁, rfl, h⟩
  refine ⟨fun b w' h => ?_, fun e w' h => ?_⟩
  · rcases key _ _ h with ⟨e, h1, -⟩ | ⟨a, w₁, h1, h2⟩
    · cases h1
    · have o := (hm w hw).1 _ _ h1
      exact o.trans ((hk a w₁ (o.classes.trans hw)).1 _ _ h2)
  · rcases key _ _ h with ⟨e', h1, h2⟩ | ⟨a, w₁, h1, h2⟩
    · exact (hm w hw).2 _ _ h2
    · have o := (hm w hw).1 _ _ h1
      obtain ⟨w₂, o', h3⟩ := (hk a w₁ (o.classes.trans hw)).2 _ _ h2
      exact ⟨w₂, o.trans o', h3⟩

theorem OrdRun.still {m : Py World α} (h : ∀ w, (m w).2 = w) : OrdRun env P K m := by
  intro w _
  refine ⟨fun a w' hr => ?_, fun e w' hr => ?_⟩ <;>
  · have := h w
    rw [hr] at this
    subst this
    first | exact .none _ | exact ⟨_, .none _, .inl rfl⟩

theorem OrdRun.pure (a : α) : OrdRun env P K (Pure.pure a : Py World α) := .still (fun _ => rfl)
theorem OrdRun.raise (e : Exc) : OrdRun env P K (Py.raise e : Py World α) := .still (fun _ => rfl)
theorem OrdRun.get : OrdRun env P K (Py.get : Py World World) := .still (fun _ => rfl)
theorem OrdRun.read (f : World → Except Exc α) : OrdRun env P K (readW f) := .still (fun _ => rfl)

/-- for computations that begin by looking at the world -/
theorem OrdRun.look {k : World → Py World β} (hk : ∀ w, w.classes = K → OrdRun env P K (k w)) : OrdRun env P K (Py.get >>= k) := by
  intro w hw
  show (∀ a w', k w w = (.ok a, w') → _) ∧ ∀ e w', k w w = (.error e, w') → _
  exact hk w hw w hw

end

/-- an assignment that completes was not to a calculated field -/
theorem setAttr_ordinary {i : Nat} {n : String} {v : Val} {w w' : World} (h : setAttr env i n v w = (.ok (), w')) {f : Field}
    (hl : (w.cdef env i).localKey? n = none) (hf : (w.cdef env i).field? n = some f) : f.store ≠ .calculated := by
  intro hc
  unfold setAttr at h
  have h := get_bind_ok h
  rw [hl] at h
  simp only [setField] at h
  cases hu : env.fuel with
  | zero => rw [hu] at h; cases h
  | succ m =>
    rw [hu] at h
    simp only [runL, setBody] at h
    have h := get_bind_ok h
    rw [hf] at h
    simp only [hc, if_true] at h
    cases h

theorem ordRun_op {i : Nat} {op : FOp} (hp : P (env.cls (K i)) op) : OrdRun env P K (op.run env i) := by
  intro w hw
  have hp' : P (w.cdef env i) op := by rw [← hw] at hp; exact hp
  refine ⟨fun a w' h => ?_, fun e w' h => ⟨w, .none _, .inr ⟨i, op, e, hp', h⟩⟩⟩
  refine .more (i := i) (op := op) hp' ?_ h (.none _)
  rintro n v f rfl hl hf
  exact setAttr_ordinary h hl hf

theorem ordRun_setter {set : Nat → String → Val → Py World Unit} (hs : ∀ i n v, OrdRun env P K (set i n v)) {s : SetterRun} (h : s.Only env P K) :
    OrdRun env P K (s.run env set) := by
  induction h with
  | done => exact OrdRun.pure ()
  | fail e => exact OrdRun.raise e
  | @act i o k hp _ ih =>
    unfold SetterRun.run
    have hk : ∀ _u : Unit, OrdRun env P K (Py.get >>= fun w : World => (k w.heap).run env set) := fun _ => OrdRun.get.bind (fun w => ih _)
    cases o with
    | set n v => exact (hs i n v).bind hk
    | lst n op => exact (ordRun_op (op := .lst n op) hp).bind hk
    | dct n op => exact (ordRun_op (op := .dct n op) hp).bind hk

theorem ordRun_reduceM {f : Ops World → Val → Py World Val} (ms : List (Ops World)) (h : ∀ m ∈ ms, ∀ v, OrdRun env P K (f m v)) :
    ∀ v, OrdRun env P K (reduceM f ms v) := by
  induction ms with
  | nil => intro v; exact OrdRun.pure v
  | cons m ms ih => intro v; exact (h m (by simp) v).bind (fun v' => ih (fun m' h' => h m' (by simp [h'])) v')

theorem tvs_sub {σ : Type} {vs : List (Ops σ)} {m : Ops σ} (h : m ∈ tvs vs) : m ∈ vs := by
  unfold tvs at h
  split at h
  · exact List.mem_of_mem_take h
  · cases h

theorem nvs_sub {σ : Type} {vs : List (Ops σ)} {m : Ops σ} (h : m ∈ nvs vs) : m ∈ vs := by
  have hu : ∀ {m}, m ∈ uptoPre vs → m ∈ vs := by
    intro m h
    unfold uptoPre at h
    split at h
    · exact List.mem_of_mem_take h
    · exact h
  unfold nvs at h
  split at h
  · exact hu (List.mem_of_mem_drop h)
  · exact hu h

theorem ordRun_smod {set : Nat → String → Val → Py World Unit} (hs : ∀ i n v, OrdRun env P K (set i n v)) (m : SMod) (c : Ctx) :
    OrdRun env P K ((m.ops set).transform c) ∧ OrdRun env P K ((m.ops set).validate c) := by
  cases m with
  | mod m => cases m <;> exact ⟨.still (fun _ => rfl), .still (fun _ => rfl)⟩
  | assign n a =>
    refine ⟨?_, .still (fun _ => rfl)⟩
    show OrdRun env P K (assignTransform set n a c)
    unfold assignTransform
    refine (OrdRun.read _).bind (fun v => ?_)
    split
    · exact (hs _ _ _).bind (fun _ => OrdRun.pure _)
    · exact OrdRun.raise _

theorem ordRun_fieldSetter {set : Nat → String → Val → Py World Unit} (hs : ∀ i n v, OrdRun env P K (set i n v)) {s : FieldSetter} {i : Nat}
    (hf : ∀ g, s = .fn g → ∀ v h, (g i v h).Only env P K) (n : String) (v : Val) : OrdRun env P K (s.run env set i n v) := by
  unfold FieldSetter.run
  refine OrdRun.get.bind (fun w => ?_)
  cases s with
  | fn f => exact ordRun_setter hs (hf f rfl v _)
  | types p =>
    refine OrdRun.bind ?_ (fun _ => OrdRun.pure ())
    unfold chainTransform
    refine OrdRun.bind (ordRun_reduceM _ (fun m hm v => ?_) _) (fun v => ordRun_reduceM _ (fun m hm v => ?_) _)
    · obtain ⟨m', -, rfl⟩ := List.mem_map.1 (tvs_sub hm)
      unfold vt
      exact (ordRun_smod hs m' _).1.bind (fun r => (ordRun_smod hs m' _).2.bind (fun _ => OrdRun.pure _))
    · obtain ⟨m', -, rfl⟩ := List.mem_map.1 (nvs_sub hm)
      exact (ordRun_smod hs m' _).1

theorem ordRun_assign {S : Setters} (hset : ∀ cd n v, P cd (.set n v)) (hS : S.Only env P K) : ∀ d i n v, OrdRun env P K (assignAttr env S d i n v) := by
  intro d
  induction d with
  | zero => intro i n v; exact OrdRun.raise _
  | succ d ih =>
    intro i n v
    have ha : OrdRun env P K (setAttr env i n v) := ordRun_op (op := .set n v) (hset _ _ _)
    unfold assignAttr
    refine OrdRun.look (fun w hw => ?_)
    split
    · exact ha
    · split
      · exact ha
      · split
        · split
          · exact OrdRun.raise _
          · rename_i s hs
            refine ordRun_fieldSetter ih (fun g hg v h => ?_) n v
            subst hg
            exact hS _ _ _ hs i v h (by rw [← hw]; rfl)
        · exact ha

theorem ordRun_assignAll {S : Setters} (hset : ∀ cd n v, P cd (.set n v)) (hS : S.Only env P K) (d i : Nat) :
    ∀ kvs, OrdRun env P K (assignAll env S d i kvs) := by
  intro kvs
  induction kvs with
  | nil => exact OrdRun.pure ()
  | cons kv r ih => exact (ordRun_assign hset hS d i kv.1 kv.2).bind (fun _ => ih)

theorem ordRun_update {S : Setters} (hset : ∀ cd n v, P cd (.set n v)) (hS : S.Only env P K) (d i : Nat) (kvs : List (String × Val)) :
    OrdRun env P K (updateAttrs env S d i kvs) := by
  intro w hw
  unfold updateAttrs
  split
  · exact ordRun_assignAll hset hS d i kvs w hw
  · exact ⟨fun a w' h => (by cases h), fun e w' h => ⟨w, .none _, .inl (by cases h; rfl)⟩⟩

theorem OrdinarySteps.completed {w w' : World} (h : OrdinarySteps env FOp.Reports w w') : Completed env w w' := by
  induction h with
  | none => exact .none _
  | more hp _ hr _ ih => exact .more hp hr ih

theorem OrdinarySteps.history {w w₁ w' : World} (h : OrdinarySteps env FOp.OnFields w w₁) (h' : AnyHistory env w₁ w') : AnyHistory env w w' := by
  induction h with
  | none => exact h'
  | more hp _ hr _ ih => exact .more hp (by rw [hr]; exact ih h')

theorem Stopped.history {w w' : World} (h : Stopped env FOp.OnFields w w') : AnyHistory env w w' := by
  obtain ⟨w₁, o, rfl | ⟨i, op, e, hp, hr⟩⟩ := h
  · exact o.history (.none _)
  · exact o.history (.more hp (by rw [hr]; exact .none _))

/-! ### Theorems -/

/-- **C77**. An assignment to an attribute, calculated or not, does to objects what a sequence of
operations on ordinary attributes does: setters add no other effects, however deeply they assign
to calculated fields themselves. -/
theorem assign_is_ordinary {S : Setters} (hset : ∀ cd n v, P cd (.set n v)) {w w' : World} (hS : S.Only env P w.classes) {d i : Nat} {n : String}
    {v : Val} (h : assignAttr env S d i n v w = (.ok (), w')) : OrdinarySteps env P w w' := (ordRun_assign hset hS d i n v w rfl).1 () w' h

/-- **C77**. When it raises, the operations before the one that raised have been made. -/
theorem assign_stopped {S : Setters} (hset : ∀ cd n v, P cd (.set n v)) {w w' : World} (hS : S.Only env P w.classes) {d i : Nat} {n : String}
    {v : Val} {e : Exc} (h : assignAttr env S d i n v w = (.error e, w')) : Stopped env P w w' := (ordRun_assign hset hS d i n v w rfl).2 e w' h

/-- **C77**. The same for `update`. -/
theorem update_is_ordinary {S : Setters} (hset : ∀ cd n v, P cd (.set n v)) {w w' : World} (hS : S.Only env P w.classes) {d i : Nat}
    {kvs : List (String × Val)} {r : Except Exc Unit} (h : updateAttrs env S d i kvs w = (r, w')) :
    (r = .ok () → OrdinarySteps env P w w') ∧ ∀ e, r = .error e → Stopped env P w w' := by
  have h2 := ordRun_update hset hS d i kvs w rfl
  exact ⟨fun hr => h2.1 () w' (by rw [h, hr]), fun e hr => h2.2 e w' (by rw [h, hr])⟩

/-- **C77**. Changes made through setters are reported like all others: if an attribute of a field
of a persisted object has changed, the field is in `modified_fields` (or it is a relation to a
single object that was cleared from the other side). -/
theorem setter_changes_reported (hd : SeparateNames env) {S : Setters} {w w' : World} (hS : S.Only env FOp.Reports w.classes) {d i : Nat}
    {kvs : List (String × Val)} (h : updateAttrs env S d i kvs w = (.ok (), w')) {j : Nat} (hn : (w.heap j).isNew = false)
    {f : Field} (hf : f ∈ (env.cls (w.heap j).cls).fields) {a : String} (ha : KeptIn f a) (hc : (w'.heap j).attrs a ≠ (w.heap j).attrs a) :
    f.name ∈ (w'.heap j).modFields ∨ ClearedFrom env (w'.heap j) a :=
  relation_changes_reported hd ((update_is_ordinary (fun _ _ _ => trivial) hS h).1 rfl).completed hn hf ha hc

/-- **C77**. Nothing but stored fields and relations is ever named in `modified_fields`, whether the
assignment completes or not. -/
theorem setter_names_fields {S : Setters} {w : World} (hS : S.Only env FOp.OnFields w.classes) (hw : NamesFields env w) (d i : Nat) (n : String) (v : Val) :
    NamesFields env (assignAttr env S d i n v w).2 := by
  cases h : assignAttr env S d i n v w with
  | mk r w' =>
    cases r with
    | ok a => exact modified_fields_name_fields ((assign_is_ordinary (fun _ _ _ => trivial) hS h).history (.none _)) hw
    | error e => exact modified_fields_name_fields (assign_stopped (fun _ _ _ => trivial) hS h).history hw

/-- **C77**. A calculated field without setter is read-only: the assignment raises and changes nothing. -/
theorem readonly_calculated (S : Setters) {w : World} {i : Nat} {n : String} {f : Field} (hl : (w.cdef env i).localKey? n = none)
    (hf : (w.cdef env i).field? n = some f) (hc : f.store = .calculated) (hs : S (w.heap i).cls n = none) (d : Nat) (v : Val) :
    assignAttr env S (d + 1) i n v w = (.error (.other 0), w) := by
  simp only [assignAttr, Py.bind_run, Py.get_run, hl, hf, hc, if_true, hs]
  rfl

/-- **C77**. The assignment to a calculated field with a callable is the call with the object and the
assigned value, and nothing else. -/
theorem callable_setter {S : Setters} {w : World} {i : Nat} {n : String} {f : Field} (hl : (w.cdef env i).localKey? n = none)
    (hf : (w.cdef env i).field? n = some f) (hc : f.store = .calculated) {g : Nat → Val → Heap → SetterRun}
    (hs : S (w.heap i).cls n = some (.fn g)) (d : Nat) (v : Val) :
    assignAttr env S (d + 1) i n v w = (g i v w.heap).run env (assignAttr env S d) w := by
  simp only [assignAttr, Py.bind_run, Py.get_run, hl, hf, hc, if_true, hs, FieldSetter.run]

/-- What an argument of `assign` stands for: itself, what calling it gives, or what its pipeline makes of the
value that the assignment is applied to. -/
def supplied (h : Heap) (c : Ctx) : AssignArg → Except Exc Val
  | .const v => .ok v
  | .call f => f h
  | .types p => p.transform h c

theorem value_supplied (a : AssignArg) (h : Heap) (c : Ctx) : a.value h c = supplied h c a := by cases a <;> rfl

/-- Specification of `types.this.assign(m₁, p₁).assign(m₂, p₂)...`: the attributes of the object are
assigned from left to right, each value computed from the assigned value when it is needed. -/
def assignSteps (env : Env) (S : Setters) (d : Nat) (i : Nat) (c : Ctx) : List (String × AssignArg) → Py World Unit
  | [] => pure ()
  | (m, a) :: r => do
    let v ← readW (fun w => supplied w.heap c a)
    assignAttr env S d i m v
    assignSteps env S d i c r

theorem reduce_assigns (S : Setters) (d i : Nat) (c : Ctx) (steps : List (String × AssignArg)) : ∀ w : World,
    reduceM (fun m v => m.transform (c.nval v)) (steps.map (fun s => (SMod.assign s.1 s.2).ops (assignAttr env S d))) (.obj i) w
      = match assignSteps env S d i (c.nval (.obj i)) steps w with
        | (.ok _, w') => (.ok (.obj i), w')
        | (.error e, w') => (.error e, w') := by
  induction steps with
  | nil => intro w; rfl
  | cons s r ih =>
    intro w
    have h0 : reduceM (fun m v => m.transform (c.nval v)) ((s :: r).map (fun s => (SMod.assign s.1 s.2).ops (assignAttr env S d))) (.obj i) w =
      ((assignTransform (assignAttr env S d) s.1 s.2 (c.nval (.obj i)) >>= fun v =>
        reduceM (fun m v => m.transform (c.nval v)) (r.map (fun s => (SMod.assign s.1 s.2).ops (assignAttr env S d))) v) : Py World Val) w := rfl
    rw [h0]
    unfold assignTransform assignSteps
    simp only [Py.bind_run, value_supplied]
    cases hv : readW (fun w => supplied w.heap (c.nval (.obj i)) s.2) w with
    | mk x w₁ =>
      cases x with
      | error e => rfl
      | ok v =>
        simp only []
        have hc : (c.nval (.obj i)).val = .obj i := rfl
        simp only [hc, Py.bind_run]
        cases ha : assignAttr env S d i s.1 v w₁ with
        | mk y w₂ =>
          cases y with
          | error e => rfl
          | ok u => exact ih w₂

/-- the pipeline run as a transformation -/
theorem this_assigns (S : Setters) (w : World) (i : Nat) (n : String) (steps : List (String × AssignArg)) (d : Nat) (v : Val) :
    (chainTransform ((SMod.mod (.leaf thisLeaf) :: steps.map (fun s => SMod.assign s.1 s.2)).map (SMod.ops (assignAttr env S d))) (rootCtxP env w i n v) >>=
      fun _ => (pure () : Py World Unit)) w = assignSteps env S d i ((rootCtxP env w i n v).nval (.obj i)) steps w := by
  rw [Py.bind_run]
  have hm : (SMod.mod (.leaf thisLeaf) :: steps.map (fun s => SMod.assign s.1 s.2)).map (SMod.ops (assignAttr env S d)) =
      (SMod.mod (.leaf thisLeaf)).ops (assignAttr env S d) :: steps.map (fun s => (SMod.assign s.1 s.2).ops (assignAttr env S d)) := by
    simp [List.map_map, Function.comp_def]
  have hns : ∀ p : Ops World → Bool, (p ((SMod.mod (.leaf thisLeaf)).ops (assignAttr env S d)) = false) →
      (∀ s : String × AssignArg, p ((SMod.assign s.1 s.2).ops (assignAttr env S d)) = false) →
      ∀ m ∈ (SMod.mod (.leaf thisLeaf)).ops (assignAttr env S d) :: steps.map (fun s => (SMod.assign s.1 s.2).ops (assignAttr env S d)), p m = false := by
    intro p h1 h2 m hm
    rcases List.mem_cons.1 hm with rfl | hm
    · exact h1
    · obtain ⟨s, -, rfl⟩ := List.mem_map.1 hm
      exact h2 s
  rw [hm]
  unfold chainTransform tvs nvs uptoPre
  rw [lastIdx_none _ _ (hns (·.isEager) rfl (fun _ => rfl)), firstIdx_none _ _ (hns (·.isPre) rfl (fun _ => rfl))]
  have h1 := reduce_assigns (env := env) S d i (rootCtxP env w i n v) steps w
  have h2 : ((SMod.mod (.leaf thisLeaf)).ops (assignAttr env S d)).transform ((rootCtxP env w i n v).nval (rootCtxP env w i n v).val) w = (.ok (.obj i), w) := rfl
  simp only [reduceM, Py.bind_run, Py.pure_run, h2, h1]
  cases assignSteps env S d i ((rootCtxP env w i n v).nval (.obj i)) steps w with
  | mk r w' => cases r <;> rfl

/-- **C77**. What a setter pipeline `types.this.assign(...)...` does. -/
theorem pipeline_setter {S : Setters} {w : World} {i : Nat} {n : String} {f : Field} (hl : (w.cdef env i).localKey? n = none)
    (hf : (w.cdef env i).field? n = some f) (hc : f.store = .calculated) {steps : List (String × AssignArg)}
    (hs : S (w.heap i).cls n = some (.types (.mod (.leaf thisLeaf) :: steps.map (fun s => .assign s.1 s.2)))) (d : Nat) (v : Val) :
    assignAttr env S (d + 1) i n v w = assignSteps env S d i ((rootCtxP env w i n v).nval (.obj i)) steps w := by
  simp only [assignAttr, Py.bind_run, Py.get_run, hl, hf, hc, if_true, hs, FieldSetter.run]
  have h := this_assigns (env := env) S w i n steps d v
  rw [Py.bind_run] at h
  exact h

/-- a chain does the same as its part before a preserialize mark -/
theorem transform_before_pre {σ : Type} (A R : List (Ops σ)) (p : Ops σ) (hp : p.isPre = true) (hp' : p.isEager = false) (hA : ∀ m ∈ A, m.isPre = false ∧ m.isEager = false)
    (hR : ∀ m ∈ R, m.isEager = false) (c : Ctx) : chainTransform (A ++ p :: R) c = chainTransform A c := by
  have h1 : lastIdx (·.isEager) (A ++ p :: R) = none := lastIdx_none _ _ (fun m hm => by
    rcases List.mem_append.1 hm with h | h
    · exact (hA m h).2
    · rcases List.mem_cons.1 h with rfl | h
      · exact hp'
      · exact hR m h)
  have h2 : firstIdx (·.isPre) (A ++ p :: R) = some A.length := by
    rw [firstIdx_append _ _ _ (fun m hm => (hA m hm).1)]
    simp [firstIdx, hp]
  have h3 : lastIdx (·.isEager) A = none := lastIdx_none _ _ (fun m hm => (hA m hm).2)
  have h4 : firstIdx (·.isPre) A = none := firstIdx_none _ _ (fun m hm => (hA m hm).1)
  unfold chainTransform tvs nvs uptoPre
  simp [h1, h2, h3, h4]

/-- **C77**. Steps of a setter pipeline behind a preserialize mark are not taken. -/
theorem pipeline_setter_marked {S : Setters} {w : World} {i : Nat} {n : String} {f : Field} (hl : (w.cdef env i).localKey? n = none)
    (hf : (w.cdef env i).field? n = some f) (hc : f.store = .calculated) {steps late : List (String × AssignArg)}
    (hs : S (w.heap i).cls n = some (.types ((.mod (.leaf thisLeaf) :: steps.map (fun s => .assign s.1 s.2)) ++ .mod .pre ::
      late.map (fun s => .assign s.1 s.2)))) (d : Nat) (v : Val) :
    assignAttr env S (d + 1) i n v w = assignSteps env S d i ((rootCtxP env w i n v).nval (.obj i)) steps w := by
  simp only [assignAttr, Py.bind_run, Py.get_run, hl, hf, hc, if_true, hs, FieldSetter.run]
  rw [List.map_append, List.map_cons (l := List.map _ late), transform_before_pre]
  · have h := this_assigns (env := env) S w i n steps d v
    rw [Py.bind_run] at h
    exact h
  · rfl
  · rfl
  · intro m hm
    obtain ⟨s, hs, rfl⟩ := List.mem_map.1 hm
    rcases List.mem_cons.1 hs with rfl | hs
    · exact ⟨rfl, rfl⟩
    · obtain ⟨t, -, rfl⟩ := List.mem_map.1 hs
      exact ⟨rfl, rfl⟩
  · intro m hm
    obtain ⟨s, hs, rfl⟩ := List.mem_map.1 hm
    obtain ⟨t, -, rfl⟩ := List.mem_map.1 hs
    rfl

/-- **C77**, get after set. With a setter `types.this.assign(m, value)` for a plain field `m` and a
getter that reads `m`, assigning `v` completes, and reading gives what the getter makes of the computed
value, or of the equal value that was there already. -/
theorem get_after_set {S : Setters} (hfuel : env.fuel ≠ 0) {w : World} {i : Nat} {n m : String} {f : Field} (hl : (w.cdef env i).localKey? n = none)
    (hf : (w.cdef env i).field? n = some f) (hc : f.store = .calculated) {a : AssignArg}
    (hs : S (w.heap i).cls n = some (.types [.mod (.leaf thisLeaf), .assign m a])) (hp : PlainField (w.cdef env i) m)
    {G : Val → Except Exc Val} (hg : ∀ h : Heap, f.getter h i = G ((h i).attrs m)) {v u : Val}
    (hv : supplied w.heap ((rootCtxP env w i n v).nval (.obj i)) a = .ok u) (d : Nat) :
    ∃ w' u', assignAttr env S (d + 2) i n v w = (.ok (), w') ∧ (u' = u ∨ (u' = w.attr i m ∧ pyEq u u' = true)) ∧ w'.getattr env i n = G u' := by
  obtain ⟨g, hgf, hrun⟩ := plain_set_run (v := u) hfuel hp
  have h1 := pipeline_setter hl hf hc (steps := [(m, a)]) hs (d + 1) v
  have h2 : assignAttr env S (d + 1) i m u w = setAttr env i m u w := by
    obtain ⟨g', hg', hl', -, hc'⟩ := hp
    simp only [assignAttr, Py.bind_run, Py.get_run, hl', hg', hc', if_false]
  have h3 : assignAttr env S (d + 2) i n v w = setAttr env i m u w := by
    rw [h1]
    simp only [assignSteps, Py.bind_run, readW, hv, h2]
    rw [hrun]; rfl
  rw [h3, hrun]
  have hcls : (w.upd i (fun o => opObj (w.cdef env i) g o (.set m u))).cdef env i = w.cdef env i := by
    refine cdef_upd ?_
    simp only [opObj]
    split
    · rfl
    · simp only [setVal, trackObj]; split <;> rfl
  refine ⟨_, (w.upd i (fun o => opObj (w.cdef env i) g o (.set m u))).attr i m, rfl, ?_, ?_⟩
  · simp only [World.attr, upd_heap_self, opObj]
    split
    · rename_i he; exact .inr ⟨rfl, he⟩
    · left; simp [setVal]
  · simp only [World.getattr, hcls, hf, hc, if_true, hg]
    rfl

/-! ### Input does not reach setters -/

/-- The pipeline of a field has no modifiers for collections or objects. -/
def Field.Simple (f : Field) : Prop := ∀ m ∈ f.chain, m = .eager ∨ m = .pre ∨ ∃ l, m = .leaf l

/-- running one computation after the other changes nothing if neither does -/
theorem still_bind {α β : Type} {m : Py World α} {k : α → Py World β} {w : World} (h1 : ∀ w, (m w).2 = w) (h2 : ∀ a w, (k a w).2 = w) :
    ((m >>= k) w).2 = w := by
  rw [Py.bind_run]
  have h1 := h1 w
  cases hm : m w with
  | mk r w₁ =>
    rw [hm] at h1
    cases h1
    cases r with
    | error e => rfl
    | ok a => exact h2 a _

theorem still_reduceM {f : Ops World → Val → Py World Val} : ∀ (ms : List (Ops World)), (∀ m ∈ ms, ∀ v w, (f m v w).2 = w) →
    ∀ v w, (reduceM f ms v w).2 = w
  | [], _, _, _ => rfl
  | m :: ms, h, v, w => still_bind (h m (by simp) v) (fun a w => still_reduceM ms (fun m' h' => h m' (by simp [h'])) a w)

theorem simple_transform {f : Field} (hs : f.Simple) (vis : Visitor) (c : Ctx) (w : World) : ((f.ops env vis).transform c w).2 = w := by
  have key : ∀ m ∈ denL env vis f.chain, ∀ c w, (m.transform c w).2 = w ∧ (m.validate c w).2 = w := by
    intro m hm
    rw [denL_map] at hm
    obtain ⟨m', h', rfl⟩ := List.mem_map.1 hm
    rcases hs m' h' with rfl | rfl | ⟨l, rfl⟩ <;> intro c w <;> simp only [Mod.den] <;> exact ⟨rfl, rfl⟩
  show (chainTransform _ c w).2 = w
  unfold chainTransform
  refine still_bind (still_reduceM _ (fun m hm v w => ?_) _) (still_reduceM _ (fun m hm v w => (key m (nvs_sub hm) _ w).1))
  have hk := key m (tvs_sub hm)
  unfold vt
  exact still_bind (fun w => (hk _ w).1) (fun a w => still_bind (fun w => (hk _ w).2) (fun _ _ => rfl))

/-- **C77**. `set` and constructors do not call setters: a value given for a calculated field goes
through the field's pipeline and is dropped. -/
theorem input_drops_calculated {f : Field} (hc : f.store = .calculated) (hr : f.isRef = false) (hs : f.Simple) (vis : Visitor) (c : Ctx) (dest : Nat)
    (soft : Bool) (kvs : List (String × Val)) (w : World) : (transformField env (Field.ops env vis) c dest soft kvs f w).2 = w := by
  unfold transformField
  split
  · unfold presentField
    refine still_bind (fun _ => rfl) (fun cur w => ?_)
    split
    · refine still_bind (fun _ => rfl) (fun w' w => still_bind (fun _ => rfl) (fun ek w => still_bind (fun w => simple_transform hs vis _ w) (fun t w => ?_)))
      simp [hc, pyWhen]
    · simp only [hc, ne_eq, not_true_eq_false, decide_false, Bool.and_false, Bool.false_eq_true, if_false]
      rfl
  · unfold absentField
    simp only [hr, Bool.false_eq_true, if_false, hc, ne_eq, not_true_eq_false, decide_false, Bool.and_false]
    rfl

/-- **C77**. Hence an input that is accepted has the effect it would have if the class had no such
calculated fields. -/
theorem input_without_calculated {fs : List Field} (hs : ∀ f ∈ fs, f.store = .calculated → f.isRef = false ∧ f.Simple) (vis : Visitor) (c : Ctx)
    (dest : Nat) (soft : Bool) (kvs : List (String × Val)) : ∀ {w w' : World},
    transformFields env (Field.ops env vis) c dest soft kvs fs w = (.ok (), w') →
    transformFields env (Field.ops env vis) c dest soft kvs (fs.filter (fun f => f.store ≠ .calculated)) w = (.ok (), w') := by
  induction fs with
  | nil => exact id
  | cons f fs ih =>
    intro w w' h
    unfold transformFields at h
    obtain ⟨a, w₁, h1, h2⟩ := bind_ok h
    have ih := ih (fun g hg => hs g (by simp [hg])) h2
    by_cases hc : f.store = .calculated
    · have := input_drops_calculated (env := env) hc (hs f (by simp) hc).1 (hs f (by simp) hc).2 vis c dest soft kvs w
      rw [h1] at this
      cases this
      rw [List.filter_cons_of_neg (by simp [hc])]
      exact ih
    · rw [List.filter_cons_of_pos (by simp [hc])]
      unfold transformFields
      rw [Py.bind_run, h1]
      exact ih

end JC

namespace JC.CalcDemo

open JC
open JC.Demo (fId attrsOf)

def twice : Val → Val
  | .int k => .int (k + k)
  | v => v
def half : Val → Val
  | .int k => .int (k / 2)
  | v => v

/-- After tests/classes/calc_user.py: `score` is twice `base`; `first` has no setter; `both` sets
`score` and `name` with a callable. -/
def fName : Field := { name := "name", jsonName := "name" }
def fBase : Field := { name := "base", jsonName := "base" }
def fScore : Field := { name := "score", jsonName := "score", store := .calculated, getter := fun h i => .ok (twice ((h i).attrs "base")) }
def fFirst : Field := { name := "first", jsonName := "first", store := .calculated, getter := fun h i => .ok ((h i).attrs "name") }
def fBoth : Field := { name := "both", jsonName := "both", store := .calculated, getter := fun h i => .ok ((h i).attrs "name") }
def user : ClassDef := { name := "User", primary := some "id", fields := [fId, fName, fBase, fScore, fFirst, fBoth] }
def env : Env where
  cls := fun _ => user
  pystr := fun _ => ""

/-- `types.this.assign('base', types.passin.half)` -/
def halfLeaf : Leaf := { transform := fun _ c => .ok (half c.val) }
def setScore : FieldSetter := .types [.mod (.leaf thisLeaf), .assign "base" (.types [.leaf passinLeaf, .leaf halfLeaf])]
/-- `def set_both(v, u): u.score = v; u.name = 'x'` -/
def setBoth : FieldSetter := .fn (fun i v _ => .act i (.set "score" v) (fun _ => .act i (.set "name" (.str "x")) (fun _ => .done)))
def S : Setters := fun _ n => if n = "score" then some setScore else if n = "both" then some setBoth else none

def world : World where
  heap := fun i => match i with
    | 0 => { cls := "User", isNew := false, graph := 0, attrs := attrsOf [("id", .str "a"), ("name", .str "Ann"), ("base", .int 1)] }
    | _ => { cls := "User" }
  next := 1

/-- `u.both = 10` -/
def w₁ : World := (assignAttr env S 5 0 "both" (.int 10) world).2

/-- The nested setters have run: the stored attributes have changed, and they are reported. -/
theorem both_set : assignAttr env S 5 0 "both" (.int 10) world = (.ok (), w₁) ∧ w₁.attr 0 "base" = .int 5 ∧ w₁.attr 0 "name" = .str "x" ∧
    (w₁.heap 0).modFields = ["base", "name"] ∧ w₁.getattr env 0 "score" = .ok (.int 10) := ⟨rfl, rfl, rfl, by decide +kernel, rfl⟩

theorem plainBase : PlainField user "base" := ⟨fBase, rfl, rfl, rfl, by decide +kernel⟩

theorem setters_only {P : ClassDef → FOp → Prop} (hset : ∀ cd n v, P cd (.set n v)) (K : Nat → String) : S.Only env P K := by
  intro c n g hg i v h _
  unfold S at hg
  split at hg
  · cases hg
  · split at hg
    · cases hg
      exact .act (hset _ _ _) (fun _ => .act (hset _ _ _) (fun _ => .done))
    · cases hg

/-- The hypotheses of the theorems are met. -/
example : OrdinarySteps env FOp.Reports world w₁ := assign_is_ordinary (fun _ _ _ => trivial) (setters_only (fun _ _ _ => trivial) _) both_set.1

example : NamesFields env w₁ := setter_names_fields (S := S) (setters_only (fun _ _ _ => trivial) _) (fun j n hn => by
  have : (world.heap j).modFields = [] := by
    simp only [world]
    split <;> rfl
  rw [this] at hn
  cases hn) 5 0 "both" (.int 10)

/-- `u.score = 10; u.score` gives 10. -/
example : ∃ w' u', assignAttr env S 2 0 "score" (.int 10) world = (.ok (), w') ∧ (u' = .int 5 ∨ (u' = world.attr 0 "base" ∧ pyEq (.int 5) u' = true)) ∧
    w'.getattr env 0 "score" = .ok (twice u') :=
  get_after_set (f := fScore) (m := "base") (a := .types [.leaf passinLeaf, .leaf halfLeaf]) (G := fun v => .ok (twice v)) (w := world) (env := env)
    (by decide +kernel) rfl rfl rfl rfl plainBase (fun _ => rfl) rfl 0

/-- A step behind a preserialize mark is not taken: the name stays. -/
example : (assignAttr env (fun _ _ => some (.types [.mod (.leaf thisLeaf), .assign "base" (.const (.int 7)), .mod .pre, .assign "name" (.const (.str "x"))]))
    5 0 "score" (.int 10) world).2.attr 0 "name" = .str "Ann" := by
  rw [pipeline_setter_marked (env := env) (f := fScore) (steps := [("base", .const (.int 7))]) (late := [("name", .const (.str "x"))]) rfl rfl rfl rfl]
  rfl

/-- `u.first = 'x'` raises. -/
example : assignAttr env S 5 0 "first" (.str "x") world = (.error (.other 0), world) :=
  readonly_calculated S (f := fFirst) rfl rfl rfl rfl 4 _

theorem names : SeparateNames env := by
  have mem : ∀ c, ∀ f ∈ (env.cls c).fields, f = fId ∨ f = fName ∨ f = fBase ∨ f = fScore ∨ f = fFirst ∨ f = fBoth := by
    intro c f hf
    simpa [env, user] using hf
  have hk : ∀ c, ∀ f ∈ (env.cls c).fields, f.store ≠ .localKey := by
    intro c f hf
    rcases mem c f hf with rfl | rfl | rfl | rfl | rfl | rfl <;> decide
  intro c
  refine ⟨fun f hf g hg a ha hb => ?_, fun d f hf g hg hs => absurd hs (hk c f hf)⟩
  rcases ha with rfl | ⟨h, -⟩
  · rcases hb with h | ⟨h, -⟩
    · rcases mem c f hf with rfl | rfl | rfl | rfl | rfl | rfl <;> rcases mem c g hg with rfl | rfl | rfl | rfl | rfl | rfl <;>
        first
        | rfl
        | (exfalso; revert h; decide)
    · exact absurd h (hk c g hg)
  · exact absurd h (hk c f hf)

/-- `u.update(both=10)` changes `base`, which is reported. -/
example : "base" ∈ ((updateAttrs env S 5 0 [("both", .int 10)] world).2.heap 0).modFields ∨
    ClearedFrom env ((updateAttrs env S 5 0 [("both", .int 10)] world).2.heap 0) "base" :=
  setter_changes_reported names (S := S) (f := fBase) (w := world) (d := 5) (i := 0) (kvs := [("both", .int 10)]) (a := "base")
    (w' := (updateAttrs env S 5 0 [("both", .int 10)] world).2) (setters_only (fun _ _ _ => trivial) _) rfl rfl (by simp [env, user]) (.inl rfl)
    (by
      have h1 : ((updateAttrs env S 5 0 [("both", .int 10)] world).2.heap 0).attrs "base" = .int 5 := rfl
      intro h
      exact absurd (show Val.int 5 = Val.int 1 from h1.symm.trans h) (by simp))

/-- The calculated fields of the class are simple. -/
example : ∀ f ∈ user.fields, f.store = .calculated → f.isRef = false ∧ f.Simple := by
  intro f hf hc
  simp only [user, List.mem_cons, List.not_mem_nil, or_false] at hf
  rcases hf with rfl | rfl | rfl | rfl | rfl | rfl
  · cases hc
  · cases hc
  · cases hc
  all_goals exact ⟨rfl, fun m hm => by cases hm⟩

/-- **C77**, `set` and `update` differ: `u.set(score=10)` is accepted and changes nothing, while
`u.update(score=10)` calls the setter. -/
theorem set_drops_update_sets : (apiSet env 3 0 [("score", .int 10)] world).1 = .ok () ∧
    ((apiSet env 3 0 [("score", .int 10)] world).2.attr 0 "base") = .int 1 ∧
    ((updateAttrs env S 5 0 [("score", .int 10)] world).2.attr 0 "base") = .int 5 := ⟨rfl, rfl, rfl⟩

/-- **C77**: `u.update(base=7, first='x')` raises because `first` cannot be set, after `base` has been
changed. -/
theorem update_readonly_midway : (updateAttrs env S 5 0 [("base", .int 7), ("first", .str "x")] world).1 = .error (.other 0) ∧
    (updateAttrs env S 5 0 [("base", .int 7), ("first", .str "x")] world).2.attr 0 "base" = .int 7 := ⟨rfl, rfl⟩

end JC.CalcDemo
