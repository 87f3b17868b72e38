import Verif.Model.Save
import Verif.Props.Chain

/-
C42 (guards fail closed), C43 (order of the steps of save), C44 (unlinked objects).
-/
namespace JC
variable {se : SaveEnv}

/-! ### Specification -/

/-- the operator a guard sees, and what it is to accept: a callable returns None or True; a
`Types` guard transforms the object without raising and then validates. -/
def Accepts1 (se : SaveEnv) (i : Nat) (op : Val) (g : Guard) (w w' : World) : Prop :=
  match g with
  | .fn f => f i op w = (.ok .none, w') ∨ f i op w = (.ok (.bool true), w')
  | .types chain =>
    let ops := chainOps (setParent se.env) (denL se.env (instOps se.env se.depth) chain)
    let c := rootCtx w i {} (.obj i)
    ∃ t w₁ w₂, ops.transform c { w with marks := [] } = (.ok t, w₁) ∧
      ops.validate (c.nval t) w₁ = (.ok (), w₂) ∧ w' = { w₂ with marks := w.marks }

/-- every guard accepts, one after the other -/
inductive AllAccept (se : SaveEnv) (i : Nat) (op : Val) : List Guard → World → World → Prop
  | nil (w : World) : AllAccept se i op [] w w
  | cons {g gs w w₁ w₂} (h : Accepts1 se i op g w w₁) (hs : AllAccept se i op gs w₁ w₂) : AllAccept se i op (g :: gs) w w₂

/-- the guards let the action pass, leading from `w` to `w'` -/
def Permitted (se : SaveEnv) (i : Nat) (gs : List Guard) (w w' : World) : Prop :=
  (gs = [] ∧ w' = w) ∨ ((w.heap i).operator ≠ .none ∧ AllAccept se i (w.heap i).operator gs w w')

/-- only guards ran -/
def OnlyGuards (i : Nat) (l : List SEv) : Prop := ∀ e ∈ l, e = .guard i

/-! ### Guards -/

theorem runGuard_ok_iff (i : Nat) (op : Val) (g : Guard) (w w' : World) :
    runGuard se i op g w = (.ok (), w') ↔ Accepts1 se i op g w w' := by
  cases g with
  | fn f =>
    unfold runGuard Accepts1
    simp only []
    rcases h : f i op w with ⟨r | v, w₁⟩
    · rw [Py.bind_err h]; simp
    · rw [Py.bind_ok h]
      cases v with
      | bool b => cases b <;> simp
      | _ => simp
  | types chain =>
    unfold runGuard Accepts1 withFreshMarks
    simp only []
    generalize chainOps (setParent se.env) (denL se.env (instOps se.env se.depth) chain) = ops
    generalize rootCtx w i {} (.obj i) = c
    rcases h : ops.transform c { w with marks := [] } with ⟨r | t, w₁⟩
    · rw [Py.bind_err h]; simp
    · rw [Py.bind_ok h]
      simp only [Py.catchV]
      rcases h2 : ops.validate (c.nval t) w₁ with ⟨e | u, w₂⟩
      · cases e <;> simp [h2]
      · constructor
        · intro h'
          cases h'
          exact ⟨t, w₁, w₂, rfl, h2, rfl⟩
        · rintro ⟨t', w₁', w₂', h3, h4, rfl⟩
          cases h3
          rw [h2] at h4
          cases h4
          rfl

theorem runGuards_log (i : Nat) (op : Val) (gs : List Guard) : ∀ s : SState,
    ∃ l, ((runGuards se i op gs) s).2.log = s.log ++ l ∧ OnlyGuards i l := by
  induction gs with
  | nil => intro s; exact ⟨[], by simp [runGuards], by simp [OnlyGuards]⟩
  | cons g gs ih =>
    intro s
    have h1 : logS (fun _ => SEv.guard i) s = (.ok (), { s with log := s.log ++ [.guard i] }) := rfl
    rw [runGuards, Py.bind_ok h1]
    rcases h2 : runGuard se i op g s.w with ⟨e | u, w'⟩
    · have h3 : liftS (runGuard se i op g) { s with log := s.log ++ [.guard i] } = (.error e, ⟨w', s.log ++ [.guard i]⟩) := by
        simp [liftS, h2]
      rw [Py.bind_err h3]
      exact ⟨_, rfl, by simp [OnlyGuards]⟩
    · have h3 : liftS (runGuard se i op g) { s with log := s.log ++ [.guard i] } = (.ok u, ⟨w', s.log ++ [.guard i]⟩) := by
        simp [liftS, h2]
      rw [Py.bind_ok h3]
      obtain ⟨l, hl, hg⟩ := ih ⟨w', s.log ++ [.guard i]⟩
      refine ⟨.guard i :: l, by rw [hl]; simp, ?_⟩
      intro e he
      rcases List.mem_cons.1 he with h | h
      · exact h
      · exact hg e h

theorem runGuards_ok_iff (i : Nat) (op : Val) (gs : List Guard) : ∀ (s s' : SState),
    (runGuards se i op gs) s = (.ok (), s') →  AllAccept se i op gs s.w s'.w := by
  induction gs with
  | nil => intro s s' h; cases h; exact .nil _
  | cons g gs ih =>
    intro s s' h
    have h1 : logS (fun _ => SEv.guard i) s = (.ok (), { s with log := s.log ++ [.guard i] }) := rfl
    rw [runGuards, Py.bind_ok h1] at h
    rcases h2 : runGuard se i op g s.w with ⟨e | u, w'⟩
    · have h3 : liftS (runGuard se i op g) { s with log := s.log ++ [.guard i] } = (.error e, ⟨w', s.log ++ [.guard i]⟩) := by
        simp [liftS, h2]
      rw [Py.bind_err h3] at h
      cases h
    · have h3 : liftS (runGuard se i op g) { s with log := s.log ++ [.guard i] } = (.ok u, ⟨w', s.log ++ [.guard i]⟩) := by
        simp [liftS, h2]
      rw [Py.bind_ok h3] at h
      exact .cons ((runGuard_ok_iff i op g s.w w').1 h2) (ih _ _ h)

theorem runGuards_of_accept (i : Nat) (op : Val) (gs : List Guard) : ∀ (s : SState) (w' : World),
    AllAccept se i op gs s.w w' → ∃ l, (runGuards se i op gs) s = (.ok (), ⟨w', l⟩) := by
  induction gs with
  | nil => intro s w' h; cases h; exact ⟨_, rfl⟩
  | cons g gs ih =>
    intro s w' h
    cases h with
    | @cons _ _ _ w₁ _ h hs =>
      have h1 : logS (fun _ => SEv.guard i) s = (.ok (), { s with log := s.log ++ [.guard i] }) := rfl
      rw [runGuards, Py.bind_ok h1]
      have h2 := (runGuard_ok_iff i op g s.w w₁).2 h
      have h3 : liftS (runGuard se i op g) { s with log := s.log ++ [.guard i] } = (.ok (), ⟨w₁, s.log ++ [.guard i]⟩) := by
        simp [liftS, h2]
      rw [Py.bind_ok h3]
      exact ih ⟨w₁, _⟩ w' hs

/-- The check succeeds exactly when the guards permit. -/
theorem guardCheck_ok_iff (i : Nat) (gs : List Guard) (s : SState) (w' : World) :
    (∃ l, guardCheck se i gs s = (.ok (), ⟨w', l⟩)) ↔ Permitted se i gs s.w w' := by
  unfold guardCheck
  by_cases hg : gs = []
  · subst hg
    simp only [List.length_nil, if_true]
    constructor
    · rintro ⟨l, h⟩; cases h; exact .inl ⟨rfl, rfl⟩
    · rintro (⟨_, h⟩ | ⟨_, h⟩)
      · exact ⟨s.log, by rw [h]⟩
      · cases h; exact ⟨s.log, rfl⟩
  · have hl : ¬ gs.length = 0 := fun h => hg (List.length_eq_zero_iff.1 h)
    rw [if_neg hl]
    by_cases ho : (s.w.heap i).operator = .none
    · rw [if_pos (by rw [Val.isNone_iff]; exact ho)]
      constructor
      · rintro ⟨l, h⟩; cases h
      · rintro (⟨h, _⟩ | ⟨h, _⟩)
        · exact absurd h hg
        · exact absurd ho h
    · rw [if_neg (by rw [Val.isNone_iff]; exact ho)]
      constructor
      · rintro ⟨l, h⟩; exact .inr ⟨ho, runGuards_ok_iff i _ gs _ _ h⟩
      · rintro (⟨h, _⟩ | ⟨_, h⟩)
        · exact absurd h hg
        · exact runGuards_of_accept i _ gs s w' h

theorem guardCheck_log (i : Nat) (gs : List Guard) (s : SState) :
    ∃ l, (guardCheck se i gs s).2.log = s.log ++ l ∧ OnlyGuards i l := by
  unfold guardCheck
  by_cases hg : gs.length = 0
  · rw [if_pos hg]; exact ⟨[], by simp, by simp [OnlyGuards]⟩
  · rw [if_neg hg]
    by_cases ho : (s.w.heap i).operator.isNone = true
    · rw [if_pos ho]; exact ⟨[], by simp, by simp [OnlyGuards]⟩
    · rw [if_neg ho]; exact runGuards_log i _ gs s

/-- Without an operator, an action with guards is refused as unauthorized. -/
theorem guard_no_operator (i : Nat) {gs : List Guard} (hg : gs ≠ []) {s : SState} (ho : (s.w.heap i).operator = .none) :
    guardCheck se i gs s = (.error .unauthorized, s) := by
  unfold guardCheck
  rw [if_neg (fun h => hg (List.length_eq_zero_iff.1 h)), if_pos (by rw [Val.isNone_iff]; exact ho)]

/-- A callable guard that answers anything but None or True: unauthorized. -/
theorem guard_fn_refuses {i : Nat} {op : Val} {f : Nat → Val → Py World Val} {w w' : World} {v : Val}
    (h : f i op w = (.ok v, w')) (hn : v ≠ .none) (ht : v ≠ .bool true) :
    runGuard se i op (.fn f) w = (.error .unauthorized, w') := by
  unfold runGuard
  simp only []
  rw [Py.bind_ok h]
  cases v with
  | none => exact absurd rfl hn
  | bool b => cases b with
    | true => exact absurd rfl ht
    | false => rfl
  | _ => rfl

/-- A `Types` guard whose validation fails: unauthorized. -/
theorem guard_types_refuses {i : Nat} {op : Val} {chain : List Mod} {w w₁ w₂ : World} {t : Val} {msgs : List (String × String)}
    (h1 : (chainOps (setParent se.env) (denL se.env (instOps se.env se.depth) chain)).transform (rootCtx w i {} (.obj i)) { w with marks := [] } = (.ok t, w₁))
    (h2 : (chainOps (setParent se.env) (denL se.env (instOps se.env se.depth) chain)).validate ((rootCtx w i {} (.obj i)).nval t) w₁ = (.error (.validation msgs), w₂)) :
    ∃ w', runGuard se i op (.types chain) w = (.error .unauthorized, w') := by
  unfold runGuard withFreshMarks
  simp only []
  rw [Py.bind_ok h1]
  simp only [Py.catchV, h2]
  exact ⟨_, rfl⟩

/-- **Finding**: a `Types` guard whose transformation raises (an eager part rejecting the
object) lets that exception through; it is not turned into an unauthorized error. -/
theorem guard_types_transform_escapes {i : Nat} {op : Val} {chain : List Mod} {w w₁ : World} {e : Exc}
    (h1 : (chainOps (setParent se.env) (denL se.env (instOps se.env se.depth) chain)).transform (rootCtx w i {} (.obj i)) { w with marks := [] } = (.error e, w₁)) :
    ∃ w', runGuard se i op (.types chain) w = (.error e, w') := by
  unfold runGuard withFreshMarks
  simp only []
  rw [Py.bind_err h1]
  exact ⟨_, rfl⟩

/-- **Finding**, witnessed: `can_delete=types.validate(lambda v: False).eager` refuses with a
ValidationException. -/
theorem guard_eager_not_unauthorized : ∃ (g : Guard) (w : World) (msgs : List (String × String)),
    (runGuard { env := {} } 0 (.int 1) g w).1 = .error (.validation msgs) :=
  ⟨.types [.leaf { validate := fun _ c => .error (c.vexc "no") }, .eager], {}, [("", "no")], rfl⟩

/-! ### C42 -/

/-- **C42** for save: unless the guards for creating or updating permit it, save raises and
nothing but guards has run: no callback, no validation, no set-on-save, no write. -/
theorem save_fails_closed (all skip : Bool) (n : Nat) (i : Nat) (s : SState)
    (h : ¬ ∃ w', Permitted se i (if (s.w.heap i).isNew then (hooksOf se s.w i).canCreate else (hooksOf se s.w i).canUpdate) s.w w') :
    ∃ e l, (saveObj se all skip (n + 1) i s).1 = .error e ∧
      (saveObj se all skip (n + 1) i s).2.log = s.log ++ l ∧ OnlyGuards i l := by
  generalize hgs : (if (s.w.heap i).isNew then (hooksOf se s.w i).canCreate else (hooksOf se s.w i).canUpdate) = gs at h
  have hc : saveGuard se i s = guardCheck se i gs s := by unfold saveGuard; rw [hgs]
  obtain ⟨l, hl, hg⟩ := guardCheck_log (se := se) i gs s
  rcases hr : guardCheck se i gs s with ⟨e | u, s'⟩
  · rw [hr] at hl hc
    rw [saveObj, Py.bind_err hc]
    exact ⟨e, l, rfl, hl, hg⟩
  · exact absurd ⟨s'.w, (guardCheck_ok_iff i gs s s'.w).1 ⟨s'.log, hr⟩⟩ h

/-- **C42** for delete. -/
theorem delete_fails_closed (i : Nat) (s : SState)
    (h : ¬ ∃ w', Permitted se i (hooksOf se s.w i).canDelete s.w w') :
    ∃ e l, (deleteObj se i s).1 = .error e ∧ (deleteObj se i s).2.log = s.log ++ l ∧ OnlyGuards i l := by
  obtain ⟨l, hl, hg⟩ := guardCheck_log (se := se) i (hooksOf se s.w i).canDelete s
  rcases hr : guardCheck se i (hooksOf se s.w i).canDelete s with ⟨e | u, s'⟩
  · rw [hr] at hl
    rw [deleteObj, Py.bind_err (m := deleteGuard se i) hr]
    exact ⟨e, l, rfl, hl, hg⟩
  · exact absurd ⟨s'.w, (guardCheck_ok_iff i _ s s'.w).1 ⟨s'.log, hr⟩⟩ h

/-- **C42** for tojson: no data comes out. -/
theorem tojson_fails_closed (i : Nat) (iw rr : Bool) (on : Option Bool) (s : SState)
    (h : ¬ ∃ w', Permitted se i (hooksOf se s.w i).canRead s.w w') :
    ∃ e, (tojsonObj se i iw rr on s).1 = .error e := by
  rcases hr : guardCheck se i (hooksOf se s.w i).canRead s with ⟨e | u, s'⟩
  · rw [tojsonObj, Py.bind_err (m := readGuard se i) hr]
    exact ⟨e, rfl⟩
  · exact absurd ⟨s'.w, (guardCheck_ok_iff i _ s s'.w).1 ⟨s'.log, hr⟩⟩ h

/-- A permitted tojson is the plain one, run on the state the guards left. -/
theorem tojson_permitted (i : Nat) (iw rr : Bool) (on : Option Bool) (s : SState) {w' : World}
    (h : Permitted se i (hooksOf se s.w i).canRead s.w w') :
    (tojsonObj se i iw rr on s).1 = (apiTojson se.env se.depth i iw rr on w').1 := by
  obtain ⟨l, hl⟩ := (guardCheck_ok_iff i _ s w').2 h
  rw [tojsonObj, Py.bind_ok (m := readGuard se i) hl]
  rfl


/-! ### The steps of save -/

/-- In a log, every write is directly preceded by the successful validation of the same
object and its set-on-save, each step starting in the state the former left. -/
def WritesValidated (se : SaveEnv) (all : Bool) (l : List SEv) : Prop :=
  ∀ pre post j w, l = pre ++ .written j w :: post →
    ∃ pre' w₁ w₂, pre = pre' ++ [.validated j w₁, .serialized j w] ∧
      apiValidate se.env se.depth j (some all) w₁ = (.ok (), w₂) ∧ setOnSave se j w₂ = (.ok (), w)

/-- Steps of one call of save on `i` before its unlinked objects are looked at: guards,
then callbacks, then validation, set-on-save and write, cut off anywhere. -/
def SaveSteps (i : Nat) (skip : Bool) (l : List SEv) : Prop :=
  ∃ gs cs tl w₁ w₂ w₃, l = gs ++ cs ++ tl ∧ OnlyGuards i gs ∧ (∀ e ∈ cs, e = .callback i) ∧
    tl <+: (if skip then [] else [.validated i w₁]) ++ [.serialized i w₂, .written i w₃]

theorem WritesValidated.nil {all : Bool} : WritesValidated se all [] := by
  intro pre post j w h
  cases pre <;> cases h

theorem WritesValidated.append {all : Bool} {a b : List SEv} (ha : WritesValidated se all a) (hb : WritesValidated se all b) :
    WritesValidated se all (a ++ b) := by
  intro pre post j w h
  rcases List.append_eq_append_iff.1 h with ⟨c, rfl, h2⟩ | ⟨c, h1, h2⟩
  · obtain ⟨pre', w₁, w₂, hp, h3, h4⟩ := hb c post j w h2
    exact ⟨a ++ pre', w₁, w₂, by rw [hp]; simp, h3, h4⟩
  · cases c with
    | nil =>
      simp only [List.nil_append] at h2
      obtain ⟨pre', w₁, w₂, hp, _⟩ := hb [] post j w h2.symm
      cases pre' <;> cases hp
    | cons x c =>
      simp only [List.cons_append, List.cons.injEq] at h2
      obtain ⟨rfl, _⟩ := h2
      exact ha pre c j w h1

/-- a log without writes -/
theorem WritesValidated.of_none {all : Bool} {l : List SEv} (h : ∀ j w, SEv.written j w ∉ l) : WritesValidated se all l := by
  intro pre post j w hl
  exact absurd (by rw [hl]; simp) (h j w)

theorem runCallbacks_log (i : Nat) (fs : List (Nat → Val → Py World Unit)) : ∀ s : SState,
    ∃ l, ((runCallbacks i fs) s).2.log = s.log ++ l ∧ ∀ e ∈ l, e = .callback i := by
  induction fs with
  | nil => intro s; exact ⟨[], by simp [runCallbacks], by simp⟩
  | cons f fs ih =>
    intro s
    have h1 : logS (fun _ => SEv.callback i) s = (.ok (), { s with log := s.log ++ [.callback i] }) := rfl
    rw [runCallbacks, Py.bind_ok h1]
    rcases h2 : f i (s.w.heap i).operator s.w with ⟨e | u, w'⟩
    · have h3 : liftS (fun w => f i (w.heap i).operator w) { s with log := s.log ++ [.callback i] } = (.error e, ⟨w', s.log ++ [.callback i]⟩) := by
        simp [liftS, h2]
      rw [Py.bind_err h3]
      exact ⟨_, rfl, by simp⟩
    · have h3 : liftS (fun w => f i (w.heap i).operator w) { s with log := s.log ++ [.callback i] } = (.ok u, ⟨w', s.log ++ [.callback i]⟩) := by
        simp [liftS, h2]
      rw [Py.bind_ok h3]
      obtain ⟨l, hl, hg⟩ := ih ⟨w', s.log ++ [.callback i]⟩
      refine ⟨.callback i :: l, by rw [hl]; simp, ?_⟩
      intro e he
      rcases List.mem_cons.1 he with h | h
      · exact h
      · exact hg e h

/-- save, before the unlinked objects -/
def saveSelf (se : SaveEnv) (all skip : Bool) (i : Nat) : Py SState Unit := do
  saveGuard se i
  saveCallbacks se i
  saveValidate se all skip i
  liftS (setOnSave se i)
  logS (.serialized i)
  logS (.written i)
  liftS (se.write i)

theorem saveObj_split (all skip : Bool) (n i : Nat) :
    saveObj se all skip (n + 1) i = saveSelf se all skip i >>= fun _ s =>
      saveUnlinked se (saveObj se all skip n) i (s.w.heap i).unlinked.length se.loops 0 s := by
  simp only [saveObj, saveSelf, bind_assoc]

/-- What one call does for its own object. -/
theorem saveSelf_log (all skip : Bool) (i : Nat) (s : SState) :
    ∃ l, (saveSelf se all skip i s).2.log = s.log ++ l ∧ SaveSteps i skip l ∧
      (skip = false → WritesValidated se all l) ∧
      ((saveSelf se all skip i s).1 = .ok () → ∃ w, .written i w ∈ l) := by
  obtain ⟨l₁, hl₁, hg₁⟩ : ∃ l, (saveGuard se i s).2.log = s.log ++ l ∧ OnlyGuards i l := guardCheck_log i _ s
  rcases h1 : saveGuard se i s with ⟨e | u, s₁⟩ <;> rw [h1] at hl₁
  · rw [saveSelf, Py.bind_err h1]
    refine ⟨l₁, hl₁, ⟨l₁, [], [], s.w, s.w, s.w, by simp, hg₁, by simp, by simp⟩, ?_, (by intro h; cases h)⟩
    intro _
    apply WritesValidated.of_none
    intro j w hm
    cases hg₁ _ hm
  rw [saveSelf, Py.bind_ok h1]
  obtain ⟨l₂, hl₂, hg₂⟩ : ∃ l, (saveCallbacks se i s₁).2.log = s₁.log ++ l ∧ ∀ e ∈ l, e = .callback i := runCallbacks_log i _ s₁
  have hnone : ∀ j w, SEv.written j w ∉ l₁ ++ l₂ := by
    intro j w hm
    rcases List.mem_append.1 hm with hm | hm
    · cases hg₁ _ hm
    · cases hg₂ _ hm
  rcases h2 : saveCallbacks se i s₁ with ⟨e | u, s₂⟩ <;> rw [h2] at hl₂
  · rw [Py.bind_err h2]
    refine ⟨l₁ ++ l₂, by rw [hl₂, hl₁]; simp, ⟨l₁, l₂, [], s.w, s.w, s.w, by simp, hg₁, hg₂, by simp⟩, ?_, (by intro h; cases h)⟩
    intro _
    exact WritesValidated.of_none hnone
  rw [Py.bind_ok h2]
  have hl₂' : s₂.log = s.log ++ (l₁ ++ l₂) := by
    simp only [] at hl₁ hl₂
    rw [hl₂, hl₁]; simp
  cases skip with
  | true =>
    have h3 : saveValidate se all true i s₂ = (.ok (), s₂) := rfl
    rw [Py.bind_ok h3]
    rcases h4 : setOnSave se i s₂.w with ⟨e | u, w₃⟩
    · have h4' : liftS (setOnSave se i) s₂ = (.error e, ⟨w₃, s₂.log⟩) := by simp [liftS, h4]
      rw [Py.bind_err h4']
      exact ⟨l₁ ++ l₂, hl₂', ⟨l₁, l₂, [], s.w, s.w, s.w, by simp, hg₁, hg₂, by simp⟩, (by intro h; cases h), (by intro h; cases h)⟩
    · have h4' : liftS (setOnSave se i) s₂ = (.ok u, ⟨w₃, s₂.log⟩) := by simp [liftS, h4]
      rw [Py.bind_ok h4']
      have h5 : ∀ (s : SState) (e : World → SEv), logS e s = (.ok (), ⟨s.w, s.log ++ [e s.w]⟩) := fun _ _ => rfl
      rw [Py.bind_ok (h5 _ _), Py.bind_ok (h5 _ _)]
      refine ⟨l₁ ++ l₂ ++ [.serialized i w₃, .written i w₃], ?_, ⟨l₁, l₂, [.serialized i w₃, .written i w₃], s.w, w₃, w₃, by simp, hg₁, hg₂, by simp⟩, (by intro h; cases h), ?_⟩
      · show s₂.log ++ [_] ++ [_] = _
        rw [hl₂']; simp
      · intro _; exact ⟨w₃, by simp⟩
  | false =>
    rcases h3 : apiValidate se.env se.depth i (some all) s₂.w with ⟨e | u, w₂⟩
    · have h3' : saveValidate se all false i s₂ = (.error e, ⟨w₂, s₂.log⟩) := by simp [saveValidate, h3]
      rw [Py.bind_err h3']
      exact ⟨l₁ ++ l₂, hl₂', ⟨l₁, l₂, [], s.w, s.w, s.w, by simp, hg₁, hg₂, by simp⟩, fun _ => WritesValidated.of_none hnone, (by intro h; cases h)⟩
    · have h3' : saveValidate se all false i s₂ = (.ok (), ⟨w₂, s₂.log ++ [.validated i s₂.w]⟩) := by simp [saveValidate, h3]
      rw [Py.bind_ok h3']
      rcases h4 : setOnSave se i w₂ with ⟨e | u', w₃⟩
      · have h4' : liftS (setOnSave se i) ⟨w₂, s₂.log ++ [.validated i s₂.w]⟩ = (.error e, ⟨w₃, s₂.log ++ [.validated i s₂.w]⟩) := by simp [liftS, h4]
        rw [Py.bind_err h4']
        refine ⟨l₁ ++ l₂ ++ [.validated i s₂.w], ?_, ⟨l₁, l₂, [.validated i s₂.w], s₂.w, s.w, s.w, by simp, hg₁, hg₂, by simp⟩, ?_, (by intro h; cases h)⟩
        · show s₂.log ++ [_] = _
          rw [hl₂']; simp
        · intro _
          apply WritesValidated.of_none
          intro j w hm
          rcases List.mem_append.1 hm with hm | hm
          · exact hnone j w hm
          · simp at hm
      · have h4' : liftS (setOnSave se i) ⟨w₂, s₂.log ++ [.validated i s₂.w]⟩ = (.ok u', ⟨w₃, s₂.log ++ [.validated i s₂.w]⟩) := by simp [liftS, h4]
        rw [Py.bind_ok h4']
        have h5 : ∀ (s : SState) (e : World → SEv), logS e s = (.ok (), ⟨s.w, s.log ++ [e s.w]⟩) := fun _ _ => rfl
        rw [Py.bind_ok (h5 _ _), Py.bind_ok (h5 _ _)]
        refine ⟨l₁ ++ l₂ ++ [.validated i s₂.w, .serialized i w₃, .written i w₃], ?_,
          ⟨l₁, l₂, [.validated i s₂.w, .serialized i w₃, .written i w₃], s₂.w, w₃, w₃, by simp, hg₁, hg₂, by simp⟩, ?_, ?_⟩
        · show s₂.log ++ [_] ++ [_] ++ [_] = _
          rw [hl₂']; simp
        · intro _
          refine (WritesValidated.of_none hnone).append ?_
          intro pre post j w h
          match pre, h with
          | [], h => simp at h
          | [_], h => simp at h
          | [a, b], h =>
            simp only [List.cons_append, List.nil_append, List.cons.injEq, SEv.written.injEq] at h
            obtain ⟨rfl, rfl, ⟨rfl, rfl⟩, _⟩ := h
            exact ⟨[], s₂.w, w₂, rfl, h3, h4⟩
          | a :: b :: c :: pre, h =>
            simp only [List.cons_append, List.cons.injEq] at h
            have := h.2.2.2
            cases pre <;> cases this
        · intro _; exact ⟨w₃, by simp⟩

/-- a property of logs kept by the loops over unlinked objects -/
theorem saveItems_log {P : List SEv → Prop} (hnil : P []) (happ : ∀ a b, P a → P b → P (a ++ b))
    {save : Nat → Py SState Unit} (hs : ∀ j s, ∃ l, (save j s).2.log = s.log ++ l ∧ P l) (i : Nat) (key : String) :
    ∀ fuel p s, ∃ l, (saveItems save i key fuel p s).2.log = s.log ++ l ∧ P l := by
  intro fuel
  induction fuel with
  | zero => intro p s; exact ⟨[], by simp [saveItems], hnil⟩
  | succ fuel ih =>
    intro p s
    simp only [saveItems]
    rcases hx : ((dictGet (s.w.heap i).unlinked key).getD [])[p]? with _ | v
    · simp only []; exact ⟨[], by simp, hnil⟩
    · cases v with
      | obj j =>
        simp only [Py.andThen]
        have hlog : (dropUnlinked i key (.obj j) s).log = s.log := rfl
        generalize dropUnlinked i key (.obj j) s = s₀ at *
        obtain ⟨l, hl, hp⟩ := hs j s₀
        rcases h : save j s₀ with ⟨e | u, s₁⟩ <;> rw [h] at hl
        · exact ⟨l, by rw [← hlog]; exact hl, hp⟩
        · obtain ⟨l', hl', hp'⟩ := ih (p + 1) s₁
          refine ⟨l ++ l', ?_, happ _ _ hp hp'⟩
          simp only [] at hl ⊢
          rw [hl', hl, hlog]; simp
      | _ => simp only []; exact ⟨[], by simp [dropUnlinked], hnil⟩

theorem saveUnlinked_log {P : List SEv → Prop} (hnil : P []) (happ : ∀ a b, P a → P b → P (a ++ b))
    {save : Nat → Py SState Unit} (hs : ∀ j s, ∃ l, (save j s).2.log = s.log ++ l ∧ P l) (i size : Nat) :
    ∀ fuel p s, ∃ l, (saveUnlinked se save i size fuel p s).2.log = s.log ++ l ∧ P l := by
  intro fuel
  induction fuel with
  | zero => intro p s; exact ⟨[], by simp [saveUnlinked], hnil⟩
  | succ fuel ih =>
    intro p s
    rw [saveUnlinked]
    dsimp only
    by_cases hsz : (s.w.heap i).unlinked.length ≠ size
    · rw [if_pos hsz]; exact ⟨[], by simp, hnil⟩
    · rw [if_neg hsz]
      cases ((s.w.heap i).unlinked)[p]? with
      | none => exact ⟨[], by simp, hnil⟩
      | some kx =>
        obtain ⟨key, xs⟩ := kx
        simp only [Py.andThen]
        obtain ⟨l, hl, hp⟩ := saveItems_log hnil happ hs i key se.loops 0 s
        rcases h : saveItems save i key se.loops 0 s with ⟨e | u, s₁⟩ <;> rw [h] at hl
        · exact ⟨l, hl, hp⟩
        · obtain ⟨l', hl', hp'⟩ := ih (p + 1) s₁
          refine ⟨l ++ l', ?_, happ _ _ hp hp'⟩
          simp only [] at hl ⊢
          rw [hl', hl]; simp

/-- **C43**: whatever save does, also when it fails or saves further unlinked objects, each
write it makes is directly preceded by a successful validation of the same object and
its set-on-save, unless validation is skipped. -/
theorem save_writes_validated (all : Bool) (n : Nat) : ∀ (i : Nat) (s : SState),
    ∃ l, (saveObj se all false n i s).2.log = s.log ++ l ∧ WritesValidated se all l := by
  induction n with
  | zero => intro i s; exact ⟨[], by simp [saveObj], .nil⟩
  | succ n ih =>
    intro i s
    rw [saveObj_split]
    obtain ⟨l, hl, _, hw, _⟩ := saveSelf_log (se := se) all false i s
    rcases h : saveSelf se all false i s with ⟨e | u, s₁⟩ <;> rw [h] at hl
    · rw [Py.bind_err h]; exact ⟨l, hl, hw rfl⟩
    · rw [Py.bind_ok h]
      obtain ⟨l', hl', hw'⟩ := saveUnlinked_log (se := se) (P := WritesValidated se all) .nil (fun _ _ => .append) ih i
        (s₁.w.heap i).unlinked.length se.loops 0 s₁
      refine ⟨l ++ l', ?_, (hw rfl).append hw'⟩
      simp only [] at hl
      rw [hl', hl]; simp

/-- **C43**, order: a call of save on `i` first runs guards, then callbacks, validation,
set-on-save and the write, stopping anywhere on failure; only if all of these succeeded
does it go on to the unlinked objects. -/
theorem save_order (all skip : Bool) (n i : Nat) (s : SState) :
    ∃ l l', (saveObj se all skip (n + 1) i s).2.log = s.log ++ l ++ l' ∧ SaveSteps i skip l ∧
      (l' ≠ [] → ∃ w, .written i w ∈ l) ∧
      ((saveObj se all skip (n + 1) i s).1 = .ok () → ∃ w, .written i w ∈ l) := by
  rw [saveObj_split]
  obtain ⟨l, hl, ho, _, hw⟩ := saveSelf_log (se := se) all skip i s
  rcases h : saveSelf se all skip i s with ⟨e | u, s₁⟩ <;> rw [h] at hl hw
  · rw [Py.bind_err h]
    exact ⟨l, [], by rw [hl]; simp, ho, by simp, (by intro h; cases h)⟩
  · rw [Py.bind_ok h]
    have hsave : ∀ n j s, ∃ l, (saveObj se all skip n j s).2.log = s.log ++ l ∧ True := by
      intro n
      induction n with
      | zero => intro j s; exact ⟨[], by simp [saveObj], trivial⟩
      | succ n ih =>
        intro j s
        rw [saveObj_split]
        obtain ⟨l, hl, _⟩ := saveSelf_log (se := se) all skip j s
        rcases h : saveSelf se all skip j s with ⟨e | u, s₁⟩ <;> rw [h] at hl
        · rw [Py.bind_err h]; exact ⟨l, hl, trivial⟩
        · rw [Py.bind_ok h]
          obtain ⟨l', hl', _⟩ := saveUnlinked_log (se := se) (P := fun _ => True) trivial (fun _ _ _ _ => trivial) ih j
            (s₁.w.heap j).unlinked.length se.loops 0 s₁
          refine ⟨l ++ l', ?_, trivial⟩
          simp only [] at hl
          rw [hl', hl]; simp
    obtain ⟨l', hl', _⟩ := saveUnlinked_log (se := se) (P := fun _ => True) trivial (fun _ _ _ _ => trivial) (hsave n) i
      (s₁.w.heap i).unlinked.length se.loops 0 s₁
    simp only [] at hl
    exact ⟨l, l', by rw [hl', hl], ho, fun _ => hw rfl, fun _ => hw rfl⟩

/-! ### C44 -/

/-- the first, third, fifth, … element -/
def evens {α : Type} : List α → List α
  | [] => []
  | [x] => [x]
  | x :: _ :: r => x :: evens r
/-- the second, fourth, … element -/
def odds {α : Type} : List α → List α
  | [] => []
  | [_] => []
  | _ :: y :: r => y :: odds r

/-- the objects whose writes are in a log -/
def writtenObjs (l : List SEv) : List Nat := l.filterMap (fun e => match e with
  | .written j _ => some j
  | _ => none)

/-- Saving one of the objects `js` succeeds, writes that object only, and leaves alone
what is unlinked from `i`; `Inv` is an invariant under which this holds. -/
structure QuietSave (i : Nat) (js : List Nat) (Inv : SState → Prop) (save : Nat → Py SState Unit) : Prop where
  drop : ∀ key v s, Inv s → Inv (dropUnlinked i key v s)
  save : ∀ j ∈ js, ∀ s, Inv s → ∃ s' l, save j s = (.ok (), s') ∧ Inv s' ∧
    (s'.w.heap i).unlinked = (s.w.heap i).unlinked ∧ s'.log = s.log ++ l ∧ writtenObjs l = [j]

@[simp] theorem writtenObjs_append (a b : List SEv) : writtenObjs (a ++ b) = writtenObjs a ++ writtenObjs b := List.filterMap_append

theorem listRemove_obj (ds r : List Nat) (x : Nat) (h : x ∉ ds) :
    listRemove (.obj x) ((ds ++ x :: r).map Val.obj) = some ((ds ++ r).map Val.obj) := by
  induction ds with
  | nil => simp [listRemove, pyEq]
  | cons d ds ih =>
    simp only [List.mem_cons, not_or] at h
    have hd : ¬ d = x := fun e => h.1 e.symm
    simp only [List.cons_append, List.map_cons, listRemove, pyEq, beq_iff_eq, hd, if_false]
    rw [ih h.2]; rfl

theorem dictSet_twice {α : Type} (k : String) (a b : α) (d : List (String × α)) : dictSet k b (dictSet k a d) = dictSet k b d := by
  induction d with
  | nil => simp [dictSet]
  | cons x d ih =>
    obtain ⟨k', v⟩ := x
    by_cases h : k' = k
    · simp [dictSet, h]
    · simp [dictSet, h, ih]

theorem dictSet_self {α : Type} (k : String) (a : α) (d : List (String × α)) (h : dictGet d k = some a) : dictSet k a d = d := by
  induction d with
  | nil => simp [dictGet] at h
  | cons x d ih =>
    obtain ⟨k', v⟩ := x
    by_cases hk : k' = k
    · subst hk
      simp [dictGet] at h
      simp [dictSet, h]
    · have : dictGet d k = some a := by simpa [dictGet, hk] using h
      simp [dictSet, hk, ih this]

/-- The loop over one list saves every second object and keeps the others in the list. -/
theorem saveItems_evens {i : Nat} {all : List Nat} {Inv : SState → Prop} {save : Nat → Py SState Unit}
    (hq : QuietSave i all Inv save) (key : String) : ∀ (fuel : Nat) (js ds : List Nat) (s : SState),
    js.length < fuel → (∀ j ∈ js, j ∈ all) → (ds ++ js).Nodup → Inv s →
    dictGet (s.w.heap i).unlinked key = some ((ds ++ js).map Val.obj) →
    ∃ s' l, saveItems save i key fuel ds.length s = (.ok (), s') ∧ Inv s' ∧
      (s'.w.heap i).unlinked = dictSet key ((ds ++ odds js).map Val.obj) (s.w.heap i).unlinked ∧
      s'.log = s.log ++ l ∧ writtenObjs l = evens js := by
  intro fuel
  induction fuel with
  | zero => intro js ds s hf; omega
  | succ fuel ih =>
    intro js ds s hf ha hn hi hu
    rw [saveItems]
    cases js with
    | nil =>
      have : ((dictGet (s.w.heap i).unlinked key).getD [])[ds.length]? = none := by
        rw [hu]; simp
      simp only [this]
      exact ⟨s, [], rfl, hi, (dictSet_self _ _ _ hu).symm, by simp, rfl⟩
    | cons x r =>
      have hx : ((dictGet (s.w.heap i).unlinked key).getD [])[ds.length]? = some (.obj x) := by
        rw [hu]; simp
      simp only [hx, Py.andThen]
      have hxd : x ∉ ds := by
        intro hm
        have := (List.nodup_append.1 hn).2.2 x hm x (by simp)
        exact this rfl
      have hdrop : ((dropUnlinked i key (.obj x) s).w.heap i).unlinked = dictSet key ((ds ++ r).map Val.obj) (s.w.heap i).unlinked := by
        simp only [dropUnlinked, World.upd, if_true]
        rw [hu, Option.getD_some, listRemove_obj ds r x hxd]; rfl
      have hlog : (dropUnlinked i key (.obj x) s).log = s.log := rfl
      obtain ⟨s₁, l₁, h1, h2, h3, h4, h5⟩ := hq.save x (ha x (by simp)) _ (hq.drop key (.obj x) s hi)
      rw [h1]
      simp only []
      cases r with
      | nil =>
        obtain ⟨fuel', rfl⟩ : ∃ f, fuel = f + 1 := by
          simp at hf
          exact ⟨fuel - 1, by omega⟩
        have hget : dictGet (s₁.w.heap i).unlinked key = some (ds.map Val.obj) := by
          rw [h3, hdrop, dictGet_dictSet]; simp
        rw [saveItems]
        have : ((dictGet (s₁.w.heap i).unlinked key).getD [])[ds.length + 1]? = none := by
          rw [hget]; simp
        simp only [this]
        refine ⟨s₁, l₁, rfl, h2, by rw [h3, hdrop]; rfl, by rw [h4, hlog], by rw [h5]; rfl⟩
      | cons y r =>
        have hget : dictGet (s₁.w.heap i).unlinked key = some (((ds ++ [y]) ++ r).map Val.obj) := by
          rw [h3, hdrop, dictGet_dictSet]; simp
        have hn' : ((ds ++ [y]) ++ r).Nodup := by
          refine List.Nodup.sublist ?_ hn
          rw [List.append_assoc]
          exact List.Sublist.append_left (List.sublist_cons_self x _) ds
        obtain ⟨s', l', g1, g2, g3, g4, g5⟩ := ih r (ds ++ [y]) s₁ (by simp at hf; omega)
          (fun j hj => ha j (by simp [hj])) hn' h2 hget
        rw [List.length_append] at g1
        refine ⟨s', l₁ ++ l', g1, g2, ?_, by rw [g4, h4, hlog]; simp, by rw [writtenObjs_append, h5, g5]; rfl⟩
        rw [g3, h3, hdrop, dictSet_twice]
        simp [odds]

/-- a dict of unlinked objects -/
def unlinkedOf (us : List (String × List Nat)) : List (String × List Val) := us.map (fun u => (u.1, u.2.map Val.obj))

theorem dictGet_mid {α : Type} (a b : List (String × α)) (k : String) (v : α) (h : k ∉ a.map Prod.fst) :
    dictGet (a ++ (k, v) :: b) k = some v := by
  induction a with
  | nil => simp [dictGet]
  | cons x a ih =>
    simp only [List.map_cons, List.mem_cons, not_or] at h
    have hx : ¬ x.1 = k := fun e => h.1 e.symm
    have := ih h.2
    simp only [dictGet] at this ⊢
    rw [List.cons_append, List.find?_cons]
    simpa [hx] using this

theorem dictSet_mid {α : Type} (a b : List (String × α)) (k : String) (v v' : α) (h : k ∉ a.map Prod.fst) :
    dictSet k v' (a ++ (k, v) :: b) = a ++ (k, v') :: b := by
  induction a with
  | nil => simp [dictSet]
  | cons x a ih =>
    simp only [List.map_cons, List.mem_cons, not_or] at h
    have hx : ¬ x.1 = k := fun e => h.1 e.symm
    obtain ⟨k', v''⟩ := x
    simp only [List.cons_append, dictSet]
    rw [if_neg hx, ih h.2]

theorem saveUnlinked_evens_aux {i : Nat} {all : List Nat} {Inv : SState → Prop} {save : Nat → Py SState Unit}
    (hq : QuietSave i all Inv save) : ∀ (fuel : Nat) (us ds : List (String × List Nat)) (s : SState),
    us.length < fuel → (∀ u ∈ us, (∀ j ∈ u.2, j ∈ all) ∧ u.2.Nodup ∧ u.2.length < se.loops) →
    ((ds ++ us).map Prod.fst).Nodup → Inv s →
    (s.w.heap i).unlinked = unlinkedOf (ds ++ us) →
    ∃ s' l, saveUnlinked se save i (ds ++ us).length fuel ds.length s = (.ok (), s') ∧ Inv s' ∧
      (s'.w.heap i).unlinked = unlinkedOf (ds ++ us.map (fun u => (u.1, odds u.2))) ∧
      s'.log = s.log ++ l ∧ writtenObjs l = us.flatMap (fun u => evens u.2) := by
  intro fuel
  induction fuel with
  | zero => intro us ds s hf; omega
  | succ fuel ih =>
    intro us ds s hf ha hn hi hu
    rw [saveUnlinked]
    dsimp only
    rw [if_neg (by rw [hu]; simp [unlinkedOf])]
    cases us with
    | nil =>
      have : ((s.w.heap i).unlinked)[ds.length]? = none := by rw [hu]; simp [unlinkedOf]
      simp only [this]
      exact ⟨s, [], rfl, hi, by rw [hu]; simp, by simp, rfl⟩
    | cons x us =>
      obtain ⟨k, js⟩ := x
      have hx : ((s.w.heap i).unlinked)[ds.length]? = some (k, js.map Val.obj) := by rw [hu]; simp [unlinkedOf]
      simp only [hx, Py.andThen]
      obtain ⟨hj1, hj2, hj3⟩ := ha (k, js) (by simp)
      have hk : k ∉ (unlinkedOf ds).map Prod.fst := by
        have : (unlinkedOf ds).map Prod.fst = ds.map Prod.fst := by simp [unlinkedOf]
        rw [this]
        intro hm
        rw [List.map_append, List.nodup_append] at hn
        exact hn.2.2 k hm k (by simp) rfl
      have hu' : (s.w.heap i).unlinked = unlinkedOf ds ++ (k, js.map Val.obj) :: unlinkedOf us := by
        rw [hu]; simp [unlinkedOf]
      have hget : dictGet (s.w.heap i).unlinked k = some (([] ++ js).map Val.obj) := by
        rw [hu', dictGet_mid _ _ _ _ hk]; simp
      obtain ⟨s₁, l₁, h1, h2, h3, h4, h5⟩ := saveItems_evens hq k se.loops js [] s hj3 hj1 (by simpa using hj2) hi hget
      simp only [List.length_nil] at h1
      rw [h1]
      simp only []
      have hu₁ : (s₁.w.heap i).unlinked = unlinkedOf ((ds ++ [(k, odds js)]) ++ us) := by
        rw [h3, hu', dictSet_mid _ _ _ _ _ hk]; simp [unlinkedOf]
      obtain ⟨s', l', g1, g2, g3, g4, g5⟩ := ih us (ds ++ [(k, odds js)]) s₁ (by simp at hf; omega)
        (fun u hu => ha u (by simp [hu])) (by simpa using hn) h2 hu₁
      refine ⟨s', l₁ ++ l', ?_, g2, by rw [g3]; simp, by rw [g4, h4]; simp, by rw [writtenObjs_append, h5, g5]; simp⟩
      rw [← g1]
      simp

/-- **C44**, what actually happens: of the objects unlinked from each field, save writes the
first, third, fifth, … and leaves the others in the list, unsaved. -/
theorem save_unlinked_evens {i n : Nat} {all skip : Bool} {us : List (String × List Nat)} {js : List Nat} {Inv : SState → Prop}
    {s s₁ : SState} (hq : QuietSave i js Inv (saveObj se all skip n))
    (hself : saveSelf se all skip i s = (.ok (), s₁)) (hi : Inv s₁)
    (hu : (s₁.w.heap i).unlinked = unlinkedOf us) (hk : (us.map Prod.fst).Nodup) (hl : us.length < se.loops)
    (hus : ∀ u ∈ us, (∀ j ∈ u.2, j ∈ js) ∧ u.2.Nodup ∧ u.2.length < se.loops) :
    ∃ s' l, saveObj se all skip (n + 1) i s = (.ok (), s') ∧ s'.log = s₁.log ++ l ∧
      writtenObjs l = us.flatMap (fun u => evens u.2) ∧
      (s'.w.heap i).unlinked = unlinkedOf (us.map (fun u => (u.1, odds u.2))) := by
  obtain ⟨s', l, h1, _, h3, h4, h5⟩ := saveUnlinked_evens_aux (se := se) hq se.loops us [] s₁ hl hus (by simpa using hk) hi (by simpa using hu)
  refine ⟨s', l, ?_, h4, h5, by simpa using h3⟩
  rw [saveObj_split, Py.bind_ok hself]
  have : (s₁.w.heap i).unlinked.length = us.length := by rw [hu]; simp [unlinkedOf]
  rw [this]
  simpa using h1

theorem evens_short {α : Type} {xs : List α} (h : xs.length ≤ 1) : evens xs = xs := by
  match xs, h with
  | [], _ => rfl
  | [_], _ => rfl

/-- **C44**, the part that holds: when no field has more than one unlinked object, all of
them are written. Missing: fields with two or more. -/
theorem save_saves_unlinked_partial {i n : Nat} {all skip : Bool} {us : List (String × List Nat)} {js : List Nat} {Inv : SState → Prop}
    {s s₁ : SState} (hq : QuietSave i js Inv (saveObj se all skip n))
    (hself : saveSelf se all skip i s = (.ok (), s₁)) (hi : Inv s₁)
    (hu : (s₁.w.heap i).unlinked = unlinkedOf us) (hk : (us.map Prod.fst).Nodup) (hl : us.length < se.loops) (hl2 : 1 < se.loops)
    (hus : ∀ u ∈ us, (∀ j ∈ u.2, j ∈ js) ∧ u.2.length ≤ 1) :
    ∃ s' l, saveObj se all skip (n + 1) i s = (.ok (), s') ∧ s'.log = s₁.log ++ l ∧
      ∀ u ∈ us, ∀ j ∈ u.2, j ∈ writtenObjs l := by
  have hus' : ∀ u ∈ us, (∀ j ∈ u.2, j ∈ js) ∧ u.2.Nodup ∧ u.2.length < se.loops := by
    intro u hu
    obtain ⟨h1, h2⟩ := hus u hu
    refine ⟨h1, ?_, by omega⟩
    match h : u.2, h2 with
    | [], _ => simp
    | [_], _ => simp
  obtain ⟨s', l, h1, h2, h3, _⟩ := save_unlinked_evens hq hself hi hu hk hl hus'
  refine ⟨s', l, h1, h2, ?_⟩
  intro u hu j hj
  rw [h3, List.mem_flatMap]
  exact ⟨u, hu, by rw [evens_short (hus u hu).2]; exact hj⟩

/-! ### Witnesses -/

/-- object 0 with objects 1, 2, 3 unlinked from its field `posts` -/
def saveDemo : SState := { w := { heap := fun i => if i = 0 then
  { isNew := false, unlinked := [("posts", [.obj 1, .obj 2, .obj 3])] } else {}, next := 4 } }

/-- the invariant of the demonstration: nothing is unlinked from other objects, classes
have neither fields nor hooks -/
def DemoInv (s : SState) : Prop := ∀ j, j ≠ 0 → (s.w.heap j).unlinked = []

/-- the environment of the demonstration -/
def demoSE : SaveEnv := { env := {}, loops := 9, depth := 1 }

theorem demo_saveSelf (j : Nat) (s : SState) : ∃ s' l, saveSelf demoSE false false j s = (.ok (), s') ∧
    s'.w.heap = s.w.heap ∧ s'.log = s.log ++ l ∧ writtenObjs l = [j] := by
  have h1 : saveGuard demoSE j s = (.ok (), s) := by
    unfold saveGuard; cases (s.w.heap j).isNew <;> rfl
  have h2 : saveCallbacks demoSE j s = (.ok (), s) := by
    unfold saveCallbacks; cases (s.w.heap j).isNew <;> rfl
  obtain ⟨w₁, h3, h3'⟩ : ∃ w₁, apiValidate {} 1 j (some false) s.w = (.ok (), w₁) ∧ w₁.heap = s.w.heap := by
    refine ⟨{ s.w with visits := s.w.visits ++ [j] }, ?_, rfl⟩
    simp [apiValidate, withFreshMarks, instOps, instValidate, rootCtx, World.markGet, World.id, World.cdef, mLookup, World.markPut, World.visit, instValidateBody, Py.bind_run, validateFields, raiseMsgs]
  have h3s : saveValidate demoSE false false j s = (.ok (), ⟨w₁, s.log ++ [.validated j s.w]⟩) := by
    unfold saveValidate
    show (if false = true then _ else match apiValidate {} 1 j (some false) s.w with
      | (.ok _, w') => _
      | (.error e, w') => _) = _
    rw [h3]; rfl
  obtain ⟨w₂, h4, h4'⟩ : ∃ w₂, setOnSave demoSE j w₁ = (.ok (), w₂) ∧ w₂.heap = w₁.heap := by
    refine ⟨w₁, ?_, rfl⟩
    rfl
  have h4s : liftS (setOnSave demoSE j) ⟨w₁, s.log ++ [.validated j s.w]⟩ = (.ok (), ⟨w₂, s.log ++ [.validated j s.w]⟩) := by
    simp only [liftS, h4]
  refine ⟨⟨w₂, s.log ++ [.validated j s.w, .serialized j w₂, .written j w₂]⟩, [.validated j s.w, .serialized j w₂, .written j w₂], ?_, by rw [← h3', ← h4'], rfl, rfl⟩
  rw [saveSelf, Py.bind_ok h1, Py.bind_ok h2, Py.bind_ok h3s, Py.bind_ok h4s]
  have : s.log ++ [SEv.validated j s.w, .serialized j w₂, .written j w₂] = s.log ++ [SEv.validated j s.w] ++ [.serialized j w₂] ++ [.written j w₂] := by simp
  rw [this]
  rfl

theorem demo_quiet : QuietSave 0 [1, 2, 3] DemoInv (saveObj demoSE false false 2) where
  drop := by
    intro key v s h j hj
    simp only [dropUnlinked, World.upd, if_neg hj]
    exact h j hj
  save := by
    intro j hj s h
    have hj0 : j ≠ 0 := by simp at hj; omega
    obtain ⟨s', l, h1, h2, h3, h4⟩ := demo_saveSelf j s
    refine ⟨s', l, ?_, ?_, by rw [h2], h3, h4⟩
    · rw [saveObj_split, Py.bind_ok h1]
      have hu : (s'.w.heap j).unlinked = [] := by rw [h2]; exact h j hj0
      show saveUnlinked demoSE _ j _ 9 0 s' = _
      rw [saveUnlinked]
      dsimp only
      rw [if_neg (by simp), hu]
      rfl
    · intro k hk
      rw [h2]; exact h k hk

/-- **C44** is violated: saving object 0 succeeds, writes 0, 1 and 3; object 2 is not saved
and stays in the list. -/
theorem save_misses_unlinked : ∃ s', saveObj demoSE false false 3 0 saveDemo = (.ok (), s') ∧
    writtenObjs s'.log = [0, 1, 3] ∧ (s'.w.heap 0).unlinked = [("posts", [.obj 2])] := by
  obtain ⟨s₁, l, h1, h2, h3, h4⟩ := demo_saveSelf 0 saveDemo
  have hi : DemoInv s₁ := by
    intro j hj
    rw [h2]; simp [saveDemo, hj]
  obtain ⟨s', l', g1, g2, g3, g4⟩ := save_unlinked_evens (us := [("posts", [1, 2, 3])]) demo_quiet h1 hi (by rw [h2]; rfl) (by simp) (by decide) (by simp [demoSE])
  refine ⟨s', g1, ?_, g4⟩
  rw [g2, h3, writtenObjs_append, writtenObjs_append, h4, g3]
  rfl

/-- A guarded class: updates need an operator equal to 7. -/
def guardSE : SaveEnv := { env := {}, hooks := fun _ => { canUpdate := [.fn (fun _ op w => (.ok (.bool (pyEq op (.int 7))), w))] } }

example : (saveObj guardSE false false 3 0 saveDemo).1 = .error .unauthorized := rfl
example : Permitted guardSE 0 (guardSE.hooks "").canUpdate
    { heap := fun _ => { operator := .int 7 } } { heap := fun _ => { operator := .int 7 } } :=
  .inr ⟨by simp, .cons (.inr rfl) (.nil _)⟩

end JC
