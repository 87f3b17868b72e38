import Verif.Props.Save

/-
C71: the callbacks of save and delete.
-/
namespace JC
variable {se : SaveEnv}

/-! ### Specification -/

/-- Every callback is called once, in order, with the object and the operator it has at the time,
and none of them raises; the objects go from `w` to `w'`. -/
inductive RunsAll (i : Nat) : List (Nat → Val → Py World Unit) → World → World → Prop
  | nil (w : World) : RunsAll i [] w w
  | cons {f fs w w₁ w₂} (h : f i (w.heap i).operator w = (.ok (), w₁)) (hs : RunsAll i fs w₁ w₂) : RunsAll i (f :: fs) w w₂

/-- What a class declares for saving an object in this state. -/
def SaveGuards (se : SaveEnv) (w : World) (i : Nat) : List Guard :=
  match (w.heap i).isNew with
  | true => (se.hooks (w.heap i).cls).canCreate
  | false => (se.hooks (w.heap i).cls).canUpdate
def SaveHooks (se : SaveEnv) (w : World) (i : Nat) : List (Nat → Val → Py World Unit) :=
  match (w.heap i).isNew with
  | true => (se.hooks (w.heap i).cls).onCreate
  | false => (se.hooks (w.heap i).cls).onUpdate

/-! ### Proof -/

theorem saveGuards_eq (w : World) (i : Nat) :
    (if (w.heap i).isNew then (hooksOf se w i).canCreate else (hooksOf se w i).canUpdate) = SaveGuards se w i := by
  unfold SaveGuards hooksOf; cases (w.heap i).isNew <;> rfl

theorem saveHooks_eq (w : World) (i : Nat) :
    (if (w.heap i).isNew then (hooksOf se w i).onCreate else (hooksOf se w i).onUpdate) = SaveHooks se w i := by
  unfold SaveHooks hooksOf; cases (w.heap i).isNew <;> rfl

/-- callbacks: all of them ran, or the last one that ran raised -/
theorem runCallbacks_spec (i : Nat) (fs : List (Nat → Val → Py World Unit)) : ∀ s : SState,
    (∀ s', runCallbacks i fs s = (.ok (), s') ↔ RunsAll i fs s.w s'.w ∧ s'.log = s.log ++ List.replicate fs.length (.callback i)) := by
  induction fs with
  | nil =>
    rintro ⟨w, l⟩ ⟨w', l'⟩
    constructor
    · intro h; cases h; exact ⟨.nil _, by simp⟩
    · rintro ⟨h, hl⟩
      cases h
      simp only [List.length_nil, List.replicate_zero, List.append_nil] at hl
      subst hl; rfl
  | cons f fs ih =>
    intro s s'
    have h1 : logS (fun _ => SEv.callback i) s = (.ok (), { s with log := s.log ++ [.callback i] }) := rfl
    rw [runCallbacks, Py.bind_ok h1]
    rcases h2 : f i (s.w.heap i).operator s.w with ⟨e | u, w'⟩
    · have h3 : liftS (fun w => f i (w.heap i).operator w) { s with log := s.log ++ [.callback i] } = (.error e, ⟨w', s.log ++ [.callback i]⟩) := by
        simp [liftS, h2]
      rw [Py.bind_err h3]
      constructor
      · intro h; cases h
      · rintro ⟨h, -⟩
        cases h with
        | cons h' _ => rw [h2] at h'; cases h'
    · have h3 : liftS (fun w => f i (w.heap i).operator w) { s with log := s.log ++ [.callback i] } = (.ok u, ⟨w', s.log ++ [.callback i]⟩) := by
        simp [liftS, h2]
      rw [Py.bind_ok h3, ih]
      have hrep : s.log ++ [SEv.callback i] ++ List.replicate fs.length (.callback i) = s.log ++ List.replicate (f :: fs).length (.callback i) := by
        rw [List.length_cons, List.replicate_succ]; simp
      simp only [hrep]
      constructor
      · rintro ⟨h4, h5⟩; exact ⟨.cons h2 h4, h5⟩
      · rintro ⟨h4, h5⟩
        cases h4 with
        | cons h' hs =>
          rw [h2] at h'
          cases h'
          exact ⟨hs, h5⟩

/-- **C71**, delete. When delete reaches the storage, the guards permitted it and then every
`on_delete` callback was called, once, in the declared order; the storage finds the objects as
the callbacks left them. Nothing else is logged: guards, callbacks, deletion. -/
theorem delete_hooks (i : Nat) (s : SState) :
    ∃ l, (deleteObj se i s).2.log = s.log ++ l ∧
      ((deleteObj se i s).1 = .ok () → ∃ w, .deleted i w ∈ l) ∧
      ∀ w, .deleted i w ∈ l → ∃ w₁ gs, Permitted se i (se.hooks (s.w.heap i).cls).canDelete s.w w₁ ∧
        RunsAll i (se.hooks (w₁.heap i).cls).onDelete w₁ w ∧ OnlyGuards i gs ∧
        l = gs ++ List.replicate (se.hooks (w₁.heap i).cls).onDelete.length (.callback i) ++ [.deleted i w] := by
  obtain ⟨l₁, hl₁, hg₁⟩ := guardCheck_log (se := se) i (hooksOf se s.w i).canDelete s
  have hgd : deleteGuard se i s = guardCheck se i (hooksOf se s.w i).canDelete s := rfl
  rcases h1 : guardCheck se i (hooksOf se s.w i).canDelete s with ⟨e | u, s₁⟩ <;> rw [h1] at hl₁
  · rw [deleteObj, Py.bind_err (m := deleteGuard se i) h1]
    exact ⟨l₁, hl₁, (fun h => by cases h), fun w hm => by cases hg₁ _ hm⟩
  have hp : Permitted se i (hooksOf se s.w i).canDelete s.w s₁.w := (guardCheck_ok_iff i _ s s₁.w).1 ⟨s₁.log, h1⟩
  rw [deleteObj, Py.bind_ok (m := deleteGuard se i) h1]
  obtain ⟨l₂, hl₂, hg₂⟩ : ∃ l, (deleteCallbacks se i s₁).2.log = s₁.log ++ l ∧ ∀ e ∈ l, e = .callback i := runCallbacks_log i _ s₁
  have hspec := runCallbacks_spec i (hooksOf se s₁.w i).onDelete s₁
  rcases h2 : deleteCallbacks se i s₁ with ⟨e | u, s₂⟩ <;> rw [h2] at hl₂
  · rw [Py.bind_err h2]
    refine ⟨l₁ ++ l₂, ?_, (fun h => by cases h), fun w hm => ?_⟩
    · simp only [] at hl₁ hl₂
      rw [hl₂, hl₁, List.append_assoc]
    · rcases List.mem_append.1 hm with hm | hm
      · cases hg₁ _ hm
      · cases hg₂ _ hm
  · obtain ⟨hr, hlog⟩ := (hspec s₂).1 h2
    rw [Py.bind_ok h2]
    have h3 : logS (.deleted i) s₂ = (.ok (), ⟨s₂.w, s₂.log ++ [.deleted i s₂.w]⟩) := rfl
    rw [Py.bind_ok h3]
    refine ⟨l₁ ++ List.replicate (hooksOf se s₁.w i).onDelete.length (.callback i) ++ [.deleted i s₂.w], ?_, fun _ => ⟨s₂.w, by simp⟩, fun w hm => ?_⟩
    · simp only [] at hl₁
      have : (liftS (se.ormDelete i) ⟨s₂.w, s₂.log ++ [.deleted i s₂.w]⟩).2.log = s₂.log ++ [.deleted i s₂.w] := rfl
      rw [this, hlog, hl₁]; simp
    · have : w = s₂.w := by
        rcases List.mem_append.1 hm with hm | hm
        · rcases List.mem_append.1 hm with hm | hm
          · cases hg₁ _ hm
          · cases (List.mem_replicate.1 hm).2
        · simpa using hm
      subst this
      exact ⟨s₁.w, l₁, hp, hr, hg₁, rfl⟩

/-- **C71**, save. When save reaches the storage, the guards permitted it, then every callback was
called, once, in the declared order: those of `on_create` for a new object, those of
`on_update` for another. Then the object was validated, unless validation is skipped, and
the setters for saving ran: they see what the callbacks did. Objects unlinked from this
one come afterwards. -/
theorem save_hooks (all skip : Bool) (n i : Nat) (s : SState) :
    ∃ l l', (saveObj se all skip (n + 1) i s).2.log = s.log ++ l ++ l' ∧
      (l' ≠ [] ∨ (saveObj se all skip (n + 1) i s).1 = .ok () → ∃ w, .written i w ∈ l) ∧
      ∀ w, .written i w ∈ l → ∃ w₁ w₂ w₃ gs, Permitted se i (SaveGuards se s.w i) s.w w₁ ∧ RunsAll i (SaveHooks se w₁ i) w₁ w₂ ∧
        (if skip then w₃ = w₂ else apiValidate se.env se.depth i (some all) w₂ = (.ok (), w₃)) ∧ setOnSave se i w₃ = (.ok (), w) ∧
        OnlyGuards i gs ∧ l = gs ++ List.replicate (SaveHooks se w₁ i).length (.callback i) ++
          (if skip then [] else [.validated i w₂]) ++ [.serialized i w, .written i w] := by
  have hself : ∃ l, (saveSelf se all skip i s).2.log = s.log ++ l ∧ ((saveSelf se all skip i s).1 = .ok () → ∃ w, .written i w ∈ l) ∧
      ∀ w, .written i w ∈ l → ∃ w₁ w₂ w₃ gs, Permitted se i (SaveGuards se s.w i) s.w w₁ ∧ RunsAll i (SaveHooks se w₁ i) w₁ w₂ ∧
        (if skip then w₃ = w₂ else apiValidate se.env se.depth i (some all) w₂ = (.ok (), w₃)) ∧ setOnSave se i w₃ = (.ok (), w) ∧
        OnlyGuards i gs ∧ l = gs ++ List.replicate (SaveHooks se w₁ i).length (.callback i) ++
          (if skip then [] else [.validated i w₂]) ++ [.serialized i w, .written i w] := by
    have hsg : saveGuard se i s = guardCheck se i (SaveGuards se s.w i) s := by unfold saveGuard; rw [saveGuards_eq]
    obtain ⟨l₁, hl₁, hg₁⟩ := guardCheck_log (se := se) i (SaveGuards se s.w i) s
    rcases h1 : guardCheck se i (SaveGuards se s.w i) s with ⟨e | u, s₁⟩ <;> rw [h1] at hl₁ hsg
    · rw [saveSelf, Py.bind_err hsg]
      exact ⟨l₁, hl₁, (fun h => by cases h), fun w hm => by cases hg₁ _ hm⟩
    have hp : Permitted se i (SaveGuards se s.w i) s.w s₁.w := (guardCheck_ok_iff i _ s s₁.w).1 ⟨s₁.log, h1⟩
    rw [saveSelf, Py.bind_ok hsg]
    have hsc : saveCallbacks se i s₁ = runCallbacks i (SaveHooks se s₁.w i) s₁ := by unfold saveCallbacks; rw [saveHooks_eq]
    obtain ⟨l₂, hl₂, hg₂⟩ := runCallbacks_log i (SaveHooks se s₁.w i) s₁
    have hspec := runCallbacks_spec i (SaveHooks se s₁.w i) s₁
    rcases h2 : runCallbacks i (SaveHooks se s₁.w i) s₁ with ⟨e | u, s₂⟩ <;> rw [h2] at hl₂ hsc
    · rw [Py.bind_err hsc]
      refine ⟨l₁ ++ l₂, ?_, (fun h => by cases h), fun w hm => ?_⟩
      · simp only [] at hl₁ hl₂
        rw [hl₂, hl₁, List.append_assoc]
      · rcases List.mem_append.1 hm with hm | hm
        · cases hg₁ _ hm
        · cases hg₂ _ hm
    obtain ⟨hr, hlog⟩ := (hspec s₂).1 h2
    rw [Py.bind_ok hsc]
    simp only [] at hl₁
    have hno : ∀ w, SEv.written i w ∉ l₁ ++ List.replicate (SaveHooks se s₁.w i).length (.callback i) := by
      intro w hm
      rcases List.mem_append.1 hm with hm | hm
      · cases hg₁ _ hm
      · cases (List.mem_replicate.1 hm).2
    -- validation
    obtain ⟨r, s₃, hv⟩ : ∃ r s₃, saveValidate se all skip i s₂ = (r, s₃) := ⟨_, _, rfl⟩
    have hval : (r = .ok () → s₃.log = s₂.log ++ (if skip then [] else [.validated i s₂.w]) ∧
        (if skip then s₃.w = s₂.w else apiValidate se.env se.depth i (some all) s₂.w = (.ok (), s₃.w))) ∧
        (∀ e, r = .error e → s₃.log = s₂.log) := by
      unfold saveValidate at hv
      cases skip with
      | true => simp only [if_true] at hv; cases hv; exact ⟨fun _ => ⟨by simp, rfl⟩, fun e h => by cases h⟩
      | false =>
        simp only [Bool.false_eq_true, if_false] at hv ⊢
        rcases h3 : apiValidate se.env se.depth i (some all) s₂.w with ⟨e | u', w'⟩ <;> rw [h3] at hv <;> cases hv
        · exact ⟨fun h => (by cases h), fun _ _ => rfl⟩
        · exact ⟨fun _ => ⟨rfl, rfl⟩, fun e h => (by cases h)⟩
    cases r with
    | error e =>
      rw [Py.bind_err hv]
      refine ⟨_, ?_, (fun h => by cases h), fun w hm => absurd hm (hno w)⟩
      rw [hval.2 e rfl, hlog, hl₁, List.append_assoc]
    | ok u =>
      obtain ⟨hv1, hv2⟩ := hval.1 rfl
      rw [Py.bind_ok hv]
      have hno' : ∀ w, SEv.written i w ∉ l₁ ++ List.replicate (SaveHooks se s₁.w i).length (.callback i) ++
          (if skip then [] else [.validated i s₂.w]) := by
        intro w hm
        rcases List.mem_append.1 hm with hm | hm
        · exact hno w hm
        · cases skip <;> simp at hm
      rcases h4 : setOnSave se i s₃.w with ⟨e | u', w₄⟩
      · have h4' : liftS (setOnSave se i) s₃ = (.error e, ⟨w₄, s₃.log⟩) := by simp [liftS, h4]
        rw [Py.bind_err h4']
        refine ⟨_, ?_, (fun h => by cases h), fun w hm => absurd hm (hno' w)⟩
        simp only []
        rw [hv1, hlog, hl₁]; simp
      · have h4' : liftS (setOnSave se i) s₃ = (.ok u', ⟨w₄, s₃.log⟩) := by simp [liftS, h4]
        rw [Py.bind_ok h4']
        have h5 : ∀ (s : SState) (e : World → SEv), logS e s = (.ok (), ⟨s.w, s.log ++ [e s.w]⟩) := fun _ _ => rfl
        rw [Py.bind_ok (h5 _ _), Py.bind_ok (h5 _ _)]
        refine ⟨l₁ ++ List.replicate (SaveHooks se s₁.w i).length (.callback i) ++ (if skip then [] else [.validated i s₂.w]) ++
          [.serialized i w₄, .written i w₄], ?_, fun _ => ⟨w₄, by simp⟩, fun w hm => ?_⟩
        · show s₃.log ++ [_] ++ [_] = _
          rw [hv1, hlog, hl₁]; simp
        · have : w = w₄ := by
            rcases List.mem_append.1 hm with hm | hm
            · exact absurd hm (hno' w)
            · simpa using hm
          subst this
          exact ⟨s₁.w, s₂.w, s₃.w, l₁, hp, hr, hv2, h4, hg₁, rfl⟩
  obtain ⟨l, hl, hok, hw⟩ := hself
  obtain ⟨a, b, hab, -, h2, h3⟩ := save_order (se := se) all skip n i s
  rw [saveObj_split]
  rcases h : saveSelf se all skip i s with ⟨e | u, s₁⟩ <;> rw [h] at hl hok
  · rw [Py.bind_err h]
    refine ⟨l, [], by rw [hl]; simp, ?_, hw⟩
    rintro (h | h)
    · exact absurd rfl h
    · cases h
  · rw [Py.bind_ok h]
    have hsave : ∀ n j s, ∃ l, (saveObj se all skip n j s).2.log = s.log ++ l ∧ True := by
      intro n j s
      cases n with
      | zero => exact ⟨[], by simp [saveObj], trivial⟩
      | succ n =>
        obtain ⟨a, b, hab, -⟩ := save_order (se := se) all skip n j s
        exact ⟨a ++ b, by rw [hab, List.append_assoc], trivial⟩
    obtain ⟨l', hl', _⟩ := saveUnlinked_log (se := se) (P := fun _ => True) trivial (fun _ _ _ _ => trivial) (hsave n) i
      (s₁.w.heap i).unlinked.length se.loops 0 s₁
    simp only [] at hl
    exact ⟨l, l', by rw [hl', hl], fun _ => hok rfl, hw⟩

/-- **C71**, delete, the other direction: when the guards permit it and no callback raises, the
outcome is that of the storage, on the objects as the callbacks left them. -/
theorem delete_permitted {i : Nat} {s : SState} {w₁ w₂ : World} (hp : Permitted se i (se.hooks (s.w.heap i).cls).canDelete s.w w₁)
    (hr : RunsAll i (se.hooks (w₁.heap i).cls).onDelete w₁ w₂) :
    (deleteObj se i s).1 = (se.ormDelete i w₂).1 ∧ (deleteObj se i s).2.w = (se.ormDelete i w₂).2 := by
  obtain ⟨l, hl⟩ := (guardCheck_ok_iff (se := se) i (hooksOf se s.w i).canDelete s w₁).2 hp
  rw [deleteObj, Py.bind_ok (m := deleteGuard se i) hl]
  have h2 := (runCallbacks_spec i (hooksOf se w₁ i).onDelete ⟨w₁, l⟩ ⟨w₂, l ++ List.replicate (hooksOf se w₁ i).onDelete.length (.callback i)⟩).2 ⟨hr, rfl⟩
  have h3 : deleteCallbacks se i ⟨w₁, l⟩ = _ := h2
  rw [Py.bind_ok h3]
  exact ⟨rfl, rfl⟩

/-! ### The hypotheses can be met -/

/-- appends a letter to the attribute `trace` -/
def traceHook (t : String) : Nat → Val → Py World Unit := fun i _ => Py.modify (fun w =>
  w.upd i (fun o => { o with attrs := fun m => if m = "trace" then .list (.str t :: (match o.attrs "trace" with | .list xs => xs | _ => [])) else o.attrs m }))

/-- two callbacks for each occasion -/
def hookSE : SaveEnv where
  env := {}
  depth := 1
  loops := 9
  hooks := fun _ => { onCreate := [traceHook "c", traceHook "d"], onUpdate := [traceHook "u", traceHook "v"],
                      onDelete := [traceHook "x", traceHook "y"] }

def hookStart (new : Bool) : SState := { w := { heap := fun _ => { isNew := new }, next := 1 } }

/-- what the storage finds in `trace` -/
def traceAt (l : List SEv) : List (List String) := l.filterMap (fun e =>
  let w? := match e with
    | .written _ w => some w
    | .deleted _ w => some w
    | _ => none
  w?.map (fun w => match w.attr 0 "trace" with
    | .list xs => xs.map (fun v => match v with | .str t => t | _ => "")
    | _ => []))

/-- Deleting, saving a new object and saving one that is not new: both callbacks ran before the
storage, the second one after the first. -/
example : traceAt (deleteObj hookSE 0 (hookStart false)).2.log = [["y", "x"]] ∧
    traceAt (saveObj hookSE false false 2 0 (hookStart true)).2.log = [["d", "c"]] ∧
    traceAt (saveObj hookSE false false 2 0 (hookStart false)).2.log = [["v", "u"]] := by
  refine ⟨by decide +kernel, by decide +kernel, by decide +kernel⟩

/-- the hypotheses of `delete_permitted` -/
example : ∃ w₁ w₂, Permitted hookSE 0 (hookSE.hooks ((hookStart false).w.heap 0).cls).canDelete (hookStart false).w w₁ ∧
    RunsAll 0 (hookSE.hooks (w₁.heap 0).cls).onDelete w₁ w₂ :=
  ⟨_, _, .inl ⟨rfl, rfl⟩, .cons rfl (.cons rfl (.nil _))⟩

end JC
