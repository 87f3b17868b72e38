import Verif.Props.ValidateComplete
import Verif.Model.Strings
import Verif.Model.Numbers
import Verif.Model.SubPipe

/-
C73: whether an object is valid does not depend on how many errors are reported.
-/
namespace JC
variable {env : Env}

/-! ### Specification -/

/-- The same context with another `all_fields` setting. -/
def Ctx.mode (c : Ctx) (b : Option Bool) : Ctx := { c with cfg := { c.cfg with allFields := b } }

/-- A check that does not look at the `all_fields` setting, and whose validation errors have a
message. -/
def Leaf.Steady (l : Leaf) : Prop :=
  (∀ h c b, l.validate h (c.mode b) = l.validate h c) ∧ ∀ h c, l.validate h c ≠ .error (.validation [])

/-- A check that raises nothing but validation errors. -/
def Leaf.OnlyValidation (l : Leaf) : Prop := ∀ h c e, l.validate h c = .error e → e.isValidation = true

mutual
/-- All checks are steady, and unions choose between plain types: chains of checks that raise
nothing but validation errors. -/
def Mod.Steady : Mod → Prop
  | .eager => True
  | .pre => True
  | .leaf l => l.Steady
  | .listOf _ _ item => Mod.SteadyL item
  | .dictOf _ item => Mod.SteadyL item
  | .instOf _ _ => True
  | .union alts => ∀ a ∈ alts, ∀ m ∈ a, ∃ l, m = .leaf l ∧ l.Steady ∧ l.OnlyValidation
/-- for a chain -/
def Mod.SteadyL : List Mod → Prop
  | [] => True
  | m :: ms => m.Steady ∧ Mod.SteadyL ms
end

/-- All classes have steady fields, and no getter raises a validation error. -/
structure SteadyEnv (env : Env) : Prop where
  chains : ∀ cls, ∀ f ∈ (env.cls cls).fields, Mod.SteadyL f.chain
  getter : ∀ cls, ∀ f ∈ (env.cls cls).fields, ∀ h i msgs, f.getter h i ≠ .error (.validation msgs)

/-- the fields named in an error -/
def Reported (k : String) (ms : List (String × String)) : Prop := k ∈ ms.map Prod.fst

/-! ### Proof -/

/-- What the error of the short run says about the error of another run. -/
def Covers (e₁ e₂ : Exc) : Prop :=
  (e₁.isValidation = false → e₂ = e₁) ∧
  ∀ ms, e₁ = .validation ms → ms ≠ [] ∧ ∀ ms', e₂ = .validation ms' → ∀ k, Reported k ms → Reported k ms'

/-- Both runs succeed and do the same, or both fail. -/
def Lock (m₁ m₂ : Py World Unit) : Prop := ∀ w,
  (∃ w', m₁ w = (.ok (), w') ∧ m₂ w = (.ok (), w')) ∨
  ∃ e₁ w₁ e₂ w₂, m₁ w = (.error e₁, w₁) ∧ m₂ w = (.error e₂, w₂) ∧ Covers e₁ e₂

theorem Covers.refl {e : Exc} (h : e ≠ .validation []) : Covers e e := by
  refine ⟨fun _ => rfl, fun ms hm => ⟨fun h' => h (by rw [hm, h']), fun ms' hm' k hk => ?_⟩⟩
  rw [hm] at hm'; cases hm'; exact hk

theorem Lock.refl {m : Py World Unit} (h : NE m) : Lock m m := by
  intro w
  have := h w
  rcases hm : m w with ⟨r, w'⟩
  rw [hm] at this
  cases r with
  | ok u => exact .inl ⟨w', rfl, rfl⟩
  | error e => exact .inr ⟨e, w', e, w', rfl, rfl, Covers.refl (fun he => this (by rw [he]))⟩

theorem reported_dictUpdate {k : String} {d e : List (String × String)} : Reported k (dictUpdate d e) ↔ Reported k d ∨ Reported k e := by
  have hn : ∀ l : List (String × String), Reported k l ↔ (dictGet l k).isSome = true := by
    intro l
    unfold Reported dictGet
    rw [Option.isSome_map, List.find?_isSome, List.mem_map]
    simp
  have he : Reported k e ↔ (dictGet e.reverse k).isSome = true := by rw [← hn]; unfold Reported; simp
  rw [hn, hn d, he, dictGet_dictUpdate]
  show (((dictGet e.reverse k)).or (dictGet d k)).isSome = true ↔ _
  cases dictGet e.reverse k <;> cases dictGet d k <;> simp

theorem reported_nil {ms : List (String × String)} (h : ms ≠ []) : ∃ k, Reported k ms := by
  cases ms with
  | nil => exact absurd rfl h
  | cons x xs => exact ⟨x.1, by simp [Reported]⟩

/-- What a run that already has errors ends with. -/
def Fails (K : List (String × String)) (r : Except Exc Unit × World) : Prop :=
  ∃ e w, r = (.error e, w) ∧ ∀ ms, e = .validation ms → ∀ k, Reported k K → Reported k ms

theorem fails_raise {K acc : List (String × String)} (hne : acc ≠ []) (hK : ∀ k, Reported k K → Reported k acc) (w : World) :
    Fails K (raiseMsgs (σ := World) acc w) := by
  cases acc with
  | nil => exact absurd rfl hne
  | cons x xs => exact ⟨_, w, rfl, fun ms hm => by cases hm; exact hK⟩

theorem raise_eq {ms : List (String × String)} (h : ms ≠ []) (w : World) : raiseMsgs (σ := World) ms w = (.error (.validation ms), w) := by
  cases ms with
  | nil => exact absurd rfl h
  | cons x xs => rfl

/-- A loop over checks that collects messages (`all`) or stops at the first error, and raises what
it collected. -/
structure Runs {α : Type} (step : α → Py World Unit) (all : Bool) (R : List α → List (String × String) → Py World Unit) : Prop where
  done : ∀ acc w, R [] acc w = raiseMsgs acc w
  pass : ∀ x xs acc w w', step x w = (.ok (), w') → R (x :: xs) acc w = R xs acc w'
  crash : ∀ x xs acc w e w', step x w = (.error e, w') → e.isValidation = false → R (x :: xs) acc w = (.error e, w')
  note : all = true → ∀ x xs acc w ms w', step x w = (.error (.validation ms), w') → R (x :: xs) acc w = R xs (dictUpdate acc ms) w'
  stop : all = false → ∀ x xs w ms w', step x w = (.error (.validation ms), w') → ms ≠ [] →
    ∃ ms', R (x :: xs) [] w = (.error (.validation ms'), w') ∧ ∀ k, Reported k ms' ↔ Reported k ms

theorem Exc.not_validation {e : Exc} (h : ∀ ms, e ≠ .validation ms) : e.isValidation = false := by
  cases e with
  | validation ms => exact absurd rfl (h ms)
  | _ => rfl

theorem Runs.fails {α : Type} {step : α → Py World Unit} {R : List α → List (String × String) → Py World Unit} (h : Runs step true R)
    {K : List (String × String)} (xs : List α) : ∀ (acc : List (String × String)) (w : World), acc ≠ [] → (∀ k, Reported k K → Reported k acc) →
      Fails K (R xs acc w) := by
  induction xs with
  | nil => intro acc w hne hK; rw [h.done]; exact fails_raise hne hK w
  | cons x xs ih =>
    intro acc w hne hK
    rcases hs : step x w with ⟨r, w'⟩
    cases r with
    | ok u => rw [h.pass x xs acc w w' hs]; exact ih acc w' hne hK
    | error e =>
      by_cases hv : ∃ ms, e = .validation ms
      · obtain ⟨ms, rfl⟩ := hv
        rw [h.note rfl x xs acc w ms w' hs]
        exact ih _ w' (dictUpdate_ne_nil _ _ (.inl hne)) (fun k hk => reported_dictUpdate.2 (.inl (hK k hk)))
      · rw [h.crash x xs acc w e w' hs (Exc.not_validation (fun ms he => hv ⟨ms, he⟩))]
        exact ⟨e, w', rfl, fun ms hms => absurd ⟨ms, hms⟩ hv⟩

/-- a loop that stops at the first error, and another one -/
theorem Runs.lock {α : Type} {step₁ step₂ : α → Py World Unit} {all : Bool} {R₁ R₂ : List α → List (String × String) → Py World Unit}
    (h₁ : Runs step₁ false R₁) (h₂ : Runs step₂ all R₂) (xs : List α) (h : ∀ x ∈ xs, Lock (step₁ x) (step₂ x)) : Lock (R₁ xs []) (R₂ xs []) := by
  induction xs with
  | nil => intro w; rw [h₁.done, h₂.done]; exact .inl ⟨w, rfl, rfl⟩
  | cons x xs ih =>
    intro w
    rcases h x (by simp) w with ⟨w', s1, s2⟩ | ⟨e₁, w₁, e₂, w₂, s1, s2, hc⟩
    · rw [h₁.pass x xs [] w w' s1, h₂.pass x xs [] w w' s2]
      exact ih (fun y hy => h y (by simp [hy])) w'
    · right
      by_cases hv : ∃ ms, e₁ = .validation ms
      · obtain ⟨ms₁, rfl⟩ := hv
        obtain ⟨hne, hk⟩ := hc.2 ms₁ rfl
        obtain ⟨ms₁', r1, hn1⟩ := h₁.stop rfl x xs w ms₁ w₁ s1 hne
        have hne' : ms₁' ≠ [] := by
          obtain ⟨k, hkk⟩ := reported_nil hne
          intro he
          have := (hn1 k).2 hkk
          rw [he] at this; simp [Reported] at this
        have hcov : ∀ r, Fails ms₁ r → ∃ e w', r = (.error e, w') ∧ Covers (.validation ms₁') e := by
          rintro r ⟨e, w', rfl, hf⟩
          refine ⟨e, w', rfl, (fun h => by cases h), fun ms hms => ?_⟩
          cases hms
          exact ⟨hne', fun ms' he k hkk => hf ms' he k ((hn1 k).1 hkk)⟩
        have hfail : Fails ms₁ (R₂ (x :: xs) [] w) := by
          by_cases hv2 : ∃ ms, e₂ = .validation ms
          · obtain ⟨ms₂, rfl⟩ := hv2
            have hsub := hk ms₂ rfl
            have hne2 : ms₂ ≠ [] := by
              obtain ⟨k, hkk⟩ := reported_nil hne
              intro he
              have := hsub k hkk
              rw [he] at this; simp [Reported] at this
            cases all with
            | true =>
              rw [h₂.note rfl x xs [] w ms₂ w₂ s2]
              exact h₂.fails xs _ w₂ (dictUpdate_ne_nil _ _ (.inr hne2)) (fun k hkk => reported_dictUpdate.2 (.inr (hsub k hkk)))
            | false =>
              obtain ⟨ms₂', r2, hn2⟩ := h₂.stop rfl x xs w ms₂ w₂ s2 hne2
              exact ⟨_, w₂, r2, fun ms hms k hkk => by cases hms; exact (hn2 k).2 (hsub k hkk)⟩
          · rw [h₂.crash x xs [] w e₂ w₂ s2 (Exc.not_validation (fun ms he => hv2 ⟨ms, he⟩))]
            exact ⟨e₂, w₂, rfl, fun ms hms => absurd ⟨ms, hms⟩ hv2⟩
        obtain ⟨e, w', hr, hcv⟩ := hcov _ hfail
        exact ⟨_, w₁, e, w', r1, hr, hcv⟩
      · have hnv := Exc.not_validation (fun ms he => hv ⟨ms, he⟩)
        have := hc.1 hnv
        subst this
        exact ⟨e₂, w₁, e₂, w₂, h₁.crash x xs [] w _ w₁ s1 hnv, h₂.crash x xs [] w _ w₂ s2 hnv, fun _ => rfl,
          fun ms hms => absurd ⟨ms, hms⟩ hv⟩

theorem named_first {k : String} {ms : List (String × String)} : Reported k (dictUpdate [] ms) ↔ Reported k ms := by
  rw [reported_dictUpdate]; simp [Reported]

theorem runs_loop {c : Ctx} : Runs (fun m : Ops World => m.validate c) (decide (c.cfg.allFields = some true))
    (fun ops acc => validateLoop c ops acc >>= raiseMsgs) where
  done := fun _ _ => rfl
  pass := fun x xs acc w w' h => by simp only [Py.bind_run, validateLoop, h]
  crash := fun x xs acc w e w' h hv => by
    simp only [Py.bind_run, validateLoop, h]
    cases e <;> first | rfl | cases hv
  note := fun ha x xs acc w ms w' h => by simp only [Py.bind_run, validateLoop, h, of_decide_eq_true ha, if_true]
  stop := fun ha x xs w ms w' h hne => by
    refine ⟨dictUpdate [] ms, ?_, fun k => named_first⟩
    simp only [Py.bind_run, validateLoop, h, of_decide_eq_false ha, if_false]
    exact raise_eq (dictUpdate_ne_nil _ _ (.inr hne)) w'

theorem runs_items {c : Ctx} {item : Ops World} {all : Bool} : Runs (fun e : Key × Val => item.validate (c.colval e.2 e.1)) all
    (fun es acc => colValidateLoop item c all es acc >>= raiseMsgs) where
  done := fun _ _ => rfl
  pass := fun x xs acc w w' h => by simp only [Py.bind_run, colValidateLoop, h]
  crash := fun x xs acc w e w' h hv => by
    simp only [Py.bind_run, colValidateLoop, h]
    cases e <;> first | rfl | cases hv
  note := fun ha x xs acc w ms w' h => by simp only [Py.bind_run, colValidateLoop, h, ha, if_true]
  stop := fun ha x xs w ms w' h hne => ⟨ms, by simp only [Py.bind_run, colValidateLoop, h, ha, Bool.false_eq_true, if_false], fun _ => Iff.rfl⟩

/-- one step of the field loop -/
def fieldStep (env : Env) (ops : Field → Ops World) (c : Ctx) (i : Nat) (only : Option (List String)) (f : Field) : Py World Unit := fun w =>
  match w.getattr env i f.name with
  | .error e => (.error e, w)
  | .ok v => if skipField f only then (.ok (), w) else validateField env ops c i f v w

theorem runs_fields {ops : Field → Ops World} (hp : ∀ w i n msgs, World.getattr env w i n ≠ .error (.validation msgs)) {c : Ctx} {i : Nat}
    {only : Option (List String)} {all : Bool} :
    Runs (fieldStep env ops c i only) all (fun fs acc => validateFields env ops c i only all fs acc >>= raiseMsgs) where
  done := fun _ _ => rfl
  pass := fun x xs acc w w' h => by
    unfold fieldStep at h
    simp only [Py.bind_run, validateFields]
    cases hg : w.getattr env i x.name with
    | error e => rw [hg] at h; cases h
    | ok v =>
      rw [hg] at h
      simp only at h ⊢
      split at h
      · rename_i hs; cases h; rw [if_pos hs]
      · rename_i hs; rw [if_neg hs, h]
  crash := fun x xs acc w e w' h hv => by
    unfold fieldStep at h
    simp only [Py.bind_run, validateFields]
    cases hg : w.getattr env i x.name with
    | error e' => rw [hg] at h; cases h; rfl
    | ok v =>
      rw [hg] at h
      simp only at h ⊢
      split at h
      · cases h
      · rename_i hs
        rw [if_neg hs, h]
        cases e <;> first | rfl | cases hv
  note := fun ha x xs acc w ms w' h => by
    unfold fieldStep at h
    simp only [Py.bind_run, validateFields]
    cases hg : w.getattr env i x.name with
    | error e' => rw [hg] at h; cases h; exact absurd hg (hp w i x.name ms)
    | ok v =>
      rw [hg] at h
      simp only at h ⊢
      split at h
      · cases h
      · rename_i hs
        rw [if_neg hs, h]
        simp only [ha, if_true]
  stop := fun ha x xs w ms w' h hne => by
    refine ⟨ms, ?_, fun _ => Iff.rfl⟩
    unfold fieldStep at h
    simp only [Py.bind_run, validateFields]
    cases hg : w.getattr env i x.name with
    | error e' => rw [hg] at h; cases h; exact absurd hg (hp w i x.name ms)
    | ok v =>
      rw [hg] at h
      simp only at h ⊢
      split at h
      · cases h
      · rename_i hs
        rw [if_neg hs, h]
        simp only [ha, Bool.false_eq_true, if_false]

theorem lock_chain {vis : Visitor} (hn : NoMarks vis) {c : Ctx} {b : Option Bool} {ms : List Mod}
    (h : ∀ m ∈ ms, Lock ((m.den env vis).validate (c.mode (some false))) ((m.den env vis).validate (c.mode b))) :
    Lock (chainValidate (denL env vis ms) (c.mode (some false))) (chainValidate (denL env vis ms) (c.mode b)) := by
  unfold chainValidate
  rw [nvs_denL env vis hn]
  have h1 : Runs (fun m : Ops World => m.validate (c.mode (some false))) false
      (fun ops acc => validateLoop (c.mode (some false)) ops acc >>= raiseMsgs) := runs_loop
  exact h1.lock (runs_loop (c := c.mode b)) _ (fun m hm => by
    obtain ⟨m', hm', rfl⟩ := List.mem_map.1 hm
    exact h m' (mem_nvsM hm'))

theorem lock_col {c : Ctx} {b : Option Bool} {sp : Special} {item : Ops World} {es : List (Key × Val)}
    (h : ∀ e ∈ es, Lock (item.validate ((c.colval e.2 e.1).mode (some false))) (item.validate ((c.colval e.2 e.1).mode b))) :
    Lock (colValidate (colEnv env sp) item (c.mode (some false)) es) (colValidate (colEnv env sp) item (c.mode b) es) := by
  intro w
  unfold colValidate
  rw [Py.bind_run, Py.bind_run]
  simp only [colEnv]
  cases ho : c.owner with
  | none =>
    have h1 : (c.mode (some false)).owner = none := ho
    have h2 : (c.mode b).owner = none := ho
    rw [h1, h2]
    exact .inr ⟨_, w, _, w, rfl, rfl, fun _ => rfl, fun _ h => by cases h⟩
  | some o =>
    have h1 : (c.mode (some false)).owner = some o := ho
    have h2 : (c.mode b).owner = some o := ho
    rw [h1, h2]
    have r1 : Runs (fun e : Key × Val => item.validate ((c.mode (some false)).colval e.2 e.1)) false
      (fun es acc => colValidateLoop item (c.mode (some false)) false es acc >>= raiseMsgs) := runs_items
    exact r1.lock (runs_items (c := c.mode b) (all := b.getD (w.cdef env o).validateAllFields)) es (fun e he => h e he) w

/-- leaf alternatives -/
theorem leaf_chain {vis : Visitor} (hn : NoMarks vis) {c : Ctx} {b : Option Bool} {a : List Mod}
    (h : ∀ m ∈ a, ∃ l, m = .leaf l ∧ l.Steady ∧ l.OnlyValidation) (w : World) :
    (chainValidate (denL env vis a) (c.mode (some false)) w = (.ok (), w) ∧ chainValidate (denL env vis a) (c.mode b) w = (.ok (), w)) ∨
    ∃ ms₁ ms₂, chainValidate (denL env vis a) (c.mode (some false)) w = (.error (.validation ms₁), w) ∧
      chainValidate (denL env vis a) (c.mode b) w = (.error (.validation ms₂), w) := by
  have hleaf : ∀ m ∈ a, Lock ((m.den env vis).validate (c.mode (some false))) ((m.den env vis).validate (c.mode b)) := by
    intro m hm
    obtain ⟨l, rfl, ⟨h1, h2⟩, -⟩ := h m hm
    have e : (Mod.den env vis (.leaf l)).validate (c.mode b) = (Mod.den env vis (.leaf l)).validate (c.mode (some false)) := by
      funext w
      show ((l.validate w.heap (c.mode b)), w) = ((l.validate w.heap (c.mode (some false))), w)
      rw [h1, h1]
    rw [e]
    exact Lock.refl (fun w he => h2 w.heap _ he)
  have hq : ∀ (c : Ctx), ∃ r, chainValidate (denL env vis a) c w = (r, w) ∧ ∀ e, r = .error e → e.isValidation = true := by
    intro c
    unfold chainValidate
    rw [nvs_denL env vis hn]
    have hx : ∀ m ∈ nvsM a, ∃ l, m = Mod.leaf l ∧ l.OnlyValidation := fun m hm => by
      obtain ⟨l, h1, -, h3⟩ := h m (mem_nvsM hm); exact ⟨l, h1, h3⟩
    generalize nvsM a = xs at hx
    have : ∀ acc, ∃ ms, validateLoop c (xs.map (fun m => m.den env vis)) acc w = (.ok ms, w) := by
      induction xs with
      | nil => intro acc; exact ⟨acc, rfl⟩
      | cons m xs ih =>
        intro acc
        obtain ⟨l, rfl, hl⟩ := hx m (by simp)
        have ih := ih (fun m' h' => hx m' (by simp [h']))
        simp only [List.map_cons, validateLoop]
        have hv : (Mod.den env vis (.leaf l)).validate c w = (l.validate w.heap c, w) := rfl
        rw [hv]
        cases hr : l.validate w.heap c with
        | ok u => exact ih acc
        | error e =>
          have := hl _ _ _ hr
          cases e with
          | validation ms =>
            simp only
            split
            · exact ih _
            · exact ⟨_, rfl⟩
          | _ => cases this
    obtain ⟨ms, hms⟩ := this []
    rw [Py.bind_run, hms]
    cases ms with
    | nil => exact ⟨_, rfl, fun e he => by cases he⟩
    | cons x xs => exact ⟨_, rfl, fun e he => by cases he; rfl⟩
  obtain ⟨r1, e1, v1⟩ := hq (c.mode (some false))
  obtain ⟨r2, e2, v2⟩ := hq (c.mode b)
  have hval : ∀ e : Exc, e.isValidation = true → ∃ ms, e = .validation ms := by
    intro e he
    cases e with
    | validation ms => exact ⟨ms, rfl⟩
    | _ => cases he
  rcases lock_chain hn hleaf w with ⟨w', h1, h2⟩ | ⟨x1, w1, x2, w2, h1, h2, -⟩
  · rw [e1] at h1; rw [e2] at h2
    cases h1
    exact .inl ⟨e1, by rw [e2]; exact h2⟩
  · rw [e1] at h1; rw [e2] at h2
    cases h1; cases h2
    obtain ⟨m1, rfl⟩ := hval _ (v1 _ rfl)
    obtain ⟨m2, rfl⟩ := hval _ (v2 _ rfl)
    exact .inr ⟨m1, m2, e1, e2⟩

theorem lock_union {vis : Visitor} (hn : NoMarks vis) {c : Ctx} {b : Option Bool} (as : List (List Mod))
    (h : ∀ a ∈ as, ∀ m ∈ a, ∃ l, m = .leaf l ∧ l.Steady ∧ l.OnlyValidation) :
    Lock (unionValidate (c.mode (some false)) (denA env vis as)) (unionValidate (c.mode b) (denA env vis as)) := by
  intro w
  induction as with
  | nil =>
    refine .inr ⟨_, w, _, w, rfl, rfl, Covers.refl ?_⟩
    simp [Ctx.vexc]
  | cons a as ih =>
    simp only [denA, unionValidate, Py.catchV, chainOps]
    rcases leaf_chain (env := env) hn (c := c) (b := b) (h a (by simp)) w with ⟨h1, h2⟩ | ⟨m1, m2, h1, h2⟩
    · rw [h1, h2]; exact .inl ⟨w, rfl, rfl⟩
    · rw [h1, h2]; exact ih (fun a' h' => h a' (by simp [h']))

mutual
theorem lock_den {vis : Visitor} (hn : NoMarks vis) {b : Option Bool}
    (hv : ∀ cls st (c : Ctx), Lock ((vis cls st).validate (c.mode (some false))) ((vis cls st).validate (c.mode b))) :
    (m : Mod) → m.Steady → ∀ c : Ctx, Lock ((m.den env vis).validate (c.mode (some false))) ((m.den env vis).validate (c.mode b))
  | .eager, _, c => Lock.refl (fun w => by simp [Mod.den])
  | .pre, _, c => Lock.refl (fun w => by simp [Mod.den])
  | .leaf l, h, c => by
    have e : (Mod.den env vis (.leaf l)).validate (c.mode b) = (Mod.den env vis (.leaf l)).validate (c.mode (some false)) := by
      funext w
      show ((l.validate w.heap (c.mode b)), w) = ((l.validate w.heap (c.mode (some false))), w)
      rw [h.1, h.1]
    rw [e]
    exact Lock.refl (fun w he => h.2 w.heap _ he)
  | .listOf nn sp item, h, c => by
    simp only [Mod.den, listOps]
    have e1 : (c.mode (some false)).val = c.val := rfl
    have e2 : (c.mode b).val = c.val := rfl
    rw [e1, e2]
    split
    · exact Lock.refl (fun w => by simp)
    · exact lock_col (fun e _ => lock_chain hn (fun m hm => lock_all hn hv item h m hm _))
    · exact Lock.refl (fun w => by simp [Ctx.vexc])
  | .dictOf nn item, h, c => by
    simp only [Mod.den, dictOps]
    have e1 : (c.mode (some false)).val = c.val := rfl
    have e2 : (c.mode b).val = c.val := rfl
    rw [e1, e2]
    split
    · exact Lock.refl (fun w => by simp)
    · exact lock_col (fun e _ => lock_chain hn (fun m hm => lock_all hn hv item h m hm _))
    · exact Lock.refl (fun w => by simp [Ctx.vexc])
  | .instOf cls st, _, c => hv cls st c
  | .union alts, h, c => by
    simp only [Mod.den, unionOps]
    have e1 : (c.mode (some false)).val = c.val := rfl
    have e2 : (c.mode b).val = c.val := rfl
    rw [e1, e2]
    split
    · exact Lock.refl (fun w => by simp)
    · exact lock_union (c := c.alterfdef) hn alts h
theorem lock_all {vis : Visitor} (hn : NoMarks vis) {b : Option Bool}
    (hv : ∀ cls st (c : Ctx), Lock ((vis cls st).validate (c.mode (some false))) ((vis cls st).validate (c.mode b))) :
    (ms : List Mod) → Mod.SteadyL ms → ∀ m ∈ ms, ∀ c : Ctx, Lock ((m.den env vis).validate (c.mode (some false))) ((m.den env vis).validate (c.mode b))
  | [], _, m, hm, _ => absurd hm (by simp)
  | x :: xs, h, m, hm, c => by
    rcases List.mem_cons.1 hm with h' | h'
    · rw [h']; exact lock_den hn hv x h.1 c
    · exact lock_all hn hv xs h.2 m h' c
end

theorem lock_inst (he : SteadyEnv env) (b : Option Bool) (n : Nat) : ∀ cls st (c : Ctx),
    Lock ((instOps env n cls st).validate (c.mode (some false))) ((instOps env n cls st).validate (c.mode b)) := by
  induction n with
  | zero => intro cls st c; exact Lock.refl (fun w => by simp [instOps])
  | succ n ih =>
    intro cls st c
    have hp : ∀ w i n msgs, World.getattr env w i n ≠ .error (.validation msgs) := by
      intro w i n msgs
      unfold World.getattr
      split
      · next f hf =>
        have hmem : f ∈ (env.cls (w.heap i).cls).fields := List.mem_of_find?_eq_some hf
        split
        · exact he.getter _ f hmem _ _ _
        · simp
      · simp
    simp only [instOps, instValidate]
    have e1 : (c.mode (some false)).val = c.val := rfl
    have e2 : (c.mode b).val = c.val := rfl
    rw [e1, e2]
    split
    · exact Lock.refl (fun w => by simp)
    · rename_i i hv
      intro w
      simp only
      split
      · exact .inl ⟨w, rfl, rfl⟩
      · generalize (w.markPut env i).visit i = w₁
        split
        · simp only [instValidateBody]
          have r1 : Runs (fieldStep env (Field.ops env (instOps env n)) (c.mode (some false)) i (onlyModified (w₁.heap i))) false
            (fun fs acc => validateFields env (Field.ops env (instOps env n)) (c.mode (some false)) i (onlyModified (w₁.heap i)) false fs acc >>= raiseMsgs) :=
            runs_fields hp
          refine r1.lock (runs_fields (c := c.mode b) (all := b.getD (env.cls cls).validateAllFields) hp) (w₁.cdef env i).fields ?_ w₁
          intro f hf w₂
          unfold fieldStep
          cases hg : w₂.getattr env i f.name with
          | error e => exact .inr ⟨e, w₂, e, w₂, rfl, rfl, Covers.refl (fun h => hp w₂ i f.name [] (by rw [hg, h]))⟩
          | ok v =>
            simp only
            split
            · exact .inl ⟨w₂, rfl, rfl⟩
            · rw [validateField_run, validateField_run]
              have o1 : (c.mode (some false)).owner = c.owner := rfl
              have o2 : (c.mode b).owner = c.owner := rfl
              rw [o1, o2]
              split
              · have f1 : ∀ b, fieldCtx env w₂ (c.mode b) i f v = (fieldCtx env w₂ c i f v).mode b := by
                  intro b
                  unfold fieldCtx
                  simp only
                  split <;> rfl
                rw [f1, f1]
                exact lock_chain (instOps_noMarks env n) (fun m hm => lock_all (instOps_noMarks env n) ih f.chain (he.chains _ f hf) m hm _) w₂
              · exact .inr ⟨_, w₂, _, w₂, rfl, rfl, fun _ => rfl, fun _ h => by cases h⟩
        · exact .inr ⟨_, w₁, _, w₁, rfl, rfl, Covers.refl (by simp [Ctx.vexc])⟩
    · exact Lock.refl (fun w => by simp)

theorem lock_api (he : SteadyEnv env) (n i : Nat) (b : Option Bool) : Lock (apiValidate env n i (some false)) (apiValidate env n i b) := by
  intro w
  have h := lock_inst he b n (w.heap i).cls none (rootCtx w i {} (.obj i)) { w with marks := [] }
  unfold apiValidate withFreshMarks
  rcases h with ⟨w', h1, h2⟩ | ⟨e1, w1, e2, w2, h1, h2, hc⟩
  · have h1 : (instOps env n (w.heap i).cls none).validate (rootCtx w i { allFields := some false } (.obj i)) { w with marks := [] } = (.ok (), w') := h1
    have h2 : (instOps env n (w.heap i).cls none).validate (rootCtx w i { allFields := b } (.obj i)) { w with marks := [] } = (.ok (), w') := h2
    rw [h1, h2]
    exact .inl ⟨_, rfl, rfl⟩
  · have h1 : (instOps env n (w.heap i).cls none).validate (rootCtx w i { allFields := some false } (.obj i)) { w with marks := [] } = (.error e1, w1) := h1
    have h2 : (instOps env n (w.heap i).cls none).validate (rootCtx w i { allFields := b } (.obj i)) { w with marks := [] } = (.error e2, w2) := h2
    rw [h1, h2]
    exact .inr ⟨_, _, _, _, rfl, rfl, hc⟩

/-- **C73**. Whether `validate()` succeeds does not depend on `all_fields`: given as True or
False, or left to the classes. -/
theorem validate_verdict (he : SteadyEnv env) (n i : Nat) (a b : Option Bool) (w : World) :
    (apiValidate env n i a w).1 = .ok () ↔ (apiValidate env n i b w).1 = .ok () := by
  have key : ∀ b, (apiValidate env n i (some false) w).1 = .ok () ↔ (apiValidate env n i b w).1 = .ok () := by
    intro b
    rcases lock_api he n i b w with ⟨w', h1, h2⟩ | ⟨e1, w1, e2, w2, h1, h2, -⟩ <;> rw [h1, h2] <;> simp
  exact (key a).symm.trans (key b)

/-- **C73**, the fields reported. What `validate(all_fields=False)` reports, every other
`validate` that ends in a validation error reports too. -/
theorem validate_reports_more (he : SteadyEnv env) (n i : Nat) (b : Option Bool) (w : World) {ms ms' : List (String × String)}
    (h : (apiValidate env n i (some false) w).1 = .error (.validation ms)) (h' : (apiValidate env n i b w).1 = .error (.validation ms')) :
    ms ≠ [] ∧ ∀ k, Reported k ms → Reported k ms' := by
  rcases lock_api he n i b w with ⟨w', h1, h2⟩ | ⟨e1, w1, e2, w2, h1, h2, hc⟩
  · rw [h1] at h; cases h
  · rw [h1] at h; rw [h2] at h'
    cases h; cases h'
    obtain ⟨hne, hk⟩ := hc.2 ms rfl
    exact ⟨hne, hk ms' rfl⟩

/-- **C73**, other exceptions. An exception that is no validation error comes out of every
`validate`. -/
theorem validate_crash (he : SteadyEnv env) (n i : Nat) (b : Option Bool) (w : World) {e : Exc}
    (h : (apiValidate env n i (some false) w).1 = .error e) (hv : ∀ ms, e ≠ .validation ms) : (apiValidate env n i b w).1 = .error e := by
  rcases lock_api he n i b w with ⟨w', h1, h2⟩ | ⟨e1, w1, e2, w2, h1, h2, hc⟩
  · rw [h1] at h; cases h
  · rw [h1] at h
    cases h
    rw [h2, hc.1 (Exc.not_validation hv)]

/-- **C73**, `is_valid`. It is True exactly when `validate()` succeeds, whatever `all_fields` is;
False exactly when `validate(all_fields=False)` raises a validation error; an exception of
another kind comes out of it. -/
theorem is_valid_spec (he : SteadyEnv env) (n i : Nat) (w : World) :
    ((apiIsValid env n i w).1 = .ok true ↔ ∀ b, (apiValidate env n i b w).1 = .ok ()) ∧
    ((apiIsValid env n i w).1 = .ok false ↔ ∃ ms, (apiValidate env n i (some false) w).1 = .error (.validation ms)) ∧
    (∀ e, (apiIsValid env n i w).1 = .error e ↔ (∀ ms, e ≠ .validation ms) ∧ ∀ b, (apiValidate env n i b w).1 = .error e) := by
  have hall : (∀ b, (apiValidate env n i b w).1 = .ok ()) ↔ (apiValidate env n i (some false) w).1 = .ok () :=
    ⟨fun h => h _, fun h b => (validate_verdict he n i (some false) b w).1 h⟩
  have hexc : ∀ e, ((∀ ms, e ≠ .validation ms) ∧ ∀ b, (apiValidate env n i b w).1 = .error e) ↔
      (∀ ms, e ≠ .validation ms) ∧ (apiValidate env n i (some false) w).1 = .error e :=
    fun e => ⟨fun h => ⟨h.1, h.2 _⟩, fun h => ⟨h.1, fun b => validate_crash he n i b w h.2 h.1⟩⟩
  rw [hall]
  simp only [hexc]
  unfold apiIsValid
  rcases apiValidate env n i (some false) w with ⟨r, w'⟩
  cases r with
  | ok u => simp
  | error e =>
    by_cases hv : ∃ ms, e = .validation ms
    · obtain ⟨ms, rfl⟩ := hv
      simp only [reduceCtorEq, Except.ok.injEq, Bool.false_eq_true, false_iff, true_iff, Except.error.injEq, true_and]
      refine ⟨⟨ms, rfl⟩, fun e h => ?_⟩
      exact h.1 ms h.2.symm
    · cases e with
      | validation ms => exact absurd ⟨ms, rfl⟩ hv
      | _ => simp

end JC

namespace JC.ModeDemo

open JC
open JC.Demo (reqStr optStr attrsOf)

/-- A note with a required text and a value that is a text or an int. -/
def fText : Field := { name := "text", jsonName := "text", chain := [.leaf reqStr] }
def fMark : Field := { name := "mark", jsonName := "mark", chain := [.union [[.leaf strMod], [.leaf intMod]]] }
def note : ClassDef := { name := "Note", fields := [fText, fMark] }
/-- A book with a required title and notes. -/
def fTitle : Field := { name := "title", jsonName := "title", chain := [.leaf reqStr] }
def fNotes : Field := { name := "notes", jsonName := "notes", ftype := .list,
                        chain := [.listOf false .no [.instOf "Note" none]] }
def book : ClassDef := { name := "Book", fields := [fTitle, fNotes] }
def env : Env where
  cls := fun n => if n = "Note" then note else if n = "Book" then book else {}
  pystr := fun _ => ""

/-- Book 0 has no title and two notes without a text; book 3 is fine. -/
def world : World where
  heap := fun i => match i with
    | 0 => { cls := "Book", isNew := true, attrs := attrsOf [("notes", .list [.obj 1, .obj 2])] }
    | 1 => { cls := "Note", isNew := true }
    | 2 => { cls := "Note", isNew := true, attrs := attrsOf [("mark", .bool true)] }
    | 3 => { cls := "Book", isNew := true, attrs := attrsOf [("title", .str "t"), ("notes", .list [.obj 4])] }
    | 4 => { cls := "Note", isNew := true, attrs := attrsOf [("text", .str "t"), ("mark", .int 1)] }
    | _ => {}
  next := 5

theorem one_run : (apiValidate env 4 0 (some false) world).1 = .error (.validation [("title", "value required")]) := by
  rfl
theorem all_run : (apiValidate env 4 0 (some true) world).1 =
    .error (.validation [("title", "value required"), ("notes.0.text", "value required"), ("notes.1.text", "value required"),
      ("notes.1.mark", "value is not of any provided type")]) := by
  rfl
theorem invalid : (apiIsValid env 4 0 world).1 = .ok false := by rfl
theorem valid : (apiIsValid env 4 3 world).1 = .ok true := by rfl

theorem steady_req : reqStr.Steady := by
  refine ⟨fun h c b => ?_, fun h c => ?_⟩
  · show (match c.val with | .str _ => _ | .none => _ | _ => _) = _
    simp only [reqStr]
    cases c.val <;> rfl
  · simp only [reqStr, Ctx.vexc]
    cases c.val <;> simp

theorem steady_str : strMod.Steady ∧ strMod.OnlyValidation := by
  refine ⟨⟨fun h c b => ?_, fun h c => ?_⟩, fun h c e he => ?_⟩
  · simp only [strMod, Ctx.mode]
    cases c.val <;> rfl
  · simp only [strMod, Ctx.vexc]
    cases c.val <;> simp
  · simp only [strMod, Ctx.vexc] at he
    cases hv : c.val <;> rw [hv] at he <;> cases he <;> rfl

theorem steady_int : intMod.Steady ∧ intMod.OnlyValidation := by
  refine ⟨⟨fun h c b => ?_, fun h c => ?_⟩, fun h c e he => ?_⟩
  · simp only [intMod, Ctx.mode]
    cases c.val <;> rfl
  · simp only [intMod, Ctx.vexc]
    cases c.val <;> simp
  · simp only [intMod, Ctx.vexc] at he
    cases hv : c.val <;> rw [hv] at he <;> cases he <;> rfl

theorem env_cases (cls : String) : env.cls cls = note ∨ env.cls cls = book ∨ env.cls cls = {} := by
  simp only [env]
  split
  · exact .inl rfl
  · split
    · exact .inr (.inl rfl)
    · exact .inr (.inr rfl)

theorem steady : SteadyEnv env where
  chains := by
    intro cls f hf
    rcases env_cases cls with h | h | h <;> rw [h] at hf
    · simp only [note, List.mem_cons, List.not_mem_nil, or_false] at hf
      rcases hf with rfl | rfl
      · exact ⟨steady_req, trivial⟩
      · refine ⟨?_, trivial⟩
        intro a ha m hm
        simp only [List.mem_cons, List.not_mem_nil, or_false] at ha
        rcases ha with rfl | rfl <;> simp only [List.mem_cons, List.not_mem_nil, or_false] at hm <;> subst hm
        · exact ⟨_, rfl, steady_str⟩
        · exact ⟨_, rfl, steady_int⟩
    · simp only [book, List.mem_cons, List.not_mem_nil, or_false] at hf
      rcases hf with rfl | rfl
      · exact ⟨steady_req, trivial⟩
      · exact ⟨⟨trivial, trivial⟩, trivial⟩
    · cases hf
  getter := by
    intro cls f hf h i msgs he
    rcases env_cases cls with h' | h' | h' <;> rw [h'] at hf
    · simp only [note, List.mem_cons, List.not_mem_nil, or_false] at hf
      rcases hf with rfl | rfl <;> cases he
    · simp only [book, List.mem_cons, List.not_mem_nil, or_false] at hf
      rcases hf with rfl | rfl <;> cases he
    · cases hf

/-- The hypotheses are met by an object with several errors, by one without, and by both answers
of `is_valid`. -/
example : ∀ k, Reported k [("title", "value required")] → Reported k [("title", "value required"), ("notes.0.text", "value required"),
    ("notes.1.text", "value required"), ("notes.1.mark", "value is not of any provided type")] :=
  (validate_reports_more steady 4 0 (some true) world one_run all_run).2
example : ∀ b, (apiValidate env 4 3 b world).1 = .ok () := (is_valid_spec steady 4 3 world).1.1 valid

/-! ### Unions with other alternatives -/

/-- `len(v) > 2` of a value given as `v`. -/
def longer : Heap → Ctx → Except Exc Val := fun _ c => match c.val with
  | .str s => .ok (.bool (decide (2 < s.length)))
  | _ => .error .typeError

/-- `types.union([types.str.validate(lambda v: len(v) > 2), types.int])` -/
def fCode : Field := { name := "code", jsonName := "code",
                       chain := [.union [[.leaf strMod, .leaf (validateLeaf (.fn 1 longer) none)], [.leaf intMod]]] }
def tag : ClassDef := { name := "Tag", fields := [fCode] }
def tagEnv : Env where
  cls := fun n => if n = "Tag" then tag else {}
  pystr := fun _ => ""
def tagWorld : World where
  heap := fun i => match i with
    | 0 => { cls := "Tag", isNew := true, attrs := attrsOf [("code", .int 5)] }
    | _ => {}
  next := 1

/-- A callable written for the type checked before it runs on the values of the other
alternatives: an int is valid, but asking for all errors raises a `TypeError`. -/
theorem union_callable_violated :
    (apiIsValid tagEnv 2 0 tagWorld).1 = .ok true ∧ (apiValidate tagEnv 2 0 (some true) tagWorld).1 = .error .typeError := ⟨by rfl, by rfl⟩

/-- A shelf holds a list of notes or anything else, and has a best note. -/
def anyMod : Leaf := {}
def fHeld : Field := { name := "held", jsonName := "held",
                       chain := [.union [[.listOf false .no [.instOf "Note" none]], [.leaf anyMod]]] }
def fBest : Field := { name := "best", jsonName := "best", chain := [.instOf "Note" none] }
def shelf : ClassDef := { name := "Shelf", fields := [fHeld, fBest] }
def shelfEnv : Env where
  cls := fun n => if n = "Note" then note else if n = "Shelf" then shelf else {}
  pystr := fun _ => ""
/-- Both notes lack the text, the second is the best. -/
def shelfWorld : World where
  heap := fun i => match i with
    | 0 => { cls := "Shelf", isNew := true, attrs := attrsOf [("held", .list [.obj 1, .obj 2]), ("best", .obj 2)] }
    | 1 => { cls := "Note", isNew := true }
    | 2 => { cls := "Note", isNew := true }
    | _ => {}
  next := 3

/-- An object checked inside an alternative that fails counts as checked afterwards: asking for
all errors accepts an object that `is_valid` rejects. -/
theorem union_objects_violated :
    (apiIsValid shelfEnv 4 0 shelfWorld).1 = .ok false ∧ (apiValidate shelfEnv 4 0 (some true) shelfWorld).1 = .ok () := ⟨by rfl, by rfl⟩

end JC.ModeDemo
