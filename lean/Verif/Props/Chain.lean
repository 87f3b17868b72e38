import Verif.Model.Chain
import Mathlib.Tactic.ByContra

/-
C03, C04, C05: staging of a modifier chain.

All statements quantify over arbitrary modifiers (arbitrary effectful methods on an
arbitrary state), arbitrary chains, contexts and states.
-/
namespace JC
variable {σ : Type}

/-! ### Specification -/

/-- The three stages of a chain: `A` lies before the last eager mark, `N` starts at
that mark (or at the beginning when there is none) and ends before the first
preserialize mark, `P` starts at the first preserialize mark. -/
structure Staged (vs A N P : List (Ops σ)) : Prop where
  eq : vs = A ++ N ++ P
  noPre : ∀ m ∈ A ++ N, m.isPre = false
  preHead : P = [] ∨ ∃ p P', P = p :: P' ∧ p.isPre = true
  noEagerAfter : ∀ m ∈ N.tail ++ P, m.isEager = false
  mark : A ≠ [] → ∃ e N', N = e :: N' ∧ e.isEager = true

/-- Left-to-right composition: every step receives the result of the previous one;
an exception stops it. -/
def pipe : List (Val → Py σ Val) → Val → Py σ Val
  | [], v => pure v
  | f :: fs, v => do
    let v' ← f v
    pipe fs v'

/-- Input step of a modifier before the eager mark: transform, then validate the
result at once. -/
def eagerStep (c : Ctx) (m : Ops σ) (v : Val) : Py σ Val := do
  let r ← m.transform (c.nval v)
  m.validate (c.nval r)
  pure r

/-- Input step of a modifier after the eager mark: transform only. -/
def plainStep (c : Ctx) (m : Ops σ) (v : Val) : Py σ Val := m.transform (c.nval v)

/-- Every validator of the list accepts, run in order. -/
inductive Accepts (c : Ctx) : List (Ops σ) → σ → σ → Prop
  | nil (s) : Accepts c [] s s
  | cons {m ms s s' s''} : m.validate c s = (.ok (), s') → Accepts c ms s' s'' →
      Accepts c (m :: ms) s s''

/-- Running every validator of the list in order, each either accepting or raising a
validation error; `ms` collects the message maps of the rejections in order. -/
inductive Complaints (c : Ctx) : List (Ops σ) → σ → List (List (String × String)) → σ → Prop
  | nil (s) : Complaints c [] s [] s
  | accept {m ms s s' s'' cs} : m.validate c s = (.ok (), s') → Complaints c ms s' cs s'' →
      Complaints c (m :: ms) s cs s''
  | reject {m ms s s' s'' cs msgs} : m.validate c s = (.error (.validation msgs), s') →
      Complaints c ms s' cs s'' → Complaints c (m :: ms) s (msgs :: cs) s''

/-- The last message complained for key `k`. -/
def lastMsg (ms : List (List (String × String))) (k : String) : Option String :=
  (ms.flatten.reverse.find? (fun kv => kv.1 = k)).map Prod.snd

/-! ### list index lemmas -/

theorem firstIdx_append {α : Type} (p : α → Bool) (xs ys : List α)
    (h : ∀ x ∈ xs, p x = false) : firstIdx p (xs ++ ys) = (firstIdx p ys).map (· + xs.length) := by
  induction xs with
  | nil => simp
  | cons x xs ih =>
    have hx := h x (by simp)
    have ih := ih (fun y hy => h y (by simp [hy]))
    simp only [List.cons_append, firstIdx, hx, ih, Option.map_map, List.length_cons]
    simp [Function.comp_def, Nat.add_assoc]

theorem firstIdx_none {α : Type} (p : α → Bool) (xs : List α)
    (h : ∀ x ∈ xs, p x = false) : firstIdx p xs = none := by
  have := firstIdx_append p xs [] h
  simpa [firstIdx] using this

theorem lastIdx_none {α : Type} (p : α → Bool) (xs : List α)
    (h : ∀ x ∈ xs, p x = false) : lastIdx p xs = none := by
  induction xs with
  | nil => rfl
  | cons x xs ih =>
    have hx := h x (by simp)
    have ih := ih (fun y hy => h y (by simp [hy]))
    simp [lastIdx, ih, hx]

theorem lastIdx_append {α : Type} (p : α → Bool) (xs ys : List α) (e : α) (he : p e = true)
    (h : ∀ x ∈ ys, p x = false) : lastIdx p (xs ++ e :: ys) = some xs.length := by
  induction xs with
  | nil => simp [lastIdx, lastIdx_none p ys h, he]
  | cons x xs ih => simp [lastIdx, ih]

theorem Staged.firstPre {vs A N P : List (Ops σ)} (h : Staged vs A N P) :
    firstIdx (·.isPre) vs = if P = [] then none else some (A ++ N).length := by
  rw [h.eq, firstIdx_append _ _ _ h.noPre]
  rcases h.preHead with rfl | ⟨p, P', rfl, hp⟩
  · simp [firstIdx]
  · simp [firstIdx, hp]

theorem Staged.lastEager_nil {vs N P : List (Ops σ)} (h : Staged vs [] N P) :
    lastIdx (·.isEager) vs = none ∨ lastIdx (·.isEager) vs = some 0 := by
  have hv := h.eq
  have hN := h.noEagerAfter
  subst hv
  cases N with
  | nil =>
    left
    exact lastIdx_none _ _ (fun m hm => hN m (by simpa using hm))
  | cons e N' =>
    by_cases he : e.isEager = true
    · right
      exact lastIdx_append (fun m : Ops σ => m.isEager) [] (N' ++ P) e he (by simpa using hN)
    · left
      apply lastIdx_none
      intro m hm
      simp only [List.nil_append, List.cons_append, List.mem_cons] at hm
      rcases hm with rfl | hm
      · simpa using he
      · exact hN m (by simpa using hm)

theorem Staged.lastEager_cons {vs A N P : List (Ops σ)} (h : Staged vs A N P) (hA : A ≠ []) :
    lastIdx (·.isEager) vs = some A.length := by
  obtain ⟨e, N', rfl, he⟩ := h.mark hA
  have hv := h.eq
  have hN := h.noEagerAfter
  subst hv
  simpa using lastIdx_append (fun m : Ops σ => m.isEager) A (N' ++ P) e he (by simpa using hN)

theorem Staged.upto_eq {vs A N P : List (Ops σ)} (h : Staged vs A N P) : uptoPre vs = A ++ N := by
  unfold uptoPre
  rw [h.firstPre]
  by_cases hP : P = []
  · simp [hP, h.eq]
  · simp only [hP, if_false]
    rw [h.eq, List.take_left]

theorem Staged.nvs_eq {vs A N P : List (Ops σ)} (h : Staged vs A N P) : nvs vs = N := by
  unfold nvs
  rw [h.upto_eq]
  by_cases hA : A = []
  · subst hA
    rcases h.lastEager_nil with h0 | h0 <;> rw [h0] <;> simp
  · rw [h.lastEager_cons hA]
    simp

theorem Staged.tvs_eq {vs A N P : List (Ops σ)} (h : Staged vs A N P) : tvs vs = A := by
  unfold tvs
  by_cases hA : A = []
  · subst hA
    rcases h.lastEager_nil with h0 | h0 <;> rw [h0] <;> simp
  · rw [h.lastEager_cons hA, h.eq]
    simp

theorem Staged.pvs_eq {vs A N P : List (Ops σ)} (h : Staged vs A N P) : pvs vs = P := by
  unfold pvs
  rw [h.firstPre]
  by_cases hP : P = []
  · simp [hP]
  · simp only [hP, if_false]
    rw [h.eq, List.drop_left]

/-- Every chain in which no eager mark follows a preserialize mark has the three
stages (so the theorems below cover all such chains). -/
theorem staged_exists (vs : List (Ops σ))
    (h : ∀ X p Y, vs = X ++ p :: Y → p.isPre = true → ∀ m ∈ p :: Y, m.isEager = false) :
    ∃ A N P, Staged vs A N P := by
  -- split off the part before the first preserialize mark
  have h1 : ∀ l : List (Ops σ), ∃ B P, l = B ++ P ∧ (∀ m ∈ B, m.isPre = false) ∧
      (P = [] ∨ ∃ p P', P = p :: P' ∧ p.isPre = true) := by
    intro l
    induction l with
    | nil => exact ⟨[], [], rfl, by simp, Or.inl rfl⟩
    | cons x xs ih =>
      by_cases hx : x.isPre = true
      · exact ⟨[], x :: xs, rfl, by simp, Or.inr ⟨x, xs, rfl, hx⟩⟩
      · obtain ⟨B, P, rfl, hB, hP⟩ := ih
        refine ⟨x :: B, P, rfl, ?_, hP⟩
        intro m hm
        rcases List.mem_cons.1 hm with rfl | hm
        · simpa using hx
        · exact hB m hm
  have h2 : ∀ l : List (Ops σ), ∃ A N, l = A ++ N ∧ (∀ m ∈ N.tail, m.isEager = false) ∧
      (A ≠ [] → ∃ e N', N = e :: N' ∧ e.isEager = true) := by
    intro l
    induction l with
    | nil => exact ⟨[], [], rfl, by simp, by simp⟩
    | cons x xs ih =>
      by_cases hxs : ∀ m ∈ xs, m.isEager = false
      · exact ⟨[], x :: xs, rfl, by simpa using hxs, by simp⟩
      · obtain ⟨A, N, rfl, hN, hA⟩ := ih
        by_cases hA0 : A = []
        · subst hA0
          cases N with
          | nil => simp at hxs
          | cons e N' =>
            have he : e.isEager = true := by
              by_contra hc
              apply hxs
              intro m hm
              simp only [List.nil_append, List.mem_cons] at hm
              rcases hm with rfl | hm
              · simpa using hc
              · exact hN m hm
            exact ⟨[x], e :: N', rfl, hN, fun _ => ⟨e, N', rfl, he⟩⟩
        · obtain ⟨e, N', rfl, he⟩ := hA hA0
          exact ⟨x :: A, e :: N', rfl, hN, fun _ => ⟨e, N', rfl, he⟩⟩
  obtain ⟨B, P, hv, hB, hP⟩ := h1 vs
  obtain ⟨A, N, rfl, hN, hA⟩ := h2 B
  refine ⟨A, N, P, hv, hB, hP, ?_, hA⟩
  intro m hm
  rcases List.mem_append.1 hm with hm | hm
  · exact hN m hm
  · rcases hP with rfl | ⟨p, P', rfl, hp⟩
    · simp at hm
    · exact h (A ++ N) p P' hv hp m hm

/-! ### C03 -/

theorem reduceM_pipe (f : Ops σ → Val → Py σ Val) (ms : List (Ops σ)) (v : Val) :
    reduceM f ms v = pipe (ms.map f) v := by
  induction ms generalizing v with
  | nil => rfl
  | cons m ms ih => simp only [reduceM, List.map_cons, pipe]; congr 1; funext v'; exact ih v'

theorem pipe_append (fs gs : List (Val → Py σ Val)) (v : Val) :
    pipe (fs ++ gs) v = (pipe fs v >>= pipe gs) := by
  induction fs generalizing v with
  | nil => simp [pipe]
  | cons f fs ih =>
    simp only [List.cons_append, pipe, bind_assoc]
    congr 1; funext v'; exact ih v'

/-- C03: writing an input value feeds it through all modifiers before the first
preserialize mark, in declaration order; the ones before the last eager mark also
validate their result immediately.  Modifiers from the preserialize mark on do not
take part. -/
theorem chain_transform_staged {vs A N P : List (Ops σ)} (h : Staged vs A N P) (c : Ctx) :
    chainTransform vs c = pipe (A.map (eagerStep c) ++ N.map (plainStep c)) c.val := by
  unfold chainTransform
  rw [h.tvs_eq, h.nvs_eq, reduceM_pipe, pipe_append]
  congr 1
  funext v
  rw [reduceM_pipe]
  rfl

/-- C03: if a validator placed before the last eager mark rejects the value that
reaches it, the input is refused with exactly that exception, and no later modifier
runs (the state is the one left by the rejecting validator). -/
theorem chain_transform_eager_reject {vs A N P : List (Ops σ)} (h : Staged vs A N P) (c : Ctx)
    {A₁ A₂ : List (Ops σ)} {m : Ops σ} (hA : A = A₁ ++ m :: A₂) {s s₁ s₂ s₃ : σ} {v r : Val}
    {e : Exc} (h₁ : pipe (A₁.map (eagerStep c)) c.val s = (.ok v, s₁))
    (h₂ : m.transform (c.nval v) s₁ = (.ok r, s₂))
    (h₃ : m.validate (c.nval r) s₂ = (.error e, s₃)) :
    chainTransform vs c s = (.error e, s₃) := by
  rw [chain_transform_staged h c, hA, List.map_append, List.append_assoc, pipe_append,
    Py.bind_ok h₁]
  simp only [List.map_cons, List.cons_append, pipe]
  apply Py.bind_err
  unfold eagerStep
  rw [Py.bind_ok h₂]
  exact Py.bind_err h₃

/-- C03: a successful write certifies that every validator before the last eager mark
accepted the value produced at its position. -/
theorem chain_transform_ok_eager {vs A N P : List (Ops σ)} (h : Staged vs A N P) (c : Ctx)
    {A₁ A₂ : List (Ops σ)} {m : Ops σ} (hA : A = A₁ ++ m :: A₂) {s s' : σ} {w : Val}
    (hok : chainTransform vs c s = (.ok w, s')) :
    ∃ v r s₁ s₂ s₃, pipe (A₁.map (eagerStep c)) c.val s = (.ok v, s₁) ∧
      m.transform (c.nval v) s₁ = (.ok r, s₂) ∧ m.validate (c.nval r) s₂ = (.ok (), s₃) := by
  rw [chain_transform_staged h c, hA, List.map_append, List.append_assoc, pipe_append,
    Py.bind_run] at hok
  rcases h₁ : pipe (A₁.map (eagerStep c)) c.val s with ⟨_ | v, s₁⟩
  · rw [h₁] at hok; cases hok
  rw [h₁] at hok
  simp only [List.map_cons, List.cons_append, pipe] at hok
  rw [Py.bind_run] at hok
  unfold eagerStep at hok
  rw [Py.bind_run] at hok
  rcases h₂ : m.transform (c.nval v) s₁ with ⟨_ | r, s₂⟩
  · rw [h₂] at hok; cases hok
  rw [h₂] at hok
  simp only [Py.bind_run] at hok
  rcases h₃ : m.validate (c.nval r) s₂ with ⟨_ | _, s₃⟩
  · rw [h₃] at hok; cases hok
  exact ⟨v, r, s₁, s₂, s₃, rfl, h₂, h₃⟩

/-! ### C04 -/

/-- C04: the verdict of `validate` depends only on the middle stage: whatever stands
before the last eager mark or from the first preserialize mark on is irrelevant. -/
theorem chain_validate_only_middle {vs A N P vs' A' P' : List (Ops σ)} (h : Staged vs A N P)
    (h' : Staged vs' A' N P') (c : Ctx) : chainValidate vs c = chainValidate vs' c := by
  unfold chainValidate
  rw [h.nvs_eq, h'.nvs_eq]

theorem dictSet_ne_nil {α : Type} (k : String) (v : α) (d : List (String × α)) :
    dictSet k v d ≠ [] := by
  cases d with
  | nil => simp [dictSet]
  | cons x xs => simp only [dictSet]; split <;> simp

theorem dictUpdate_ne_nil {α : Type} (d e : List (String × α)) (h : d ≠ [] ∨ e ≠ []) :
    dictUpdate d e ≠ [] := by
  unfold dictUpdate
  induction e generalizing d with
  | nil => simpa using h
  | cons x xs ih =>
    simp only [List.foldl_cons]
    exact ih _ (Or.inl (dictSet_ne_nil _ _ _))

theorem raiseMsgs_ne {msgs : List (String × String)} (h : msgs ≠ []) (s : σ) :
    raiseMsgs msgs s = (.error (.validation msgs), s) := by
  cases msgs with
  | nil => exact absurd rfl h
  | cons x xs => rfl

theorem validateLoop_ok {c : Ctx} {ms : List (Ops σ)} {s s' : σ} (h : Accepts c ms s s')
    (acc : List (String × String)) : validateLoop c ms acc s = (.ok acc, s') := by
  induction h with
  | nil s => rfl
  | cons hm _ ih => simp only [validateLoop, hm]; exact ih

/-- No validator raises a validation error with an empty message map (every
`raise_vexc` produces one message). -/
def NonEmptyMsgs (c : Ctx) (ms : List (Ops σ)) : Prop :=
  ∀ m ∈ ms, ∀ s s' msgs, m.validate c s = (.error (.validation msgs), s') → msgs ≠ []

theorem validateLoop_acc_ne {c : Ctx} {ms : List (Ops σ)} {s s' : σ}
    {acc r : List (String × String)} (hacc : acc ≠ [])
    (h : validateLoop c ms acc s = (.ok r, s')) : r ≠ [] := by
  induction ms generalizing acc s with
  | nil =>
    simp only [validateLoop, Py.pure_run, Prod.mk.injEq, Except.ok.injEq] at h
    exact h.1 ▸ hacc
  | cons m ms ih =>
    simp only [validateLoop] at h
    split at h
    · exact ih hacc h
    · split at h
      · exact ih (dictUpdate_ne_nil _ _ (Or.inl hacc)) h
      · simp only [Prod.mk.injEq, Except.ok.injEq] at h
        exact h.1 ▸ dictUpdate_ne_nil _ _ (Or.inl hacc)
    · simp at h

theorem validateLoop_empty {c : Ctx} {ms : List (Ops σ)} {s s' : σ} (hne : NonEmptyMsgs c ms)
    (h : validateLoop c ms [] s = (.ok [], s')) : Accepts c ms s s' := by
  induction ms generalizing s with
  | nil =>
    simp only [validateLoop, Py.pure_run, Prod.mk.injEq, true_and] at h
    subst h; exact .nil _
  | cons m ms ih =>
    simp only [validateLoop] at h
    split at h
    · next hm => exact .cons hm (ih (fun m' hm' => hne m' (by simp [hm'])) h)
    · next msgs s₁ hm =>
      have hmsgs := hne m (by simp) _ _ _ hm
      split at h
      · exact absurd rfl (validateLoop_acc_ne (dictUpdate_ne_nil _ _ (Or.inr hmsgs)) h)
      · simp only [Prod.mk.injEq, Except.ok.injEq] at h
        exact absurd h.1 (dictUpdate_ne_nil _ _ (Or.inr hmsgs))
    · simp at h

/-- C04: validating a field succeeds exactly when every modifier between the last
eager mark and the first preserialize mark accepts the value. -/
theorem chain_validate_ok_iff {vs A N P : List (Ops σ)} (h : Staged vs A N P) (c : Ctx)
    (hne : NonEmptyMsgs c N) (s s' : σ) :
    chainValidate vs c s = (.ok (), s') ↔ Accepts c N s s' := by
  unfold chainValidate
  rw [h.nvs_eq]
  constructor
  · intro hv
    rw [Py.bind_run] at hv
    rcases hl : validateLoop c N [] s with ⟨_ | msgs, s₁⟩
    · rw [hl] at hv; cases hv
    rw [hl] at hv
    cases msgs with
    | nil =>
      simp only [raiseMsgs, Py.pure_run, Prod.mk.injEq, true_and] at hv
      subst hv
      exact validateLoop_empty hne hl
    | cons x xs => simp [raiseMsgs] at hv
  · intro ha
    rw [Py.bind_ok (validateLoop_ok ha [])]
    rfl

theorem firstIdx_le {α : Type} (p : α → Bool) (X Y : List α) (e : α) (he : p e = true) :
    ∃ i, firstIdx p (X ++ e :: Y) = some i ∧ i ≤ X.length := by
  induction X with
  | nil => exact ⟨0, by simp [firstIdx, he], Nat.le_refl _⟩
  | cons x xs ih =>
    obtain ⟨i, hi, hle⟩ := ih
    by_cases hx : p x = true
    · exact ⟨0, by simp [firstIdx, hx], Nat.zero_le _⟩
    · exact ⟨i + 1, by simp [firstIdx, hx, hi], by simpa using hle⟩

theorem lastIdx_ge {α : Type} (p : α → Bool) (X Y : List α) (e : α) (he : p e = true) :
    ∃ i, lastIdx p (X ++ e :: Y) = some i ∧ X.length ≤ i := by
  induction X with
  | nil =>
    cases h : lastIdx p Y with
    | none => exact ⟨0, by simp [lastIdx, h, he], Nat.le_refl _⟩
    | some i => exact ⟨i + 1, by simp [lastIdx, h], Nat.zero_le _⟩
  | cons x xs ih =>
    obtain ⟨i, hi, hle⟩ := ih
    exact ⟨i + 1, by simp [lastIdx, hi], by simpa using hle⟩

/-- C04, the remaining chains (finding): when an eager mark follows a preserialize
mark, the middle stage is empty and plain validation accepts every value, whatever
validators the chain contains. -/
theorem chain_validate_eager_after_pre (X Y Z : List (Ops σ)) (p e : Ops σ)
    (hp : p.isPre = true) (he : e.isEager = true) (c : Ctx) (s : σ) :
    chainValidate (X ++ p :: Y ++ e :: Z) c s = (.ok (), s) := by
  have h0 : nvs (X ++ p :: Y ++ e :: Z) = [] := by
    obtain ⟨i, hi, hle⟩ := lastIdx_ge (fun m : Ops σ => m.isEager) (X ++ p :: Y) Z e he
    obtain ⟨j, hj, hjle⟩ := firstIdx_le (fun m : Ops σ => m.isPre) X (Y ++ e :: Z) p hp
    have hj' : firstIdx (fun m : Ops σ => m.isPre) (X ++ p :: Y ++ e :: Z) = some j := by
      simpa using hj
    unfold nvs uptoPre
    rw [hi, hj']
    simp only
    apply List.drop_eq_nil_of_le
    rw [List.length_take]
    simp at hle
    omega
  unfold chainValidate
  rw [h0]
  rfl

/-! ### C05 -/

theorem dictGet_dictSet {α : Type} (k k' : String) (v : α) (d : List (String × α)) :
    dictGet (dictSet k v d) k' = if k = k' then some v else dictGet d k' := by
  induction d with
  | nil =>
    by_cases h : k = k' <;> simp [dictSet, dictGet, h]
  | cons x xs ih =>
    obtain ⟨k₀, v₀⟩ := x
    unfold dictGet at ih ⊢
    by_cases h0 : k₀ = k
    · subst h0
      by_cases h : k₀ = k' <;> simp [dictSet, h]
    · by_cases h : k₀ = k'
      · have h3 : ¬ k = k' := fun e => h0 (h.trans e.symm)
        have h4 : ¬ k' = k := fun e => h3 e.symm
        subst h
        simp only [dictSet, if_false, List.find?_cons, decide_true, h3, h4]
      · simp only [dictSet, h0, if_false, List.find?_cons, h, decide_false]
        exact ih

theorem dictGet_dictUpdate {α : Type} (d e : List (String × α)) (k : String) :
    dictGet (dictUpdate d e) k =
      ((e.reverse.find? (fun kv => kv.1 = k)).map Prod.snd).or (dictGet d k) := by
  unfold dictUpdate
  induction e generalizing d with
  | nil => simp
  | cons x xs ih =>
    simp only [List.foldl_cons, ih, List.reverse_cons, List.find?_append, dictGet_dictSet]
    cases List.find? (fun kv => decide (kv.1 = k)) xs.reverse with
    | some y => simp
    | none =>
      by_cases h : x.1 = k <;> simp [h]

theorem dictSet_new {α : Type} (k : String) (v : α) (d : List (String × α))
    (h : ∀ x ∈ d, x.1 ≠ k) : dictSet k v d = d ++ [(k, v)] := by
  induction d with
  | nil => rfl
  | cons x xs ih =>
    have hx := h x (by simp)
    simp only [dictSet, hx, if_false, List.cons_append]
    rw [ih (fun y hy => h y (by simp [hy]))]

theorem dictUpdate_nil_eq {α : Type} (e : List (String × α)) (h : (e.map Prod.fst).Nodup) :
    dictUpdate [] e = e := by
  have key : ∀ (e d : List (String × α)), ((d ++ e).map Prod.fst).Nodup →
      e.foldl (fun d kv => dictSet kv.1 kv.2 d) d = d ++ e := by
    intro e
    induction e with
    | nil => intro d _; simp
    | cons x xs ih =>
      intro d hd
      simp only [List.foldl_cons]
      rw [dictSet_new, ih]
      · simp
      · simpa using hd
      · intro y hy e
        rw [List.map_append, List.nodup_append] at hd
        exact hd.2.2 y.1 (List.mem_map_of_mem hy) x.1 (by simp) e
  have := key e [] (by simpa using h)
  simpa [dictUpdate] using this

/-- C05: without `all_fields`, a failing chain reports exactly the messages of the
first rejecting modifier; the modifiers after it are not run. -/
theorem chain_validate_first {vs A N P : List (Ops σ)} (h : Staged vs A N P) (c : Ctx)
    (hcfg : c.cfg.allFields ≠ some true) {X Y : List (Ops σ)} {m : Ops σ} (hN : N = X ++ m :: Y)
    {s s₁ s₂ : σ} {msgs : List (String × String)} (hX : Accepts c X s s₁)
    (hm : m.validate c s₁ = (.error (.validation msgs), s₂))
    (hne : msgs ≠ []) (hdict : (msgs.map Prod.fst).Nodup) :
    chainValidate vs c s = (.error (.validation msgs), s₂) := by
  have hl : ∀ {X : List (Ops σ)} {s s₁}, Accepts c X s s₁ →
      m.validate c s₁ = (.error (.validation msgs), s₂) →
      validateLoop c (X ++ m :: Y) [] s = (.ok msgs, s₂) := by
    intro X s s₁ hX hm
    induction hX with
    | nil s =>
      simp only [List.nil_append, validateLoop, hm, hcfg, if_false, dictUpdate_nil_eq msgs hdict]
    | cons hm' _ ih => simp only [List.cons_append, validateLoop, hm']; exact ih hm
  unfold chainValidate
  rw [h.nvs_eq, hN, Py.bind_ok (hl hX hm), raiseMsgs_ne hne]

theorem validateLoop_all {c : Ctx} (hcfg : c.cfg.allFields = some true) {N : List (Ops σ)}
    {s s' : σ} {cs : List (List (String × String))} (h : Complaints c N s cs s')
    (acc : List (String × String)) :
    validateLoop c N acc s = (.ok (cs.foldl dictUpdate acc), s') := by
  induction h generalizing acc with
  | nil s => rfl
  | accept hm _ ih => simp only [validateLoop, hm]; exact ih acc
  | reject hm _ ih => simp only [validateLoop, hm, hcfg, if_true, List.foldl_cons]; exact ih _

theorem foldl_dictUpdate_get (cs : List (List (String × String))) (acc : List (String × String))
    (k : String) : dictGet (cs.foldl dictUpdate acc) k = (lastMsg cs k).or (dictGet acc k) := by
  induction cs generalizing acc with
  | nil => simp [lastMsg]
  | cons x xs ih =>
    rw [List.foldl_cons, ih, dictGet_dictUpdate]
    unfold lastMsg
    simp only [List.flatten_cons, List.reverse_append, List.find?_append]
    cases List.find? (fun kv => decide (kv.1 = k)) xs.flatten.reverse <;> simp

theorem foldl_dictUpdate_nil (cs : List (List (String × String))) (acc : List (String × String)) :
    cs.foldl dictUpdate acc = [] ↔ acc = [] ∧ ∀ c ∈ cs, c = [] := by
  induction cs generalizing acc with
  | nil => simp
  | cons x xs ih =>
    rw [List.foldl_cons, ih]
    constructor
    · rintro ⟨h1, h2⟩
      have : acc = [] ∧ x = [] := by
        by_contra hc
        have : acc ≠ [] ∨ x ≠ [] := by
          by_cases ha : acc = []
          · exact Or.inr (fun hx => hc ⟨ha, hx⟩)
          · exact Or.inl ha
        exact dictUpdate_ne_nil _ _ this h1
      exact ⟨this.1, by simpa using ⟨this.2, h2⟩⟩
    · rintro ⟨rfl, h2⟩
      have hx := h2 x (by simp)
      subst hx
      exact ⟨rfl, fun c hc => h2 c (by simp [hc])⟩

/-- C05: with `all_fields`, all validators of the middle stage run; if at least one
message was produced the chain raises, and the reported map assigns to each key the
last message complained for it, and nothing to any other key. -/
theorem chain_validate_all {vs A N P : List (Ops σ)} (h : Staged vs A N P) (c : Ctx)
    (hcfg : c.cfg.allFields = some true) {s s' : σ} {cs : List (List (String × String))}
    (hc : Complaints c N s cs s') :
    ((∀ x ∈ cs, x = []) ∧ chainValidate vs c s = (.ok (), s')) ∨
    (∃ msgs, chainValidate vs c s = (.error (.validation msgs), s') ∧
      ∀ k, dictGet msgs k = lastMsg cs k) := by
  unfold chainValidate
  rw [h.nvs_eq, Py.bind_ok (validateLoop_all hcfg hc [])]
  by_cases hn : cs.foldl dictUpdate [] = []
  · left
    rw [hn]
    exact ⟨((foldl_dictUpdate_nil cs []).1 hn).2, rfl⟩
  · right
    refine ⟨_, raiseMsgs_ne hn s', ?_⟩
    intro k
    rw [foldl_dictUpdate_get]
    simp [dictGet]

/-! ### C47: the save pipeline -/

/-- Save step of a modifier from the preserialize mark on: produce, validate the
product, store it on the parent object. -/
def saveStep (setParent : Ctx → Val → Py σ Unit) (c : Ctx) (m : Ops σ) (v : Val) : Py σ Val := do
  let r ← m.serialize (c.nval v)
  m.validate (c.nval r)
  setParent (c.nval v) r
  pure r

/-- C47: saving a field runs the serialize step of every modifier once in declaration
order; the ones from the preserialize mark on also validate and store their result
(when no eager mark follows a preserialize mark). -/
theorem chain_serialize_staged (setParent : Ctx → Val → Py σ Unit) {vs A N P : List (Ops σ)}
    (h : Staged vs A N P) (c : Ctx) :
    chainSerialize setParent vs c =
      pipe ((A ++ N).map (fun m v => m.serialize (c.nval v)) ++ P.map (saveStep setParent c))
        c.val := by
  unfold chainSerialize
  rw [h.tvs_eq, h.nvs_eq, h.pvs_eq, reduceM_pipe, pipe_append, List.map_append, pipe_append,
    bind_assoc]
  congr 1
  funext v
  rw [reduceM_pipe]
  congr 1
  funext v
  rw [reduceM_pipe]
  rfl

/-- C47: converting a field to JSON runs the tojson step of every modifier of the
chain, marks notwithstanding, in declaration order. -/
theorem chain_tojson_all (vs : List (Ops σ)) (c : Ctx) :
    chainTojson vs c = pipe (vs.map (fun m v => m.tojson (c.nval v))) c.val := by
  unfold chainTojson
  rw [reduceM_pipe]

/-! ### Non-vacuity: a concrete chain
`[trim-like, nonempty-check, EAGER, positive-check, PRESERIALIZE, stamp]` -/
section Example

/-- rejects every value other than an int, with message `msg` under key `k` -/
def exCheck (k msg : String) : Ops Nat where
  validate := fun c => match c.val with
    | .int n => if n > 0 then pure () else Py.raise (.validation [(k, msg)])
    | _ => Py.raise (.validation [(k, msg)])
/-- adds one to an int -/
def exInc : Ops Nat where
  transform := fun c => match c.val with
    | .int n => pure (.int (n + 1))
    | v => pure v
def exEager : Ops Nat := { isEager := true }
def exPre : Ops Nat := { isPre := true }

def exChain : List (Ops Nat) :=
  [exInc, exCheck "a" "m1", exEager, exInc, exCheck "b" "m2", exPre, exInc]

theorem exStaged : Staged exChain [exInc, exCheck "a" "m1"] [exEager, exInc, exCheck "b" "m2"]
    [exPre, exInc] where
  eq := rfl
  noPre := by simp [exInc, exCheck, exEager]
  preHead := Or.inr ⟨_, _, rfl, rfl⟩
  noEagerAfter := by simp [exInc, exCheck, exPre]
  mark := fun _ => ⟨_, _, rfl, rfl⟩

-- two increments before the preserialize mark, both checks see positive values
example : chainTransform exChain { val := .int 5 } 0 = (.ok (.int 7), 0) := by rfl
-- the eager check rejects
example : chainTransform exChain { val := .int (-5) } 0 = (.error (.validation [("a", "m1")]), 0) := by
  rfl
-- plain validation only sees the second check
example : chainValidate exChain { val := .int 0 } 0 = (.error (.validation [("b", "m2")]), 0) := by
  rfl
example : Accepts (σ := Nat) { val := .int 3 } [exEager, exInc, exCheck "b" "m2"] 0 0 :=
  .cons rfl (.cons rfl (.cons rfl (.nil _)))
example : NonEmptyMsgs (σ := Nat) { val := .int 3 } [exEager, exInc, exCheck "b" "m2"] := by
  intro m hm s s' msgs h
  simp only [List.mem_cons, List.not_mem_nil, or_false] at hm
  rcases hm with rfl | rfl | rfl
  · exact absurd h (by simp [exEager])
  · exact absurd h (by simp [exInc])
  · exact absurd h (by simp [exCheck])
-- an eager mark after a preserialize mark: the check is never run by `validate`
example : chainValidate ([exCheck "a" "m"] ++ exPre :: [exInc] ++ exEager :: [exCheck "b" "m"])
    { val := .int (-1) } 0 = (.ok (), 0) := by rfl
-- two complaints for the same key: the later message wins
example : Complaints (σ := Nat) { val := .int 0, cfg := { allFields := some true } }
    [exCheck "b" "m1", exEager, exCheck "b" "m2"] 0 [[("b", "m1")], [("b", "m2")]] 0 :=
  .reject rfl (.accept rfl (.reject rfl (.nil _)))
example : lastMsg [[("b", "m1")], [("b", "m2")]] "b" = some "m2" := by decide

end Example

end JC
