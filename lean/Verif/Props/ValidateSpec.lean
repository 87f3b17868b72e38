import Verif.Props.Sim

/-
Specification of "this value satisfies its field's validators", used by C20. Nothing
here runs the modelled code: it says what must hold of the stored data.
-/
namespace JC

/-- `m` is one of the modifiers that guard a stored value: no eager mark follows it (or
is it), and no preserialize mark precedes it (or is it). -/
def Checked (ms : List Mod) (m : Mod) : Prop :=
  ∃ a b, ms = a ++ m :: b ∧ (∀ x ∈ m :: b, x.isEagerM = false) ∧ (∀ x ∈ a ++ [m], x.isPreM = false)

/-- The value `c.val`, found at the place described by `c`, satisfies a modifier. `O cls c`
says when an object found where an instance of `cls` is expected is acceptable; a leaf is
an effect free validator. -/
inductive Accepted (O : String → Ctx → Prop) (h : Heap) : Mod → Ctx → Prop
  | eager {c} : Accepted O h .eager c
  | pre {c} : Accepted O h .pre c
  | leaf {l c} : l.validate h c = .ok () → Accepted O h (.leaf l) c
  | listNone {nn sp item c} : c.val = .none → Accepted O h (.listOf nn sp item) c
  | list {nn sp item c xs} : c.val = .list xs →
      (∀ (k : Nat) x, xs[k]? = some x → ∀ m, Checked item m → Accepted O h m (c.colval x (.i k))) →
      Accepted O h (.listOf nn sp item) c
  | dictNone {nn item c} : c.val = .none → Accepted O h (.dictOf nn item) c
  | dict {nn item c kvs} : c.val = .dict kvs →
      (∀ k x, (k, x) ∈ kvs → ∀ m, Checked item m → Accepted O h m (c.colval x (.s k))) →
      Accepted O h (.dictOf nn item) c
  | instNone {cls st c} : c.val = .none → Accepted O h (.instOf cls st) c
  | inst {cls st c} : O cls c → Accepted O h (.instOf cls st) c
  | unionNone {alts c} : c.val = .none → Accepted O h (.union alts) c
  | union {alts a c} : a ∈ alts → (∀ m, Checked a m → Accepted O h m c.alterfdef) →
      Accepted O h (.union alts) c

/-- A larger oracle accepts more. -/
theorem Accepted.mono {O O' : String → Ctx → Prop} {h : Heap} (hO : ∀ cls c, O cls c → O' cls c)
    {m : Mod} {c : Ctx} (ha : Accepted O h m c) : Accepted O' h m c := by
  induction ha with
  | eager => exact .eager
  | pre => exact .pre
  | leaf h => exact .leaf h
  | listNone h => exact .listNone h
  | list h _ ih => exact .list h ih
  | dictNone h => exact .dictNone h
  | dict h _ ih => exact .dict h ih
  | instNone h => exact .instNone h
  | inst h => exact .inst (hO _ _ h)
  | unionNone h => exact .unionNone h
  | union h _ ih => exact .union h ih

/-- The field is validated: every field of a new object; of a persisted object every
field that is not embedded, and the embedded ones with a recorded modification. -/
def MustCheck (o : Obj) (f : Field) : Prop :=
  f.store = .embedded → o.isNew = false → f.name ∈ initialKeypaths o.modFields

/-- The place of field `f` with value `v` of object `j`, itself found at `c`. -/
def fieldCtx (env : Env) (w : World) (c : Ctx) (j : Nat) (f : Field) (v : Val) : Ctx :=
  let ek := match c.owner with
    | some o => (w.cdef env o).outKey f.name
    | none => ""
  if f.ftype = .inst then c.nexto v f.name ek ((w.heap j).cls, f.name)
  else c.nextvo v f.name ek ((w.heap j).cls, f.name) (c.original.getD j)

/-- Object `j`, found at `c`, is fine: each field that must be validated has a value, and
the value satisfies all its guarding modifiers. -/
def ObjOk (env : Env) (w : World) (O : String → Ctx → Prop) (c : Ctx) (j : Nat) : Prop :=
  ∀ f ∈ (w.cdef env j).fields, MustCheck (w.heap j) f →
    ∃ v, w.getattr env j f.name = .ok v ∧
      ∀ m, Checked f.chain m → Accepted O w.heap m (fieldCtx env w c j f v)

/-- Two objects count as the same: identical, or same class and same primary key text. -/
def SameIdentity (env : Env) (w : World) (i j : Nat) : Prop :=
  i = j ∨ ((w.heap i).cls = (w.heap j).cls ∧ w.id env i ≠ .none ∧ w.id env j ≠ .none ∧
    env.pystr (w.id env i) = env.pystr (w.id env j))

/-! ### The stage computed by the code is the specified one -/

theorem firstIdx_some_split {α : Type} {p : α → Bool} {l : List α} {i : Nat} (h : firstIdx p l = some i) :
    ∃ a x b, l = a ++ x :: b ∧ a.length = i ∧ p x = true ∧ ∀ y ∈ a, p y = false := by
  induction l generalizing i with
  | nil => cases h
  | cons y ys ih =>
    simp only [firstIdx] at h
    split at h
    · next hy => cases h; exact ⟨[], y, ys, rfl, rfl, hy, by simp⟩
    · next hy =>
      cases hf : firstIdx p ys with
      | none => rw [hf] at h; cases h
      | some k =>
        rw [hf] at h
        simp only [Option.map_some, Option.some.injEq] at h
        obtain ⟨a, x, b, h1, h2, h3, h4⟩ := ih hf
        refine ⟨y :: a, x, b, by simp [h1], by simp [h2, h], h3, ?_⟩
        intro z hz
        rcases List.mem_cons.1 hz with rfl | hz
        · simpa using hy
        · exact h4 z hz

theorem firstIdx_eq_none {α : Type} {p : α → Bool} {l : List α} (h : firstIdx p l = none) :
    ∀ y ∈ l, p y = false := by
  induction l with
  | nil => simp
  | cons y ys ih =>
    simp only [firstIdx] at h
    split at h
    · cases h
    · next hy =>
      have : firstIdx p ys = none := by cases hf : firstIdx p ys <;> simp_all
      intro z hz
      rcases List.mem_cons.1 hz with rfl | hz
      · simpa using hy
      · exact ih this z hz

theorem lastIdx_eq_none {α : Type} {p : α → Bool} {l : List α} (h : lastIdx p l = none) :
    ∀ y ∈ l, p y = false := by
  induction l with
  | nil => simp
  | cons y ys ih =>
    simp only [lastIdx] at h
    split at h
    · cases h
    · next hn =>
      split at h
      · cases h
      · next hy =>
        intro z hz
        rcases List.mem_cons.1 hz with rfl | hz
        · simpa using hy
        · exact ih hn z hz

theorem lastIdx_some_split {α : Type} {p : α → Bool} {l : List α} {i : Nat} (h : lastIdx p l = some i) :
    ∃ a x b, l = a ++ x :: b ∧ a.length = i ∧ p x = true ∧ ∀ y ∈ b, p y = false := by
  induction l generalizing i with
  | nil => cases h
  | cons y ys ih =>
    simp only [lastIdx] at h
    split at h
    · next k hk =>
      cases h
      obtain ⟨a, x, b, h1, h2, h3, h4⟩ := ih hk
      exact ⟨y :: a, x, b, by simp [h1], by simp [h2], h3, h4⟩
    · next hn =>
      split at h
      · next hy => cases h; exact ⟨[], y, ys, rfl, rfl, hy, lastIdx_eq_none hn⟩
      · cases h

/-- membership in the part before the first element satisfying `p` -/
theorem uptoG_split {α : Type} (p : α → Bool) (l : List α) :
    ∃ b, l = uptoG p l ++ b ∧ (∀ y ∈ uptoG p l, p y = false) ∧ (b = [] ∨ ∃ x b', b = x :: b' ∧ p x = true) := by
  unfold uptoG
  cases h : firstIdx p l with
  | none => exact ⟨[], by simp, firstIdx_eq_none h, .inl rfl⟩
  | some i =>
    obtain ⟨a, x, b, h1, h2, h3, h4⟩ := firstIdx_some_split h
    subst h2
    refine ⟨x :: b, ?_, ?_, .inr ⟨x, b, rfl, h3⟩⟩
    · simp [h1]
    · simpa [h1] using h4

theorem checked_of_mem_nvsM {ms : List Mod} {m : Mod} (h : m ∈ nvsM ms) (he : m.isEagerM = false) :
    Checked ms m := by
  unfold nvsM nvsG at h
  obtain ⟨b, hb, hpre, _⟩ := uptoG_split Mod.isPreM ms
  generalize uptoG Mod.isPreM ms = u at h hb hpre
  split at h
  · next i hi =>
    obtain ⟨a', x, b', h1, h2, h3, h4⟩ := lastIdx_some_split hi
    -- elements of u after position i
    obtain ⟨p, q, hpq⟩ := List.append_of_mem h
    have hu : u = u.take i ++ (p ++ m :: q) := by rw [← hpq, List.take_append_drop]
    refine ⟨u.take i ++ p, q ++ b, by rw [hb]; conv => lhs; rw [hu]
                                      simp, ?_, ?_⟩
    · -- everything after index i in ms is not eager
      have hms : ms = u.take i ++ (p ++ m :: q) ++ b := by rw [← hu]; exact hb
      have hlen : i ≤ u.length := by
        by_contra hc
        rw [List.drop_eq_nil_of_le (by omega)] at h
        cases h
      have htl : (u.take i).length = a'.length := by simp [h2]; omega
      have key : (p ++ m :: q) ++ b = x :: b' := by
        have : u.take i ++ ((p ++ m :: q) ++ b) = a' ++ x :: b' := by
          rw [← List.append_assoc, ← hms, h1]
        exact (List.append_inj this htl).2
      intro y hy
      cases p with
      | nil =>
        simp only [List.nil_append, List.cons_append, List.cons.injEq] at key
        obtain ⟨rfl, rfl⟩ := key
        rcases List.mem_cons.1 hy with rfl | hy
        · exact he
        · exact h4 y hy
      | cons z p =>
        simp only [List.cons_append, List.cons.injEq] at key
        obtain ⟨rfl, hk⟩ := key
        apply h4
        rw [← hk]
        rcases List.mem_cons.1 hy with rfl | hy
        · simp
        · rcases List.mem_append.1 hy with hy | hy <;> simp [hy]
    · intro y hy
      apply hpre
      rw [hu]
      rcases List.mem_append.1 hy with hy | hy
      · rcases List.mem_append.1 hy with hy | hy <;> simp [hy]
      · simp at hy; simp [hy]
  · next hn =>
    have hno := lastIdx_eq_none hn
    obtain ⟨p, q, hpq⟩ := List.append_of_mem h
    refine ⟨p, q ++ b, by rw [hb, hpq]; simp, ?_, ?_⟩
    · intro y hy
      apply hno
      rw [hb, hpq]
      rcases List.mem_cons.1 hy with rfl | hy
      · simp
      · rcases List.mem_append.1 hy with hy | hy <;> simp [hy]
    · intro y hy
      apply hpre
      rw [hpq]
      rcases List.mem_append.1 hy with hy | hy
      · simp [hy]
      · simp at hy; simp [hy]

theorem mem_nvsM_of_checked {ms : List Mod} {m : Mod} (h : Checked ms m) : m ∈ nvsM ms := by
  obtain ⟨a, b, rfl, he, hp⟩ := h
  unfold nvsM nvsG
  have hu : ∃ b', uptoG Mod.isPreM (a ++ m :: b) = a ++ m :: b' := by
    obtain ⟨r, hr, hpre, hcase⟩ := uptoG_split Mod.isPreM (a ++ m :: b)
    rcases hcase with rfl | ⟨x, r', rfl, hx⟩
    · exact ⟨b, by simpa using hr.symm⟩
    · generalize uptoG Mod.isPreM (a ++ m :: b) = u at hr hpre
      rcases List.append_eq_append_iff.1 hr with ⟨c, h1, h2⟩ | ⟨c, h1, h2⟩
      · -- u = a ++ c
        cases c with
        | nil =>
          simp only [List.nil_append, List.cons.injEq] at h2
          have := hp m (by simp)
          rw [h2.1, hx] at this
          cases this
        | cons y c =>
          simp only [List.cons_append, List.cons.injEq] at h2
          exact ⟨c, by rw [h1, h2.1]⟩
      · -- a = u ++ c
        cases c with
        | nil =>
          simp only [List.nil_append, List.cons.injEq] at h2
          have := hp m (by simp)
          rw [← h2.1, hx] at this
          cases this
        | cons y c =>
          simp only [List.cons_append, List.cons.injEq] at h2
          have := hp y (by rw [h1]; simp)
          rw [← h2.1, hx] at this
          cases this
  obtain ⟨b', hu⟩ := hu
  rw [hu]
  split
  · next i hi =>
    obtain ⟨a', x, c, h1, h2, h3, h4⟩ := lastIdx_some_split hi
    have hle : i ≤ a.length := by
      by_contra hc
      have : a.length < a'.length := by omega
      have hx : x ∈ m :: b := by
        have h5 : (a ++ m :: b)[i]? = some x := by rw [h1, ← h2]; simp
        rw [List.getElem?_append_right (by omega)] at h5
        exact List.mem_of_getElem? h5
      rw [he x hx] at h3
      cases h3
    rw [List.drop_append_of_le_length hle]
    simp
  · simp

end JC
