import Verif.Model.ObjEq
import Verif.Props.NewObj
import Verif.Props.Demo

/-
C86: what `==` between objects means. C87: as long as the objects of a class can be told
apart by their leading fields, assignments and list operations do what they would do if
objects were compared by identity.
-/
namespace JC

/-! ### Specification -/

/-- neither a list nor a dict nor an object -/
def Plain : Val → Prop
  | .list _ => False
  | .dict _ => False
  | .obj _ => False
  | _ => True

/-- values that are alike, given which objects are: lists item by item, dicts entry by entry -/
inductive Like (R : Nat → Nat → Prop) : Val → Val → Prop
  | obj {i j} : R i j → Like R (.obj i) (.obj j)
  | list {xs ys} : xs.length = ys.length → (∀ (n : Nat) x y, xs[n]? = some x → ys[n]? = some y → Like R x y) →
      Like R (.list xs) (.list ys)
  | dict {xs ys} (g : String → Val) : xs.length = ys.length → (∀ k x, (k, x) ∈ xs → ys.lookup k = some (g k)) →
      (∀ k x, (k, x) ∈ xs → Like R x (g k)) → Like R (.dict xs) (.dict ys)
  | plain {a b} : Plain a → pyEq a b = true → Like R a b

/-- what a program reads in the field -/
def Reads (w : World) (i : Nat) (f : Field) (x : Val) : Prop :=
  if f.store = .calculated then f.getter w.heap i = .ok x else x = w.attr i f.name

/-- related objects are the same, or two objects of one class with alike values in all fields -/
def Bisim (env : Env) (w : World) (R : Nat → Nat → Prop) : Prop :=
  ∀ i j, R i j → i = j ∨ (i < w.next ∧ j < w.next ∧ (w.heap i).cls = (w.heap j).cls ∧
    ∀ f ∈ (w.cdef env i).fields, ∃ x y, Reads w i f x ∧ Reads w j f y ∧ Like R x y)

/-- no difference between the objects can be found, however far one follows their fields -/
def Alike (env : Env) (w : World) (i j : Nat) : Prop := ∃ R, Bisim env w R ∧ R i j

/-! ### Comparison -/
variable {env : Env} {w : World}

theorem Like.mono {R S : Nat → Nat → Prop} (h : ∀ i j, R i j → S i j) {a b : Val} (hl : Like R a b) : Like S a b := by
  induction hl with
  | obj hr => exact .obj (h _ _ hr)
  | list hl _ ih => exact .list hl ih
  | dict g hl hg _ ih => exact .dict g hl hg ih
  | plain hp he => exact .plain hp he

theorem veq_plain (oe : Nat → Nat → Except Exc Bool) {a : Val} (ha : Plain a) (b : Val) : veq oe a b = .ok (pyEq a b) := by
  cases a <;> first | exact ha.elim | (cases b <;> rfl)

mutual
theorem veq_true {oe : Nat → Nat → Except Exc Bool} : ∀ (a b : Val), veq oe a b = .ok true → Like (fun i j => oe i j = .ok true) a b
  | .list xs, b, h => by
    cases b with
    | list ys =>
      simp only [veq] at h
      split at h
      · rename_i hl; exact .list hl (veqList_true xs ys h)
      · cases h
    | _ => simp [veq, pyEq] at h
  | .dict xs, b, h => by
    cases b with
    | dict ys =>
      simp only [veq] at h
      split at h
      · rename_i hl
        have hd := veqDict_true xs ys h
        refine .dict (fun k => (ys.lookup k).getD .none) hl (fun k x hm => ?_) (fun k x hm => ?_)
        · obtain ⟨y, hy, _⟩ := hd k x hm; simp [hy]
        · obtain ⟨y, hy, hl⟩ := hd k x hm; simpa [hy] using hl
      · cases h
    | _ => simp [veq, pyEq] at h
  | .obj i, b, h => by
    cases b with
    | obj j => exact .obj h
    | _ => simp [veq, pyEq] at h
  | .none, b, h => .plain trivial (by rw [veq_plain _ (by trivial)] at h; exact Except.ok.inj h)
  | .bool _, b, h => .plain trivial (by rw [veq_plain _ (by trivial)] at h; exact Except.ok.inj h)
  | .int _, b, h => .plain trivial (by rw [veq_plain _ (by trivial)] at h; exact Except.ok.inj h)
  | .flt _, b, h => .plain trivial (by rw [veq_plain _ (by trivial)] at h; exact Except.ok.inj h)
  | .str _, b, h => .plain trivial (by rw [veq_plain _ (by trivial)] at h; exact Except.ok.inj h)
  | .date _, b, h => .plain trivial (by rw [veq_plain _ (by trivial)] at h; exact Except.ok.inj h)
  | .dt _, b, h => .plain trivial (by rw [veq_plain _ (by trivial)] at h; exact Except.ok.inj h)
  | .enum _ _, b, h => .plain trivial (by rw [veq_plain _ (by trivial)] at h; exact Except.ok.inj h)
  | .other _, b, h => .plain trivial (by rw [veq_plain _ (by trivial)] at h; exact Except.ok.inj h)
theorem veqList_true {oe : Nat → Nat → Except Exc Bool} : ∀ (xs ys : List Val), veqList oe xs ys = .ok true →
    ∀ (n : Nat) x y, xs[n]? = some x → ys[n]? = some y → Like (fun i j => oe i j = .ok true) x y
  | [], _, _ => by intro n x y hx; simp at hx
  | _ :: _, [], _ => by intro n x y _ hy; simp at hy
  | a :: xs, b :: ys, h => by
    simp only [veqList] at h
    split at h
    · rename_i he
      intro n x y hx hy
      cases n with
      | zero =>
        simp only [List.getElem?_cons_zero, Option.some.injEq] at hx hy
        rw [← hx, ← hy]
        exact veq_true a b he
      | succ n => exact veqList_true xs ys h n x y (by simpa using hx) (by simpa using hy)
    · rename_i hne; exact absurd h (by intro h'; exact hne h')
theorem veqDict_true {oe : Nat → Nat → Except Exc Bool} : ∀ (xs ys : List (String × Val)), veqDict oe xs ys = .ok true →
    ∀ k x, (k, x) ∈ xs → ∃ y, ys.lookup k = some y ∧ Like (fun i j => oe i j = .ok true) x y
  | [], _, _ => by intro k x hx; simp at hx
  | (a, v) :: xs, ys, h => by
    simp only [veqDict] at h
    cases hl : ys.lookup a with
    | none => simp [hl] at h
    | some y =>
      simp only [hl] at h
      split at h
      · rename_i he
        intro k x hx
        rcases List.mem_cons.1 hx with hx | hx
        · obtain ⟨rfl, rfl⟩ := Prod.mk.inj hx
          exact ⟨y, hl, veq_true _ y he⟩
        · exact veqDict_true xs ys h k x hx
      · rename_i hne; exact absurd h (by intro h'; exact hne h')
end

mutual
theorem veq_false {oe : Nat → Nat → Except Exc Bool} {R : Nat → Nat → Prop} (hR : ∀ i j, oe i j = .ok false → ¬ R i j) :
    ∀ (a b : Val), veq oe a b = .ok false → ¬ Like R a b
  | .list xs, b, h => by
    intro hl
    cases hl with
    | list hlen hi =>
      simp only [veq, if_pos hlen] at h
      exact veqList_false hR xs _ hlen h hi
    | plain hp _ => exact hp
  | .dict xs, b, h => by
    intro hl
    cases hl with
    | dict g hlen hg hi =>
      simp only [veq, if_pos hlen] at h
      exact veqDict_false hR xs _ h g hg hi
    | plain hp _ => exact hp
  | .obj i, b, h => by
    intro hl
    cases hl with
    | obj hr => exact hR _ _ h hr
    | plain hp _ => exact hp
  | .none, b, h => by intro hl; rw [veq_plain _ (by trivial)] at h; cases hl with | plain _ he => rw [he] at h; cases h
  | .bool _, b, h => by intro hl; rw [veq_plain _ (by trivial)] at h; cases hl with | plain _ he => rw [he] at h; cases h
  | .int _, b, h => by intro hl; rw [veq_plain _ (by trivial)] at h; cases hl with | plain _ he => rw [he] at h; cases h
  | .flt _, b, h => by intro hl; rw [veq_plain _ (by trivial)] at h; cases hl with | plain _ he => rw [he] at h; cases h
  | .str _, b, h => by intro hl; rw [veq_plain _ (by trivial)] at h; cases hl with | plain _ he => rw [he] at h; cases h
  | .date _, b, h => by intro hl; rw [veq_plain _ (by trivial)] at h; cases hl with | plain _ he => rw [he] at h; cases h
  | .dt _, b, h => by intro hl; rw [veq_plain _ (by trivial)] at h; cases hl with | plain _ he => rw [he] at h; cases h
  | .enum _ _, b, h => by intro hl; rw [veq_plain _ (by trivial)] at h; cases hl with | plain _ he => rw [he] at h; cases h
  | .other _, b, h => by intro hl; rw [veq_plain _ (by trivial)] at h; cases hl with | plain _ he => rw [he] at h; cases h
theorem veqList_false {oe : Nat → Nat → Except Exc Bool} {R : Nat → Nat → Prop} (hR : ∀ i j, oe i j = .ok false → ¬ R i j) :
    ∀ (xs ys : List Val), xs.length = ys.length → veqList oe xs ys = .ok false →
    ¬ ∀ (n : Nat) x y, xs[n]? = some x → ys[n]? = some y → Like R x y
  | [], [], _, h => by cases h
  | [], _ :: _, hl, _ => by cases hl
  | _ :: _, [], hl, _ => by cases hl
  | a :: xs, b :: ys, hl, h => by
    intro hi
    simp only [veqList] at h
    split at h
    · exact veqList_false hR xs ys (by simpa using hl) h (fun n x y hx hy => hi (n + 1) x y (by simpa using hx) (by simpa using hy))
    · exact veq_false hR a b h (hi 0 a b rfl rfl)
theorem veqDict_false {oe : Nat → Nat → Except Exc Bool} {R : Nat → Nat → Prop} (hR : ∀ i j, oe i j = .ok false → ¬ R i j) :
    ∀ (xs ys : List (String × Val)), veqDict oe xs ys = .ok false → ∀ g : String → Val,
    (∀ k x, (k, x) ∈ xs → ys.lookup k = some (g k)) → ¬ ∀ k x, (k, x) ∈ xs → Like R x (g k)
  | [], _, h => by cases h
  | (a, v) :: xs, ys, h => by
    intro g hg hi
    simp only [veqDict, hg a v (by simp)] at h
    split at h
    · exact veqDict_false hR xs ys h g (fun k x hx => hg k x (by simp [hx])) (fun k x hx => hi k x (by simp [hx]))
    · exact veq_false hR v _ h (hi a v (by simp))
end

/-- the tuple of fields holds what a program reads -/
theorem objVals_reads {i : Nat} : ∀ {fs : List Field} {vs : List Val}, objVals w i fs = .ok vs →
    vs.length = fs.length ∧ ∀ (n : Nat) f, fs[n]? = some f → ∃ x, vs[n]? = some x ∧ Reads w i f x
  | [], vs, h => by cases h; exact ⟨rfl, fun n f hf => by simp at hf⟩
  | f :: fs, vs, h => by
    unfold objVals at h
    split at h
    · cases h
    · rename_i v hv
      split at h
      · cases h
      · rename_i us hus
        cases h
        obtain ⟨hl, hr⟩ := objVals_reads hus
        refine ⟨by simp [hl], fun n g hg => ?_⟩
        cases n with
        | zero =>
          simp only [List.getElem?_cons_zero, Option.some.injEq] at hg
          subst hg
          refine ⟨v, rfl, ?_⟩
          unfold Reads
          split at hv
          · rename_i hc; rw [if_pos hc]; exact hv
          · rename_i hc; rw [if_neg hc]; exact (Except.ok.inj hv).symm
        | succ n => simpa using hr n g (by simpa using hg)

theorem Reads.fun {i : Nat} {f : Field} {x y : Val} (hx : Reads w i f x) (hy : Reads w i f y) : x = y := by
  unfold Reads at hx hy
  split at hx
  · rename_i hc; rw [if_pos hc, hx] at hy; exact Except.ok.inj hy
  · rename_i hc; rw [if_neg hc] at hy; rw [hx, hy]

theorem oeq_true {n i j : Nat} (h : oeq env w n i j = .ok true) : Alike env w i j := by
  refine ⟨fun i j => i = j ∨ ∃ n, oeq env w n i j = .ok true, ?_, .inr ⟨n, h⟩⟩
  rintro i j (hij | ⟨n, h⟩)
  · exact .inl hij
  · cases n with
    | zero => cases h
    | succ n =>
      unfold oeq at h
      split at h
      · rename_i hij; exact .inl hij
      · split at h
        · rename_i hc
          split at h
          · rename_i a b ha hb
            refine .inr ⟨hc.1, hc.2.1, hc.2.2, fun f hf => ?_⟩
            obtain ⟨m, hm⟩ := List.getElem?_of_mem hf
            obtain ⟨x, hx, hrx⟩ := (objVals_reads ha).2 m f hm
            obtain ⟨y, hy, hry⟩ := (objVals_reads hb).2 m f hm
            exact ⟨x, y, hrx, hry, (veqList_true _ _ h m x y hx hy).mono (fun _ _ h => .inr ⟨n, h⟩)⟩
          · cases h
          · cases h
        · cases h

theorem oeq_false {R : Nat → Nat → Prop} (hR : Bisim env w R) : ∀ n i j, oeq env w n i j = .ok false → ¬ R i j
  | 0, _, _, h => by cases h
  | n + 1, i, j, h => by
    intro hr
    unfold oeq at h
    rcases hR i j hr with hij | ⟨h1, h2, h3, hf⟩
    · rw [if_pos hij] at h; cases h
    · split at h
      · cases h
      · rw [if_pos ⟨h1, h2, h3⟩] at h
        split at h
        · rename_i a b ha hb
          refine veqList_false (oeq_false hR n) a b ?_ h (fun m x y hx hy => ?_)
          · rw [(objVals_reads ha).1, (objVals_reads hb).1]
          · have hm : m < (w.cdef env i).fields.length := by
              rw [← (objVals_reads ha).1]
              exact (List.getElem?_eq_some_iff.1 hx).1
            have hg : (w.cdef env i).fields[m]? = some ((w.cdef env i).fields[m]) := List.getElem?_eq_getElem hm
            obtain ⟨x', hx', hrx⟩ := (objVals_reads ha).2 m _ hg
            obtain ⟨y', hy', hry⟩ := (objVals_reads hb).2 m _ hg
            obtain ⟨x₂, y₂, hx₂, hy₂, hl⟩ := hf _ (List.getElem_mem hm)
            rw [hx] at hx'; rw [hy] at hy'
            cases hx'; cases hy'
            rw [hrx.fun hx₂, hry.fun hy₂]
            exact hl
        · cases h
        · cases h

/-- **C86, what `==` means.** Whenever the comparison of two values returns, it tells whether
they are alike: the same plain values, in the same places of lists and under the same keys of
dicts, and objects that are the same or of one class with alike values in every field,
calculated ones included, however far one follows the fields. -/
theorem eq_iff_alike {n : Nat} {a b : Val} {r : Bool} (h : deq env n w a b = .ok r) : r = true ↔ Like (Alike env w) a b := by
  cases r with
  | true => exact ⟨fun _ => (veq_true a b h).mono (fun _ _ h => oeq_true h), fun _ => rfl⟩
  | false =>
    refine ⟨fun h => (by cases h), fun hl => absurd hl (veq_false (fun i j hij => ?_) a b h)⟩
    rintro ⟨R, hR, hr⟩
    exact oeq_false hR n i j hij hr

/-- **C86.** The answer does not depend on the recursion limit. -/
theorem eq_limit {m n : Nat} {a b : Val} {r s : Bool} (hr : deq env m w a b = .ok r) (hs : deq env n w a b = .ok s) : r = s := by
  have := (eq_iff_alike hr).trans (eq_iff_alike hs).symm
  cases r <;> cases s <;> simp_all

/-- **C86.** Objects of different classes are never equal, whatever their fields hold. -/
theorem eq_other_class {n i j : Nat} (h : (w.heap i).cls ≠ (w.heap j).cls) : deq env (n + 1) w (.obj i) (.obj j) = .ok false := by
  have hij : i ≠ j := fun e => h (by rw [e])
  simp [deq, veq, oeq, hij, h]

/-- **C86.** An object is equal to itself. -/
theorem eq_self (n i : Nat) : deq env (n + 1) w (.obj i) (.obj i) = .ok true := by simp [deq, veq, oeq]

/-! ### When the comparison returns -/

/-- the object `j` is the value, or somewhere in the lists and dicts it is made of -/
inductive Inside (j : Nat) : Val → Prop
  | obj : Inside j (.obj j)
  | item {x xs} : x ∈ xs → Inside j x → Inside j (.list xs)
  | entry {k x xs} : (k, x) ∈ xs → Inside j x → Inside j (.dict xs)

mutual
theorem veq_returns {oe : Nat → Nat → Except Exc Bool} : ∀ (a b : Val), (∀ i j, Inside i a → ∃ r, oe i j = .ok r) → ∃ r, veq oe a b = .ok r
  | .list xs, b, h => by
    cases b with
    | list ys =>
      simp only [veq]
      split
      · exact veqList_returns xs ys (fun x hx i j hi => h i j (.item hx hi))
      · exact ⟨_, rfl⟩
    | _ => exact ⟨_, rfl⟩
  | .dict xs, b, h => by
    cases b with
    | dict ys =>
      simp only [veq]
      split
      · exact veqDict_returns xs ys (fun k x hx i j hi => h i j (.entry hx hi))
      · exact ⟨_, rfl⟩
    | _ => exact ⟨_, rfl⟩
  | .obj i, b, h => by
    cases b with
    | obj j => exact h i j .obj
    | _ => exact ⟨_, rfl⟩
  | .none, b, _ => ⟨_, veq_plain _ (by trivial) b⟩
  | .bool _, b, _ => ⟨_, veq_plain _ (by trivial) b⟩
  | .int _, b, _ => ⟨_, veq_plain _ (by trivial) b⟩
  | .flt _, b, _ => ⟨_, veq_plain _ (by trivial) b⟩
  | .str _, b, _ => ⟨_, veq_plain _ (by trivial) b⟩
  | .date _, b, _ => ⟨_, veq_plain _ (by trivial) b⟩
  | .dt _, b, _ => ⟨_, veq_plain _ (by trivial) b⟩
  | .enum _ _, b, _ => ⟨_, veq_plain _ (by trivial) b⟩
  | .other _, b, _ => ⟨_, veq_plain _ (by trivial) b⟩
theorem veqList_returns {oe : Nat → Nat → Except Exc Bool} : ∀ (xs ys : List Val),
    (∀ x ∈ xs, ∀ i j, Inside i x → ∃ r, oe i j = .ok r) → ∃ r, veqList oe xs ys = .ok r
  | [], [], _ => ⟨_, rfl⟩
  | [], _ :: _, _ => ⟨_, rfl⟩
  | _ :: _, [], _ => ⟨_, rfl⟩
  | x :: xs, y :: ys, h => by
    obtain ⟨r, hr⟩ := veq_returns x y (h x (by simp))
    simp only [veqList, hr]
    cases r with
    | true => exact veqList_returns xs ys (fun x hx => h x (by simp [hx]))
    | false => exact ⟨_, rfl⟩
theorem veqDict_returns {oe : Nat → Nat → Except Exc Bool} : ∀ (xs ys : List (String × Val)),
    (∀ k x, (k, x) ∈ xs → ∀ i j, Inside i x → ∃ r, oe i j = .ok r) → ∃ r, veqDict oe xs ys = .ok r
  | [], _, _ => ⟨_, rfl⟩
  | (k, x) :: xs, ys, h => by
    simp only [veqDict]
    cases ys.lookup k with
    | none => exact ⟨_, rfl⟩
    | some y =>
      obtain ⟨r, hr⟩ := veq_returns x y (h k x (by simp))
      simp only [hr]
      cases r with
      | true => exact veqDict_returns xs ys (fun k x hx => h k x (by simp [hx]))
      | false => exact ⟨_, rfl⟩
end

theorem objVals_returns {i : Nat} : ∀ {fs : List Field}, (∀ f ∈ fs, ∃ x, Reads w i f x) → ∃ vs, objVals w i fs = .ok vs
  | [], _ => ⟨_, rfl⟩
  | f :: fs, h => by
    obtain ⟨vs, hvs⟩ := objVals_returns (fs := fs) (fun g hg => h g (by simp [hg]))
    obtain ⟨x, hx⟩ := h f (by simp)
    unfold objVals
    unfold Reads at hx
    split at hx
    · rename_i hc; simp [hc, hx, hvs]
    · rename_i hc; simp [hc, hvs]

/-- **C86, when the comparison returns.** If all getters return and no chain of fields leads
back to where it started (`rank` decreases from an object to the objects its fields hold), then
comparing an object with anything returns. -/
theorem eq_returns {rank : Nat → Nat} (hg : ∀ i < w.next, ∀ f ∈ (w.cdef env i).fields, ∃ x, Reads w i f x)
    (hr : ∀ i < w.next, ∀ f ∈ (w.cdef env i).fields, ∀ x, Reads w i f x → ∀ j, Inside j x → rank j < rank i) :
    ∀ {n i : Nat}, rank i < n → ∀ b, ∃ r, deq env n w (.obj i) b = .ok r := by
  intro n
  induction n with
  | zero => intro i h; cases h
  | succ n ih =>
    intro i hi b
    cases b with
    | obj j =>
      show ∃ r, oeq env w (n + 1) i j = .ok r
      unfold oeq
      split
      · exact ⟨_, rfl⟩
      · split
        · rename_i hc
          obtain ⟨a, ha⟩ := objVals_returns (hg i hc.1)
          obtain ⟨b, hb⟩ := objVals_returns (w := w) (i := j) (fs := (w.cdef env i).fields)
            (by unfold World.cdef; rw [hc.2.2]; exact hg j hc.2.1)
          simp only [ha, hb]
          refine veqList_returns a b (fun x hx k l hk => ?_)
          obtain ⟨m, hm⟩ := List.getElem?_of_mem hx
          have hlt : m < (w.cdef env i).fields.length := by
            rw [← (objVals_reads ha).1]
            exact (List.getElem?_eq_some_iff.1 hm).1
          obtain ⟨x', hx', hrd⟩ := (objVals_reads ha).2 m _ (List.getElem?_eq_getElem hlt)
          rw [hm] at hx'
          cases hx'
          have := hr i hc.1 _ (List.getElem_mem hlt) x hrd k hk
          exact ih (Nat.lt_of_lt_of_le this (Nat.le_of_lt_succ hi)) (.obj l)
        · exact ⟨_, rfl⟩
    | _ => exact ⟨_, rfl⟩

/-! ### Telling objects apart -/

/-- Some leading fields of each class: stored values that linking does not write. The getters
of calculated fields return. -/
structure Leading (env : Env) (K : String → List Field) : Prop where
  first : ∀ c, K c <+: (env.cls c).fields
  stored : ∀ c f, f ∈ K c → f.store ≠ .calculated
  norel : ∀ c f, f ∈ K c → ¬ RelName env f.name
  getters : ∀ c f, f ∈ (env.cls c).fields → f.store = .calculated → ∀ h i, ∃ x, f.getter h i = .ok x

/-- any two objects of one class differ in one of its leading fields, which hold plain values -/
def ToldApart (K : String → List Field) (w : World) : Prop :=
  (∀ i < w.next, ∀ f ∈ K (w.heap i).cls, Plain (w.attr i f.name)) ∧
  ∀ i < w.next, ∀ j < w.next, i ≠ j → (w.heap i).cls = (w.heap j).cls →
    ∃ f ∈ K (w.heap i).cls, pyEq (w.attr i f.name) (w.attr j f.name) = false

variable {K : String → List Field}

theorem veqList_differ (oe : Nat → Nat → Except Exc Bool) (g h : Field → Val) : ∀ (fs : List Field) (xs ys : List Val),
    (∀ f ∈ fs, Plain (g f)) → (∃ f ∈ fs, pyEq (g f) (h f) = false) →
    veqList oe (fs.map g ++ xs) (fs.map h ++ ys) = .ok false
  | [], _, _, _, hd => by obtain ⟨f, hf, _⟩ := hd; cases hf
  | f :: fs, xs, ys, hp, hd => by
    simp only [List.map_cons, List.cons_append, veqList, veq_plain oe (hp f (by simp))]
    cases he : pyEq (g f) (h f) with
    | false => rfl
    | true =>
      refine veqList_differ oe g h fs xs ys (fun k hk => hp k (by simp [hk])) ?_
      obtain ⟨k, hk, hne⟩ := hd
      rcases List.mem_cons.1 hk with rfl | hk
      · rw [he] at hne; cases hne
      · exact ⟨k, hk, hne⟩

theorem objVals_append {i : Nat} : ∀ (fs gs : List Field) {vs : List Val}, (∀ f ∈ fs, f.store ≠ .calculated) →
    objVals w i gs = .ok vs → objVals w i (fs ++ gs) = .ok (fs.map (fun f => w.attr i f.name) ++ vs)
  | [], _, _, _, h => h
  | f :: fs, gs, vs, hs, h => by
    have := objVals_append fs gs (fun g hg => hs g (by simp [hg])) h
    simp [objVals, hs f (by simp), this]

theorem oeq_told (L : Leading env K) (hw : ToldApart K w) (n i j : Nat) : oeq env w (n + 1) i j = .ok (decide (i = j)) := by
  unfold oeq
  split
  · rename_i h; simp [h]
  · rename_i hij
    rw [decide_eq_false hij]
    split
    · rename_i hc
      obtain ⟨gs, hgs⟩ := L.first (w.heap i).cls
      have hfs : (w.cdef env i).fields = K (w.heap i).cls ++ gs := hgs.symm
      have ret : ∀ k, ∃ vs, objVals w k gs = .ok vs := by
        intro k
        refine objVals_returns (fun f hf => ?_)
        unfold Reads
        split
        · rename_i hs
          exact L.getters (w.heap i).cls f (by rw [← hgs]; simp [hf]) hs _ _
        · exact ⟨_, rfl⟩
      obtain ⟨a, ha⟩ := ret i
      obtain ⟨b, hb⟩ := ret j
      rw [hfs, objVals_append _ _ (L.stored _) ha, objVals_append _ _ (L.stored _) hb]
      exact veqList_differ _ _ _ _ _ _ (hw.1 i hc.1) (hw.2 i hc.1 j hc.2.1 hij hc.2.2)
    · rfl

mutual
theorem veq_ident {oe : Nat → Nat → Except Exc Bool} (h : ∀ i j, oe i j = .ok (decide (i = j))) : ∀ (a b : Val), veq oe a b = .ok (pyEq a b)
  | .list xs, b => by
    cases b with
    | list ys =>
      simp only [veq, pyEq]
      split
      · exact veqList_ident h xs ys
      · rename_i hl; rw [pyEqList_short xs ys hl]
    | _ => rfl
  | .dict xs, b => by
    cases b with
    | dict ys =>
      simp only [veq, pyEq]
      split
      · rename_i hl; simp [hl, veqDict_ident h xs ys]
      · rename_i hl; simp [hl]
    | _ => rfl
  | .obj i, b => by
    cases b with
    | obj j =>
      simp only [veq, pyEq, h]
      by_cases hij : i = j <;> simp [hij]
    | _ => rfl
  | .none, b => veq_plain _ (by trivial) b
  | .bool _, b => veq_plain _ (by trivial) b
  | .int _, b => veq_plain _ (by trivial) b
  | .flt _, b => veq_plain _ (by trivial) b
  | .str _, b => veq_plain _ (by trivial) b
  | .date _, b => veq_plain _ (by trivial) b
  | .dt _, b => veq_plain _ (by trivial) b
  | .enum _ _, b => veq_plain _ (by trivial) b
  | .other _, b => veq_plain _ (by trivial) b
theorem veqList_ident {oe : Nat → Nat → Except Exc Bool} (h : ∀ i j, oe i j = .ok (decide (i = j))) : ∀ (xs ys : List Val),
    veqList oe xs ys = .ok (pyEqList xs ys)
  | [], [] => rfl
  | [], _ :: _ => rfl
  | _ :: _, [] => rfl
  | x :: xs, y :: ys => by
    simp only [veqList, pyEqList, veq_ident h x y]
    cases pyEq x y with
    | true => simpa using veqList_ident h xs ys
    | false => rfl
theorem veqDict_ident {oe : Nat → Nat → Except Exc Bool} (h : ∀ i j, oe i j = .ok (decide (i = j))) : ∀ (xs ys : List (String × Val)),
    veqDict oe xs ys = .ok (pyEqDict xs ys)
  | [], _ => rfl
  | (k, x) :: xs, ys => by
    simp only [veqDict, pyEqDict]
    cases ys.lookup k with
    | none => rfl
    | some y =>
      simp only [veq_ident h x y]
      cases pyEq x y with
      | true => simpa using veqDict_ident h xs ys
      | false => rfl
theorem pyEqList_short : ∀ (xs ys : List Val), xs.length ≠ ys.length → pyEqList xs ys = false
  | [], [], h => absurd rfl h
  | [], _ :: _, _ => rfl
  | _ :: _, [], _ => rfl
  | x :: xs, y :: ys, h => by
    simp only [pyEqList, pyEqList_short xs ys (by simpa using h), Bool.and_false]
end

/-- **C87, `==` is identity.** While any two objects of one class differ in a leading field,
`==` between any two values returns, and tells objects apart exactly if they are not the same. -/
theorem eq_is_identity (L : Leading env K) (hw : ToldApart K w) (n : Nat) (a b : Val) : deq env (n + 1) w a b = .ok (pyEq a b) :=
  veq_ident (oeq_told L hw n) a b

/-! ### Agreement of the two ways of comparing -/

/-- the computations do the same wherever `I` holds -/
def Agree (I : World → Prop) {α : Type} (m m' : Py World α) : Prop := ∀ w, I w → m w = m' w

section Agreement
variable {I : World → Prop} {α β : Type} {eq : World → Val → Val → Except Exc Bool}

theorem Agree.refl (m : Py World α) : Agree I m m := fun _ _ => rfl

theorem Agree.bind {m m' : Py World α} {f f' : α → Py World β} {Q : α → Prop} (hm : Agree I m m') (hk : Kp I m' Q)
    (hf : ∀ a, Q a → Agree I (f a) (f' a)) : Agree I (m >>= f) (m' >>= f') := by
  intro w hw
  rw [Py.bind_run, Py.bind_run, hm w hw]
  obtain ⟨h1, h2⟩ := hk w hw
  rcases h : m' w with ⟨e | a, w'⟩
  · rfl
  · rw [h] at h1 h2
    exact hf a (h2 a rfl) w' h1

theorem Agree.bind' {m m' : Py World α} {f f' : α → Py World β} (hm : Agree I m m') (hk : Kp' I m')
    (hf : ∀ a, Agree I (f a) (f' a)) : Agree I (m >>= f) (m' >>= f') := hm.bind hk (fun a _ => hf a)

/-- the same first step -/
theorem Agree.then {m : Py World α} {f f' : α → Py World β} (hk : Kp' I m)
    (hf : ∀ a, Agree I (f a) (f' a)) : Agree I (m >>= f) (m >>= f') := (Agree.refl m).bind' hk hf

theorem Agree.got {f f' : World → Py World β} (hf : ∀ w, I w → Agree I (f w) (f' w)) : Agree I (Py.get >>= f) (Py.get >>= f') :=
  (Agree.refl _).bind Kp.get hf

theorem read_then {f : World → Except Exc α} {g : α → Py World β} {b : α} {w : World} (h : f w = .ok b) : (readW f >>= g) w = g b w := by
  have : readW f w = (.ok b, w) := by simp only [readW, h]
  rw [Py.bind_run, this]

theorem Agree.look {f : World → Except Exc α} {g : α → Py World β} {m : Py World β} {b : α} (h : ∀ w, I w → f w = .ok b)
    (hg : Agree I (g b) m) : Agree I (readW f >>= g) m := by
  intro w hw
  rw [read_then (h w hw)]
  exact hg w hw

variable (hE : ∀ w, I w → ∀ a b, eq w a b = .ok (pyEq a b))
include hE

theorem inE_eq {w : World} (hw : I w) (v : Val) : ∀ xs, inE eq w v xs = .ok (pyIn v xs)
  | [] => rfl
  | x :: xs => by
    simp only [inE, hE w hw, pyIn, List.any_cons]
    cases pyEq x v with
    | true => rfl
    | false => simpa [pyIn] using inE_eq hw v xs

theorem removeE_eq {w : World} (hw : I w) (v : Val) : ∀ xs, removeE eq w v xs = .ok (listRemove v xs)
  | [] => rfl
  | x :: xs => by
    simp only [removeE, hE w hw, listRemove]
    cases pyEq x v with
    | true => rfl
    | false => simp [removeE_eq hw v xs]

theorem ag_addUnlinked (i : Nat) (n : String) (v : Val) : Agree I (addUnlinkedE eq i n v) (addUnlinked i n v) := by
  intro w hw
  unfold addUnlinkedE
  rw [read_then (inE_eq hE hw v _)]
  rfl

theorem ag_delUnlinked (i : Nat) (n : String) (v : Val) : Agree I (delUnlinkedE eq i n v) (delUnlinked i n v) := by
  intro w hw
  unfold delUnlinkedE
  rw [read_then (removeE_eq hE hw v _)]
  rfl

variable (C : LinkClosed env I)
include C

theorem ag_listRemoveAttr {run run' : UCmd → Py World Unit} (hrun : ∀ c, c.Ok env → Agree I (run c) (run' c))
    {i : Nat} {n : String} {v : Val} (hn : RelName env n) : Agree I (listRemoveAttrE env eq run i n v) (listRemoveAttr env run' i n v) := by
  unfold listRemoveAttrE listRemoveAttr
  refine Agree.got (fun w _ => ?_)
  cases w.attr i n with
  | list xs =>
    refine Agree.then (kp_willChange C _ _ hn) (fun _ => Agree.look (b := listRemove v xs) (fun w hw => removeE_eq hE hw v xs) ?_)
    cases listRemove v xs with
    | none => exact Agree.refl _
    | some ys => exact Agree.then (Kp.rawRel C hn) (fun _ => hrun (.del _ _ _) trivial)
  | _ => exact Agree.refl _

theorem ag_unlinkOther {run run' : UCmd → Py World Unit} (hrun : ∀ c, c.Ok env → Agree I (run c) (run' c))
    (hkp : ∀ c, c.Ok env → Kp' I (run' c)) {f of : Field} (hf : RelField env f) (ho : env.foreignField f = some of) (i : Nat) (item : Val) :
    Agree I (unlinkOtherE env eq run i of item) (unlinkOther env run' i of item) := by
  have hn := relName_foreign hf ho
  unfold unlinkOtherE unlinkOther
  cases item with
  | obj j =>
    refine Agree.got (fun w _ => ?_)
    cases of.ftype with
    | inst =>
      simp only []
      split
      · exact Agree.then (Kp.rawRel C hn) (fun _ => Agree.then (kp_unlinkKey C (foreignField_mem ho) j) (fun _ => ag_addUnlinked hE _ _ _))
      · exact Agree.refl _
    | list =>
      simp only []
      cases w.attr j of.name with
      | list xs =>
        refine Agree.look (b := pyIn (.obj i) xs) (fun w hw => inE_eq hE hw _ xs) ?_
        simp only []
        split
        · exact (ag_listRemoveAttr hE C hrun hn).bind' (kp_listRemoveAttr C hkp hn) (fun _ => ag_addUnlinked hE _ _ _)
        · exact Agree.refl _
      | _ => exact Agree.refl _
    | _ => exact Agree.refl _
  | _ => exact Agree.refl _

omit hE C in
theorem ag_forItems {body body' : Val → Py World Unit} (h : ∀ x, Agree I (body x) (body' x)) (hk : ∀ x, Kp' I (body' x)) (xs : List Val) :
    Agree I (forItems xs body) (forItems xs body') := by
  induction xs with
  | nil => exact Agree.refl _
  | cons x xs ih => exact (h x).bind' (hk x) (fun _ => ih)

theorem ag_unlinkBody {run run' : UCmd → Py World Unit} (hrun : ∀ c, c.Ok env → Agree I (run c) (run' c))
    (hkp : ∀ c, c.Ok env → Kp' I (run' c)) {f : Field} (hf : RelField env f) (i : Nat) (v : Val) :
    Agree I (unlinkBodyE env eq run i f v) (unlinkBody env run' i f v) := by
  unfold unlinkBodyE unlinkBody
  cases ho : env.foreignField f with
  | none =>
    simp only []
    cases linkItems f v with
    | nil => exact Agree.refl _
    | cons x xs => exact ag_addUnlinked hE _ _ _
  | some of =>
    exact ag_forItems (fun x => (ag_addUnlinked hE _ _ _).bind' (kp_addUnlinked C _ _ _) (fun _ => ag_unlinkOther hE C hrun hkp hf ho i x))
      (fun x => (kp_addUnlinked C _ _ _).bind' (fun _ => kp_unlinkOther C hkp hf ho i x)) _

theorem ag_delBody {run run' : UCmd → Py World Unit} (hrun : ∀ c, c.Ok env → Agree I (run c) (run' c))
    (hkp : ∀ c, c.Ok env → Kp' I (run' c)) (i : Nat) (path : String) (v : Val) :
    Agree I (delBodyE env eq run i path v) (delBody env run' i path v) := by
  unfold delBodyE delBody
  refine Agree.got (fun w _ => ?_)
  cases hl : (w.cdef env i).localKey? path with
  | some f =>
    obtain ⟨hm, hs, _⟩ := localKey_mem hl
    simp only []
    unfold delLocalE delLocal
    refine Agree.then (kp_markLocalKey C _ _) (fun _ => Agree.got (fun w' _ => ?_))
    cases w'.attr i f.name with
    | list xs =>
      refine Agree.then Kp.read' (fun n => ?_)
      split
      · refine Agree.then Kp.read' (fun m => ?_)
        cases m with
        | some x => exact ag_listRemoveAttr hE C hrun (relName_self ⟨_, hm, isRef_localKey hs⟩)
        | none => exact Agree.refl _
      · exact Agree.refl _
    | _ => exact Agree.refl _
  | none =>
    simp only []
    unfold delRefE delRef
    cases hf : (w.cdef env i).field? path with
    | none => exact Agree.refl _
    | some f =>
      obtain ⟨hm, _⟩ := field_mem hf
      simp only []
      split
      · rename_i hr
        have hu : RelField env f := ⟨_, hm, hr⟩
        have h1 : Agree I (delKeyE env eq run i f path v) (delKey env run' i f path v) := by
          unfold delKeyE delKey
          split
          · refine Agree.got (fun w' _ => ?_)
            cases w'.attr i f.refName with
            | list ks =>
              refine Agree.then Kp.read' (fun n => ?_)
              split
              · refine Agree.then Kp.read' (fun k => Agree.look (b := pyIn k ks) (fun w hw => inE_eq hE hw _ ks) ?_)
                split
                · exact ag_listRemoveAttr hE C hrun (relName_ref hm)
                · exact Agree.refl _
              · exact Agree.refl _
            | _ => exact Agree.refl _
          · exact Agree.refl _
        have k1 : Kp' I (delKey env run' i f path v) := by
          unfold delKey
          split
          · refine Kp.get.bind (fun w' _ => ?_)
            cases w'.attr i f.refName with
            | list ks =>
              refine Kp.read'.bind' (fun n => ?_)
              split
              · refine Kp.read'.bind' (fun k => ?_)
                split
                · exact kp_listRemoveAttr C hkp (relName_ref hm)
                · exact Kp.pure' ()
              · exact Kp.pure' ()
            | _ => exact Kp.raise _
          · exact Kp.pure' ()
        exact Agree.bind' ((hrun (.unlink _ _ _) hu).bind' (hkp (.unlink _ _ _) hu) (fun _ => h1))
          ((hkp (.unlink _ _ _) hu).bind' (fun _ => k1)) (fun _ => Agree.refl _)
      · exact Agree.refl _

theorem ag_runU : ∀ (n : Nat) (c : UCmd), c.Ok env → Agree I (runUE env eq n c) (runU env n c) := by
  intro n
  induction n with
  | zero => intro c _; exact Agree.refl _
  | succ n ih =>
    intro c hc
    cases c with
    | unlink i f v => exact ag_unlinkBody hE C ih (kp_runU C n) hc i v
    | del i p v => exact ag_delBody hE C ih (kp_runU C n) i p v

theorem ag_linkSide {run run' : LCmd → Py World Unit} (hrun : ∀ c, c.Ok env → Agree I (run c) (run' c))
    (hkp : ∀ c, c.Ok env → Kp' I (run' c)) {of : Field} (hn : RelName env of.name) (i j : Nat) :
    Agree I (linkSideE env eq run i of j) (linkSide env run' i of j) := by
  have ha : Agree I (listAppendAttr env run j of.name (.obj i)) (listAppendAttr env run' j of.name (.obj i)) := by
    unfold listAppendAttr
    refine Agree.got (fun w _ => ?_)
    cases w.attr j of.name with
    | list xs => exact Agree.then (kp_willChange C _ _ hn) (fun _ => Agree.then (Kp.rawRel C hn) (fun _ => hrun (.add _ _ _ _) trivial))
    | _ => exact Agree.refl _
  have hs : ∀ v, Agree I (run (.set j of.name v) >>= fun _ => delUnlinkedE eq j of.name (.obj i))
      (run' (.set j of.name v) >>= fun _ => delUnlinked j of.name (.obj i)) :=
    fun v => (hrun (.set _ _ _) hn).bind' (hkp (.set _ _ _) hn) (fun _ => ag_delUnlinked hE _ _ _)
  unfold linkSideE linkSide
  refine Agree.got (fun w _ => ?_)
  cases of.ftype with
  | inst =>
    refine Agree.look (b := pyEq (w.attr j of.name) (.obj i)) (fun w' hw' => hE w' hw' _ _) ?_
    simp only []
    split
    · exact Agree.refl _
    · exact hs _
  | list =>
    simp only []
    cases w.attr j of.name with
    | list xs =>
      refine Agree.look (b := pyIn (.obj i) xs) (fun w hw => inE_eq hE hw _ xs) ?_
      simp only []
      split
      · exact Agree.refl _
      · exact ha.bind' (kp_listAppendAttr C hkp hn) (fun _ => ag_delUnlinked hE _ _ _)
    | _ => exact hs _
  | _ => exact Agree.refl _

theorem ag_linkBody {run run' : LCmd → Py World Unit} (hrun : ∀ c, c.Ok env → Agree I (run c) (run' c))
    (hkp : ∀ c, c.Ok env → Kp' I (run' c)) {f : Field} (hf : RelField env f) (i : Nat) (v : Val) :
    Agree I (linkBodyE env eq run i f v) (linkBody env run' i f v) := by
  unfold linkBodyE linkBody
  cases ho : env.foreignField f with
  | none =>
    simp only []
    cases linkItems f v with
    | nil => exact Agree.refl _
    | cons x xs => exact ag_delUnlinked hE _ _ _
  | some of =>
    refine ag_forItems (fun x => (ag_delUnlinked hE _ _ _).bind' (kp_delUnlinked C _ _ _) (fun _ => ?_))
      (fun x => (kp_delUnlinked C _ _ _).bind' (fun _ => ?_)) _
    · unfold linkOtherE linkOther
      cases x with
      | obj j => exact Agree.bind' (ag_linkSide hE C hrun hkp (relName_foreign hf ho) i j) (kp_linkSide C hkp (relName_foreign hf ho) i j) (fun _ => Agree.refl _)
      | _ => exact Agree.refl _
    · unfold linkOther
      cases x with
      | obj j => exact (kp_linkSide C hkp (relName_foreign hf ho) i j).bind' (fun _ => kp_linkGraph C i j)
      | _ => exact Kp.raise _

omit hE in
theorem ag_addRef {run run' : LCmd → Py World Unit} (hrun : ∀ c, c.Ok env → Agree I (run c) (run' c))
    (hkp : ∀ c, c.Ok env → Kp' I (run' c)) {w : World} (i : Nat) (path : String) (idx : Int) (v : Val) :
    Agree I (addRef env run i ((w.cdef env i).field? path) path idx v) (addRef env run' i ((w.cdef env i).field? path) path idx v) ∧
    Kp' I (addRef env run' i ((w.cdef env i).field? path) path idx v) := by
  unfold addRef
  cases hf : (w.cdef env i).field? path with
  | none => exact ⟨Agree.refl _, Kp.pure' ()⟩
  | some f =>
    obtain ⟨hm, _⟩ := field_mem hf
    simp only []
    split
    · rename_i hr
      have hl : RelField env f := ⟨_, hm, hr⟩
      have hk : Agree I (addKey env run i f path idx v) (addKey env run' i f path idx v) ∧ Kp' I (addKey env run' i f path idx v) := by
        unfold addKey
        split
        · constructor
          · refine Agree.got (fun w' _ => ?_)
            cases w'.attr i f.refName with
            | list ks =>
              refine Agree.then Kp.read' (fun n => ?_)
              split
              · refine Agree.then Kp.read' (fun k => ?_)
                split
                · exact Agree.refl _
                · exact Agree.then (Kp.rawRel C (relName_ref hm)) (fun _ => hrun (.add _ _ _ _) trivial)
              · exact Agree.refl _
            | _ => exact Agree.refl _
          · refine Kp.get.bind (fun w' _ => ?_)
            cases w'.attr i f.refName with
            | list ks =>
              refine Kp.read'.bind' (fun n => ?_)
              split
              · refine Kp.read'.bind' (fun k => ?_)
                split
                · exact Kp.raise _
                · exact (Kp.rawRel C (relName_ref hm)).bind' (fun _ => hkp (.add _ _ _ _) trivial)
              · exact Kp.pure' ()
            | _ => exact Kp.raise _
        · exact ⟨Agree.refl _, Kp.pure' ()⟩
      exact ⟨(hrun (.link _ _ _) hl).bind' (hkp (.link _ _ _) hl) (fun _ => hk.1), (hkp (.link _ _ _) hl).bind' (fun _ => hk.2)⟩
    · exact ⟨Agree.refl _, Kp.pure' ()⟩

theorem ag_addBody {run run' : LCmd → Py World Unit} (hrun : ∀ c, c.Ok env → Agree I (run c) (run' c))
    (hkp : ∀ c, c.Ok env → Kp' I (run' c)) (i : Nat) (path : String) (idx : Int) (v : Val) :
    Agree I (addBodyE env eq run i path idx v) (addBody env run' i path idx v) := by
  unfold addBodyE addBody
  refine Agree.got (fun w _ => ?_)
  cases hl : (w.cdef env i).localKey? path with
  | some f => exact Agree.refl _
  | none =>
    obtain ⟨h1, h2⟩ := ag_addRef C hrun hkp (w := w) i path idx v
    refine h1.bind' h2 (fun _ => ?_)
    unfold addTailE addTail
    cases v with
    | list xs => exact (ag_runU hE C _ (.del ..) trivial).bind' (kp_runU C _ (.del ..) trivial) (fun _ => hrun (.add _ _ _ _) trivial)
    | dict xs => exact (ag_runU hE C _ (.del ..) trivial).bind' (kp_runU C _ (.del ..) trivial) (fun _ => hrun (.add _ _ _ _) trivial)
    | _ => exact Agree.refl _

theorem ag_setBody {run run' : LCmd → Py World Unit} (hrun : ∀ c, c.Ok env → Agree I (run c) (run' c))
    {i : Nat} {n : String} {v : Val} :
    Agree I (setBodyE env eq run i n v) (setBody env run' i n v) := by
  unfold setBodyE setBody
  refine Agree.got (fun w _ => ?_)
  cases hf : (w.cdef env i).field? n with
  | none => exact Agree.refl _
  | some f =>
    obtain ⟨hm, hnm⟩ := field_mem hf
    simp only []
    split
    · exact Agree.refl _
    · refine Agree.look (b := pyEq v (w.attr i n)) (fun w' hw' => hE w' hw' _ _) ?_
      split
      · exact Agree.refl _
      · refine Agree.then (kp_track C _ _) (fun _ => ?_)
        split
        · rename_i hr
          have hl : RelField env f := ⟨_, hm, hr⟩
          have hn : RelName env n := hnm ▸ relName_self hl
          exact (ag_runU hE C _ (.unlink _ _ _) hl).bind' (kp_runU C _ (.unlink _ _ _) hl) (fun _ =>
            Agree.then (Kp.rawRel C hn) (fun _ => Agree.then (kp_syncKey C (relName_ref hm) i v) (fun _ => hrun (.link _ _ _) hl)))
        · exact Agree.refl _

theorem ag_runL : ∀ (n : Nat) (c : LCmd), Agree I (runLE env eq n c) (runL env n c) ∨ ¬ c.Ok env := by
  intro n
  induction n with
  | zero => intro c; exact .inl (Agree.refl _)
  | succ n ih =>
    have ih' : ∀ c, c.Ok env → Agree I (runLE env eq n c) (runL env n c) := fun c hc => (ih c).resolve_right (fun h => h hc)
    intro c
    by_cases hc : c.Ok env
    · left
      cases c with
      | link i f v => exact ag_linkBody hE C ih' (kp_runL C n) hc i v
      | add i p k v => exact ag_addBody hE C ih' (kp_runL C n) i p k v
      | set i m v => exact ag_setBody hE C ih'
    · exact .inr hc

theorem ag_runL' (n : Nat) {c : LCmd} (hc : c.Ok env) : Agree I (runLE env eq n c) (runL env n c) :=
  (ag_runL hE C n c).resolve_right (fun h => h hc)

theorem ag_setField (i : Nat) (n : String) (v : Val) : Agree I (setFieldE env eq i n v) (setField env i n v) := by
  unfold setFieldE setField
  cases env.fuel with
  | zero => exact Agree.refl _
  | succ m => exact ag_setBody hE C (fun c hc => ag_runL' hE C m hc)

theorem ag_setAttr (i : Nat) (n : String) (v : Val) : Agree I (setAttrE env eq i n v) (setAttr env i n v) := by
  unfold setAttrE setAttr
  refine Agree.got (fun w _ => ?_)
  cases hl : (w.cdef env i).localKey? n with
  | none => exact ag_setField hE C i n v
  | some f =>
    obtain ⟨hm, hs, _⟩ := localKey_mem hl
    have hr := relName_ref hm
    have hs' : RelName env f.name := relName_self ⟨_, hm, isRef_localKey hs⟩
    simp only []
    unfold setLocalKeyE setLocalKey
    refine Agree.got (fun w' _ => Agree.look (b := pyEq v (w'.attr i f.refName)) (fun w'' hw'' => hE w'' hw'' _ _) ?_)
    split
    · exact Agree.refl _
    · refine Agree.bind' (m' := setLocalKeyField env i f v) ?_ ?_ (fun _ => Agree.refl _)
      · unfold setLocalKeyFieldE setLocalKeyField
        cases f.ftype with
        | inst => exact Agree.then (Kp.rawRel C hr) (fun _ => ag_setField hE C _ _ _)
        | list =>
          cases v with
          | none => exact Agree.then (Kp.rawRel C hr) (fun _ => ag_setField hE C _ _ _)
          | list ks => exact Agree.then (Kp.rawRel C hr) (fun _ => Agree.then Kp.read' (fun xs => ag_setField hE C _ _ _))
          | _ => exact Agree.refl _
        | _ => exact Agree.refl _
      · unfold setLocalKeyField
        cases f.ftype with
        | inst => exact (Kp.rawRel C hr).bind' (fun _ => kp_setField C (Kp.rawRel C hs'))
        | list =>
          cases v with
          | none => exact (Kp.rawRel C hr).bind' (fun _ => kp_setField C (Kp.rawRel C hs'))
          | list ks => exact (Kp.rawRel C hr).bind' (fun _ => Kp.read'.bind' (fun xs => kp_setField C (Kp.rawRel C hs')))
          | _ => exact Kp.raise _
        | _ => exact Kp.pure' ()

theorem ag_ownerLEv (i : Nat) (n : String) (e : LEv Val) : Agree I (ownerLEvE env eq i n e) (ownerLEv env i n e) := by
  cases e with
  | will => exact Agree.refl _
  | add k v => exact ag_runL' hE C _ (c := .add ..) trivial
  | del v => exact ag_runU hE C _ (.del ..) trivial
  | sor => exact Agree.refl _

omit hE C in
theorem ag_forEvs {ε : Type} {f f' : ε → Py World Unit} : ∀ (es : List ε), (∀ e ∈ es, Agree I (f e) (f' e)) → (∀ e ∈ es, Kp' I (f' e)) →
    Agree I (forEvs f es) (forEvs f' es)
  | [], _, _ => Agree.refl _
  | e :: es, h, hk => (h e (by simp)).bind' (hk e (by simp)) (fun _ =>
      ag_forEvs es (fun e' h' => h e' (by simp [h'])) (fun e' h' => hk e' (by simp [h'])))

theorem ag_listOp {i : Nat} {n : String} (op : LOp Val) (hwc : ∀ b, Kp' I (willChange env b i n)) (hs : ∀ v, Kp' I (rawSet i n v)) :
    Agree I (listOpE env eq i n op) (listOp env i n op) := by
  unfold listOpE listOp
  refine Agree.got (fun w hw => ?_)
  have he : holdsE eq w = pyEq := by funext a b; simp [holdsE, hE w hw]
  rw [he]
  have hse : ∀ xs, searchE eq w op xs = .ok () := by
    intro xs
    cases op <;> simp [searchE, removeE_eq hE hw]
  cases w.attr i n with
  | list xs =>
    refine Agree.bind' (m' := forEvs (ownerLEv env i n) _) (ag_forEvs _ (fun e _ => ag_ownerLEv hE C i n e) (fun e he => ?_))
      (kp_forEvs _ (fun e he => ?_)) (fun _ => Agree.look (b := ()) (fun _ _ => hse xs) (Agree.then (hs _) (fun _ =>
        Agree.bind' (ag_forEvs _ (fun e _ => ag_ownerLEv hE C i n e) (fun e he => ?_)) (kp_forEvs _ (fun e he => ?_)) (fun _ => Agree.refl _))))
    · cases e with
      | will => exact hwc false
      | _ => simp [LEv.isWill] at he
    · cases e with
      | will => exact hwc false
      | _ => simp [LEv.isWill] at he
    · cases e with
      | will => simp [LEv.isWill] at he
      | add k v => exact kp_runL C _ (.add ..) trivial
      | del v => exact kp_runU C _ (.del ..) trivial
      | sor => exact kp_markModified C _ _
    · cases e with
      | will => simp [LEv.isWill] at he
      | add k v => exact kp_runL C _ (.add ..) trivial
      | del v => exact kp_runU C _ (.del ..) trivial
      | sor => exact kp_markModified C _ _
  | _ => exact Agree.refl _

end Agreement

/-! ### Operations keep objects told apart -/

theorem told_of_same {w w' : World} (hn : w'.next = w.next) (hc : ∀ i, (w'.heap i).cls = (w.heap i).cls)
    (ha : ∀ i, ∀ f ∈ K (w.heap i).cls, w'.attr i f.name = w.attr i f.name) (h : ToldApart K w) : ToldApart K w' := by
  refine ⟨fun i hi f hf => ?_, fun i hi j hj hij he => ?_⟩
  · rw [hc] at hf; rw [ha i f hf]; exact h.1 i (hn ▸ hi) f hf
  · rw [hc, hc] at he
    obtain ⟨f, hf, hd⟩ := h.2 i (hn ▸ hi) j (hn ▸ hj) hij he
    refine ⟨f, by rw [hc]; exact hf, ?_⟩
    rw [ha i f hf, ha j f (he ▸ hf)]
    exact hd

theorem rawSet_other (i : Nat) (n : String) (v : Val) (w : World) (j : Nat) (m : String) (h : i ≠ j ∨ n ≠ m) :
    ((rawSet i n v w).2).attr j m = w.attr j m := by
  simp only [rawSet, updObj, World.upd, World.attr]
  by_cases hj : j = i
  · subst hj
    have : m ≠ n := fun e => (h.resolve_left (fun h => h rfl)) e.symm
    simp [this]
  · simp [hj]

theorem rawSet_class (i : Nat) (n : String) (v : Val) (w : World) (j : Nat) : (((rawSet i n v w).2).heap j).cls = (w.heap j).cls := by
  simp only [rawSet, updObj, World.upd]
  by_cases hj : j = i
  · subst hj; simp
  · simp [hj]

/-- told apart, with the number and the classes of the objects fixed -/
def ToldAt (K : String → List Field) (N : Nat) (cs : Nat → String) (w : World) : Prop :=
  ToldApart K w ∧ w.next = N ∧ ∀ j, (w.heap j).cls = cs j

theorem told_closed (L : Leading env K) (N : Nat) (cs : Nat → String) : LinkClosed env (ToldAt K N cs) where
  quiet w w' h hq := ⟨told_of_same hq.1 (fun j => (hq.2.2 j).1) (fun j f _ => by simp only [World.attr, (hq.2.2 j).2.1]) h.1,
    hq.1.trans h.2.1, fun i => (hq.2.2 i).1.trans (h.2.2 i)⟩
  rel w j n v hn h := ⟨told_of_same (w := w) rfl (rawSet_class j n v w) (fun k f hf => rawSet_other _ _ _ _ _ _ (.inr (fun e => L.norel _ f hf (e ▸ hn)))) h.1,
    h.2.1, fun i => (rawSet_class j n v w i).trans (h.2.2 i)⟩

theorem told_willChange (N : Nat) (cs : Nat → String) (i : Nat) (b : Bool) (n : String) : Kp' (ToldAt K N cs) (willChange env b i n) := by
  intro w h
  refine ⟨?_, fun _ _ => trivial⟩
  have hs : ∀ w', w'.next = w.next → (∀ j, (w'.heap j).cls = (w.heap j).cls) → (∀ j m, w'.attr j m = w.attr j m) → ToldAt K N cs w' :=
    fun w' h1 h2 h3 => ⟨told_of_same h1 h2 (fun j f _ => h3 j _) h.1, h1.trans h.2.1, fun i => (h2 i).trans (h.2.2 i)⟩
  simp only [willChange]
  cases hf : (w.cdef env i).field? n with
  | none => cases b <;> exact h
  | some f =>
    simp only []
    split
    · refine hs _ rfl (fun j => ?_) (fun j m => ?_) <;> simp only [World.upd, World.attr] <;> split <;> simp_all
    · exact h

theorem told_rawSet (N : Nat) (cs : Nat → String) (i : Nat) (n : String) (v : Val) (hn : ∀ f ∈ K (cs i), f.name ≠ n) : Kp' (ToldAt K N cs) (rawSet i n v) := by
  intro w h
  refine ⟨⟨told_of_same (w := w) rfl (rawSet_class i n v w) (fun k f hf => rawSet_other _ _ _ _ _ _ ?_) h.1, h.2.1, fun j => (rawSet_class i n v w j).trans (h.2.2 j)⟩,
    fun _ _ => trivial⟩
  by_cases hk : i = k
  · subst hk; rw [h.2.2] at hf; exact .inr (fun e => hn f hf e.symm)
  · exact .inl hk

/-- **C87, operations.** While objects are told apart, an assignment or a method of a list or
dict in a field of any object does exactly what it would do if objects were compared by
identity: the same new values, links and marks, or the same exception. -/
theorem op_by_identity (L : Leading env K) (n : Nat) (op : FOp) {i : Nat} (hi : i < w.next) (hw : ToldApart K w) :
    op.runE env (deq env (n + 1)) i w = op.run env i w := by
  have C := told_closed L w.next (fun j => (w.heap j).cls)
  have hE : ∀ w', ToldAt K w.next (fun j => (w.heap j).cls) w' → ∀ a b, deq env (n + 1) w' a b = .ok (pyEq a b) :=
    fun w' h a b => eq_is_identity L h.1 n a b
  have h0 : ToldAt K w.next (fun j => (w.heap j).cls) w := ⟨hw, rfl, fun _ => rfl⟩
  cases op with
  | set m v => exact ag_setAttr hE C i m v w h0
  | dct m op => rfl
  | lst m op =>
    by_cases hm : ∃ f ∈ K (w.heap i).cls, f.name = m
    · obtain ⟨f, hf, hm⟩ := hm
      have hp := hw.1 i hi f hf
      rw [hm] at hp
      show listOpE env _ i m op w = listOp env i m op w
      unfold listOpE listOp
      rw [Py.bind_run, Py.bind_run]
      simp only [Py.get_run]
      cases hv : w.attr i m with
      | list xs => rw [hv] at hp; exact hp.elim
      | _ => rfl
    · exact ag_listOp hE C op (fun b => told_willChange _ _ _ b m) (fun v => told_rawSet _ _ _ m v (fun f hf he => hm ⟨f, hf, he⟩)) w h0

/-- **C87, staying apart.** Operations on other than leading fields keep objects told apart. -/
theorem op_keeps_apart (L : Leading env K) (op : FOp) {i : Nat} (hn : ∀ f ∈ K (w.heap i).cls, f.name ≠ op.name) (hw : ToldApart K w) :
    ToldApart K (op.run env i w).2 ∧ (op.run env i w).2.next = w.next ∧ ∀ j, ((op.run env i w).2.heap j).cls = (w.heap j).cls := by
  have h0 : ToldAt K w.next (fun j => (w.heap j).cls) w := ⟨hw, rfl, fun _ => rfl⟩
  have h := (kp_fop (told_closed L w.next (fun j => (w.heap j).cls)) (op := op) (fun _ b => told_willChange _ _ _ b _)
    (fun v => told_rawSet _ _ _ _ v hn) w h0).1
  exact h

/-- the same sequence of operations in the model that compares objects by identity -/
def history (env : Env) : List (Nat × FOp) → World → World
  | [], w => w
  | (i, op) :: ops, w => history env ops (op.run env i w).2

/-- **C87, histories.** Any sequence of operations on fields other than leading ones, on any
objects, whether some of them raise or not, leads to the same state as if objects were compared
by identity, and the objects are still told apart there. -/
theorem history_by_identity (L : Leading env K) (n : Nat) : ∀ (ops : List (Nat × FOp)) {w : World}, ToldApart K w →
    (∀ p ∈ ops, p.1 < w.next ∧ ∀ f ∈ K (w.heap p.1).cls, f.name ≠ p.2.name) →
    historyE env (deq env (n + 1)) ops w = history env ops w ∧ ToldApart K (history env ops w)
  | [], _, hw, _ => ⟨rfl, hw⟩
  | (i, op) :: ops, w, hw, ho => by
    obtain ⟨hi, hn⟩ := ho (i, op) (by simp)
    obtain ⟨h1, h2, h3⟩ := op_keeps_apart L op hn hw
    simp only [historyE, history, op_by_identity L n op hi hw]
    exact history_by_identity L n ops h1 (fun p hp => by rw [h2, h3]; exact ho p (by simp [hp]))

/-! ### `update` and `reset` -/

theorem ag_setAll {I : World → Prop} {eq : World → Val → Val → Except Exc Bool} (hE : ∀ w, I w → ∀ a b, eq w a b = .ok (pyEq a b)) (C : LinkClosed env I) (i : Nat) :
    ∀ kvs, (∀ kv ∈ kvs, ∀ v, Kp' I (rawSet i kv.1 v)) → Agree I (setAllE env eq i kvs) (setAll env i kvs)
  | [], _ => Agree.refl _
  | (k, v) :: r, h => (ag_setAttr hE C i k v).bind' (kp_setAttr C (h (k, v) (by simp) v))
      (fun _ => ag_setAll hE C i r (fun kv hkv => h kv (by simp [hkv])))

theorem kp_setAll' {I : World → Prop} (C : LinkClosed env I) (i : Nat) :
    ∀ kvs, (∀ kv ∈ kvs, ∀ v, Kp' I (rawSet i kv.1 v)) → Kp' I (setAll env i kvs)
  | [], _ => Kp.pure' ()
  | (k, v) :: r, h => (kp_setAttr C (h (k, v) (by simp) v)).bind' (fun _ => kp_setAll' C i r (fun kv hkv => h kv (by simp [hkv])))

theorem told_clear (N : Nat) (cs : Nat → String) (i : Nat) :
    Kp' (ToldAt K N cs) (updObj i (fun o => { o with isModified := false, modFields := [], prev := [] })) := by
  intro w h
  have h2 : ∀ j, ((w.upd i (fun o => { o with isModified := false, modFields := [], prev := [] })).heap j).cls = (w.heap j).cls := fun j => by
    simp only [World.upd]; split <;> simp_all
  refine ⟨⟨told_of_same (w := w) rfl h2 (fun j f _ => ?_) h.1, h.2.1, fun j => (h2 j).trans (h.2.2 j)⟩, fun _ _ => trivial⟩
  simp only [updObj, World.upd, World.attr]
  by_cases hj : j = i
  · subst hj; simp [Py.modify]
  · simp [Py.modify, hj]

theorem ag_resetLoop {eq : World → Val → Val → Except Exc Bool} {N : Nat} {cs : Nat → String}
    (hE : ∀ w, ToldAt K N cs w → ∀ a b, eq w a b = .ok (pyEq a b)) (C : LinkClosed env (ToldAt K N cs)) (i : Nat) :
    ∀ kvs, (∀ kv ∈ kvs, ∀ v, Kp' (ToldAt K N cs) (rawSet i kv.1 v)) → Agree (ToldAt K N cs) (resetLoopE env eq i kvs) (resetLoop env i kvs)
  | [], _ => Agree.refl _
  | (k, v) :: r, h => (ag_setAttr hE C i k v).bind' (kp_setAttr C (h (k, v) (by simp) v))
      (fun _ => Agree.then (told_clear N cs i) (fun _ => ag_resetLoop hE C i r (fun kv hkv => h kv (by simp [hkv]))))

theorem kp_resetLoop' {N : Nat} {cs : Nat → String} (C : LinkClosed env (ToldAt K N cs)) (i : Nat) :
    ∀ kvs, (∀ kv ∈ kvs, ∀ v, Kp' (ToldAt K N cs) (rawSet i kv.1 v)) → Kp' (ToldAt K N cs) (resetLoop env i kvs)
  | [], _ => Kp.pure' ()
  | (k, v) :: r, h => (kp_setAttr C (h (k, v) (by simp) v)).bind' (fun _ => (told_clear N cs i).bind'
      (fun _ => kp_resetLoop' C i r (fun kv hkv => h kv (by simp [hkv]))))

/-- **C87, `update`.** While objects are told apart, updating fields other than leading ones does
exactly what it would do if objects were compared by identity, also where it raises half way, and
the objects are still told apart. -/
theorem update_by_identity (L : Leading env K) (n i : Nat) (kvs : List (String × Val)) (hw : ToldApart K w)
    (hn : ∀ kv ∈ kvs, ∀ f ∈ K (w.heap i).cls, f.name ≠ kv.1) :
    apiUpdateE env (deq env (n + 1)) i kvs w = apiUpdate env i kvs w ∧ ToldApart K (apiUpdate env i kvs w).2 := by
  have C := told_closed L w.next (fun j => (w.heap j).cls)
  have hE : ∀ w', ToldAt K w.next (fun j => (w.heap j).cls) w' → ∀ a b, deq env (n + 1) w' a b = .ok (pyEq a b) :=
    fun w' h a b => eq_is_identity L h.1 n a b
  have h0 : ToldAt K w.next (fun j => (w.heap j).cls) w := ⟨hw, rfl, fun _ => rfl⟩
  have hr : ∀ kv ∈ kvs, ∀ v, Kp' (ToldAt K w.next (fun j => (w.heap j).cls)) (rawSet i kv.1 v) :=
    fun kv hkv v => told_rawSet _ _ _ _ v (hn kv hkv)
  unfold apiUpdateE apiUpdate
  split
  · exact ⟨ag_setAll hE C i kvs hr w h0, (kp_setAll' C i kvs hr w h0).1.1⟩
  · exact ⟨rfl, hw⟩

/-- **C87, `reset`.** The same for going back to the recorded previous values, when no leading
field is among them. -/
theorem reset_by_identity (L : Leading env K) (n i : Nat) (hw : ToldApart K w)
    (hn : ∀ kv ∈ (w.heap i).prev, ∀ f ∈ K (w.heap i).cls, f.name ≠ kv.1) :
    apiResetE env (deq env (n + 1)) i w = apiReset env i w ∧ ToldApart K (apiReset env i w).2 := by
  have C := told_closed L w.next (fun j => (w.heap j).cls)
  have hE : ∀ w', ToldAt K w.next (fun j => (w.heap j).cls) w' → ∀ a b, deq env (n + 1) w' a b = .ok (pyEq a b) :=
    fun w' h a b => eq_is_identity L h.1 n a b
  have h0 : ToldAt K w.next (fun j => (w.heap j).cls) w := ⟨hw, rfl, fun _ => rfl⟩
  have hr : ∀ kv ∈ (w.heap i).prev, ∀ v, Kp' (ToldAt K w.next (fun j => (w.heap j).cls)) (rawSet i kv.1 v) :=
    fun kv hkv v => told_rawSet _ _ _ _ v (hn kv hkv)
  unfold apiResetE apiReset
  split
  · exact ⟨rfl, hw⟩
  · split
    · exact ⟨rfl, hw⟩
    · exact ⟨ag_resetLoop hE C i _ hr w h0, (kp_resetLoop' C i _ hr w h0).1.1⟩

end JC

/-! ### Cases -/
namespace JC.TwinDemo
open JC Demo

/-- the leading fields of users and posts: id and name -/
def lead (c : String) : List Field := if c = "User" then [fId, fName] else if c = "Post" then [fId, fName] else []

theorem relNames (n : String) (h : RelName env n) : n = "" ∨ n = "friend" ∨ n = "posts" ∨ n = "author" ∨ n = "author_id" := by
  obtain ⟨c, f, hf, h⟩ := h
  have hc : f ∈ user.fields ∨ f ∈ post.fields := by
    rcases env_cases c with hc | hc | hc <;> rw [hc] at hf
    · exact .inl hf
    · exact .inr hf
    · cases hf
  have key : ∀ g : Field, (g.isRef = true → g.name = "friend" ∨ g.name = "posts" ∨ g.name = "author") →
      (g.refName = "" ∨ g.refName = "author_id") →
      (g.isRef = true → ∀ of, env.foreignField g = some of → of.name = "friend" ∨ of.name = "posts" ∨ of.name = "author") → f = g →
      n = "" ∨ n = "friend" ∨ n = "posts" ∨ n = "author" ∨ n = "author_id" := by
    intro g h1 h2 h3 hg
    subst hg
    rcases h with ⟨hr, h⟩ | h | ⟨hr, of, ho, h⟩
    · rcases h1 hr with e | e | e <;> simp [h, e]
    · rcases h2 with e | e <;> simp [h, e]
    · rcases h3 hr of ho with e | e | e <;> simp [h, e]
  simp only [user, post, List.mem_cons, List.not_mem_nil, or_false] at hc
  have tr : env.foreignField fFriend = some fFriend := rfl
  have tp : env.foreignField fPosts = some fAuthor := rfl
  have ta : env.foreignField fAuthor = some fPosts := rfl
  rcases hc with (h | h | h | h | h | h) | (h | h | h)
  · exact key _ (by decide) (by decide) (by decide) h
  · exact key _ (by decide) (by decide) (by decide) h
  · exact key _ (by decide) (by decide) (by decide) h
  · exact key _ (by decide) (by decide) (by decide) h
  · exact key _ (by decide) (by decide) (fun _ of ho => by rw [tr] at ho; cases ho; decide) h
  · exact key _ (by decide) (by decide) (fun _ of ho => by rw [tp] at ho; cases ho; decide) h
  · exact key _ (by decide) (by decide) (by decide) h
  · exact key _ (by decide) (by decide) (by decide) h
  · exact key _ (by decide) (by decide) (fun _ of ho => by rw [ta] at ho; cases ho; decide) h

theorem leading : Leading env lead where
  first c := by
    simp only [lead, env]
    split
    · exact ⟨_, rfl⟩
    · split
      · exact ⟨_, rfl⟩
      · exact ⟨_, rfl⟩
  stored c f hf := by
    simp only [lead] at hf
    split at hf
    · simp only [List.mem_cons, List.not_mem_nil, or_false] at hf; rcases hf with rfl | rfl <;> decide
    · split at hf
      · simp only [List.mem_cons, List.not_mem_nil, or_false] at hf; rcases hf with rfl | rfl <;> decide
      · cases hf
  norel c f hf hr := by
    have hn : f.name = "id" ∨ f.name = "name" := by
      simp only [lead] at hf
      split at hf
      · simp only [List.mem_cons, List.not_mem_nil, or_false] at hf; rcases hf with rfl | rfl <;> decide
      · split at hf
        · simp only [List.mem_cons, List.not_mem_nil, or_false] at hf; rcases hf with rfl | rfl <;> decide
        · cases hf
    have := relNames _ hr
    rcases hn with hn | hn <;> rw [hn] at this <;> exact absurd this (by decide)
  getters c f hf hc := by
    rcases env_cases c with h | h | h <;> rw [h] at hf
    · simp only [user, List.mem_cons, List.not_mem_nil, or_false] at hf
      rcases hf with rfl | rfl | rfl | rfl | rfl | rfl <;> cases hc
    · simp only [post, List.mem_cons, List.not_mem_nil, or_false] at hf
      rcases hf with rfl | rfl | rfl <;> cases hc
    · cases hf

/-- users 0 and 1 and posts 2 and 3, none saved yet; user 0 has post 2 -/
def blog (u v p q : String) : World where
  heap := fun i => match i with
    | 0 => { cls := "User", attrs := attrsOf [("name", .str u), ("posts", .list [.obj 2])], isNew := true }
    | 1 => { cls := "User", attrs := attrsOf [("name", .str v), ("posts", .list [])], isNew := true }
    | 2 => { cls := "Post", attrs := attrsOf [("name", .str p), ("author", .obj 0)], isNew := true }
    | 3 => { cls := "Post", attrs := attrsOf [("name", .str q)], isNew := true }
    | _ => {}
  next := 4

/-- unsaved objects with different names are told apart -/
theorem told : ToldApart lead (blog "ann" "bob" "one" "two") := by
  constructor
  · intro i hi f hf
    have : i = 0 ∨ i = 1 ∨ i = 2 ∨ i = 3 := by simp only [blog] at hi; omega
    rcases this with rfl | rfl | rfl | rfl <;> simp only [blog, lead] at hf <;>
      simp only [if_true, if_neg (by decide : ¬ "Post" = "User"), List.mem_cons, List.not_mem_nil, or_false] at hf <;>
      rcases hf with rfl | rfl <;> exact trivial
  · intro i hi j hj hij hc
    have hi' : i = 0 ∨ i = 1 ∨ i = 2 ∨ i = 3 := by simp only [blog] at hi; omega
    have hj' : j = 0 ∨ j = 1 ∨ j = 2 ∨ j = 3 := by simp only [blog] at hj; omega
    rcases hi' with rfl | rfl | rfl | rfl <;> rcases hj' with rfl | rfl | rfl | rfl <;>
      first
        | exact absurd rfl hij
        | exact absurd hc (by decide)
        | exact ⟨fName, show fName ∈ [fId, fName] by simp, by decide +kernel⟩

/-- the hypotheses are met: linking the second post by `==` is linking it by identity -/
example (n : Nat) : historyE env (deq env (n + 1)) [(3, .set "author" (.obj 0)), (0, .lst "posts" (.remove (.obj 2)))] (blog "ann" "bob" "one" "two") =
    history env [(3, .set "author" (.obj 0)), (0, .lst "posts" (.remove (.obj 2)))] (blog "ann" "bob" "one" "two") := by
  refine (history_by_identity leading n _ told ?_).1
  intro p hp
  simp only [List.mem_cons, List.not_mem_nil, or_false] at hp
  rcases hp with rfl | rfl <;> refine ⟨by decide, fun f hf => ?_⟩ <;> simp only [blog, lead] at hf <;>
    simp only [if_true, if_neg (by decide : ¬ "Post" = "User"), List.mem_cons, List.not_mem_nil, or_false] at hf <;>
    rcases hf with rfl | rfl <;> decide

/-- the hypotheses of `update_by_identity` are met, and the update links: -/
example (n : Nat) : apiUpdateE env (deq env (n + 1)) 3 [("author", .obj 0)] (blog "ann" "bob" "one" "two") =
      apiUpdate env 3 [("author", .obj 0)] (blog "ann" "bob" "one" "two") ∧
    ((apiUpdate env 3 [("author", .obj 0)] (blog "ann" "bob" "one" "two")).2).attr 0 "posts" = .list [.obj 2, .obj 3] := by
  refine ⟨(update_by_identity leading n 3 _ told ?_).1, rfl⟩
  intro kv hkv f hf
  simp only [List.mem_cons, List.not_mem_nil, or_false] at hkv
  subst hkv
  simp only [blog, lead, if_neg (by decide : ¬ "Post" = "User"), if_true, List.mem_cons, List.not_mem_nil, or_false] at hf
  rcases hf with rfl | rfl <;> decide

/-- the same classes, with `reset_all_fields` -/
def envR : Env := { env with cls := fun n => { env.cls n with resetAllFields := true } }

theorem leadingR : Leading envR lead := ⟨leading.first, leading.stored, fun c f hf hr => leading.norel c f hf hr, leading.getters⟩

/-- `blog` after saving, and after post 3 was given the author 1: its previous author is recorded -/
def moved : World where
  heap := fun i => match i with
    | 0 => { cls := "User", isNew := false, attrs := attrsOf [("name", .str "ann"), ("posts", .list [.obj 2])] }
    | 1 => { cls := "User", isNew := false, attrs := attrsOf [("name", .str "bob"), ("posts", .list [.obj 3])], isModified := true, modFields := ["posts"], prev := [("posts", .list [])] }
    | 2 => { cls := "Post", isNew := false, attrs := attrsOf [("name", .str "one"), ("author", .obj 0)] }
    | 3 => { cls := "Post", isNew := false, attrs := attrsOf [("name", .str "two"), ("author", .obj 1)], isModified := true, modFields := ["author"], prev := [("author", .obj 0)] }
    | _ => {}
  next := 4

/-- the hypotheses of `reset_by_identity` are met, and the reset links again: -/
example (n : Nat) : apiResetE envR (deq envR (n + 1)) 3 moved = apiReset envR 3 moved ∧
    ((apiReset envR 3 moved).2).attr 0 "posts" = .list [.obj 2, .obj 3] ∧
    ((apiReset envR 3 moved).2).attr 1 "posts" = .list [] := by
  refine ⟨(reset_by_identity leadingR n 3 ?_ ?_).1, rfl, rfl⟩
  · refine told_of_same (w := blog "ann" "bob" "one" "two") rfl (fun i => ?_) (fun i f hf => ?_) told
    · match i with
      | 0 => rfl
      | 1 => rfl
      | 2 => rfl
      | 3 => rfl
      | _ + 4 => rfl
    · match i with
      | 0 => rfl
      | 1 =>
        simp only [blog, lead, if_true, List.mem_cons, List.not_mem_nil, or_false] at hf
        rcases hf with rfl | rfl <;> rfl
      | 2 => rfl
      | 3 =>
        simp only [blog, lead, if_neg (by decide : ¬ "Post" = "User"), if_true, List.mem_cons, List.not_mem_nil, or_false] at hf
        rcases hf with rfl | rfl <;> rfl
      | _ + 4 => rfl
  · intro kv hkv f hf
    simp only [moved, List.mem_cons, List.not_mem_nil, or_false] at hkv
    subst hkv
    simp only [moved, lead, if_neg (by decide : ¬ "Post" = "User"), if_true, List.mem_cons, List.not_mem_nil, or_false] at hf
    rcases hf with rfl | rfl <;> decide

/-- `update` is confused by objects that look the same as well -/
theorem twin_update (n : Nat) :
    (apiUpdateE env (deq env (n + 2)) 3 [("author", .obj 0)] (blog "ann" "bob" "one" "one")).1 = .ok () ∧
    ((apiUpdateE env (deq env (n + 2)) 3 [("author", .obj 0)] (blog "ann" "bob" "one" "one")).2).attr 0 "posts" = .list [.obj 2] := ⟨rfl, rfl⟩

/-- **C87 is violated for objects that look the same**: user 0 has a post; a second new post
with the same contents is given the same author. The second post is taken for the first one and
does not enter the list of the author's posts, though it names the author. -/
theorem twin_not_linked (n : Nat) :
    (setAttrE env (deq env (n + 2)) 3 "author" (.obj 0) (blog "ann" "bob" "one" "one")).1 = .ok () ∧
    ((setAttrE env (deq env (n + 2)) 3 "author" (.obj 0) (blog "ann" "bob" "one" "one")).2).attr 3 "author" = .obj 0 ∧
    ((setAttrE env (deq env (n + 2)) 3 "author" (.obj 0) (blog "ann" "bob" "one" "one")).2).attr 0 "posts" = .list [.obj 2] :=
  ⟨rfl, rfl, rfl⟩

/-- compared by identity, it does -/
theorem twin_linked_by_identity :
    ((setAttr env 3 "author" (.obj 0) (blog "ann" "bob" "one" "one")).2).attr 0 "posts" = .list [.obj 2, .obj 3] := rfl

/-- user 0 has the posts 2 and 3, neither saved yet -/
def pair (p q : String) : World where
  heap := fun i => match i with
    | 0 => { cls := "User", attrs := attrsOf [("name", .str "ann"), ("posts", .list [.obj 2, .obj 3])], isNew := true }
    | 2 => { cls := "Post", attrs := attrsOf [("name", .str p), ("author", .obj 0)], isNew := true }
    | 3 => { cls := "Post", attrs := attrsOf [("name", .str q), ("author", .obj 0)], isNew := true }
    | _ => {}
  next := 4

/-- **C87 is violated for objects that look the same**: removing the second of two posts with
the same contents takes the first out of the list, and it is the second that loses its author. -/
theorem twin_removed (n : Nat) :
    (listOpE env (deq env (n + 2)) 0 "posts" (.remove (.obj 3)) (pair "one" "one")).1 = .ok () ∧
    ((listOpE env (deq env (n + 2)) 0 "posts" (.remove (.obj 3)) (pair "one" "one")).2).attr 0 "posts" = .list [.obj 3] ∧
    ((listOpE env (deq env (n + 2)) 0 "posts" (.remove (.obj 3)) (pair "one" "one")).2).attr 3 "author" = .none ∧
    ((listOpE env (deq env (n + 2)) 0 "posts" (.remove (.obj 3)) (pair "one" "one")).2).attr 2 "author" = .obj 0 :=
  ⟨rfl, rfl, rfl, rfl⟩

/-- the users 0 and 1 have one post each, all of them new, with the same contents -/
def twins : World where
  heap := fun i => match i with
    | 0 => { cls := "User", attrs := attrsOf [("name", .str "ann"), ("posts", .list [.obj 2])], isNew := true }
    | 1 => { cls := "User", attrs := attrsOf [("name", .str "ann"), ("posts", .list [.obj 3])], isNew := true }
    | 2 => { cls := "Post", attrs := attrsOf [("name", .str "one"), ("author", .obj 0)], isNew := true }
    | 3 => { cls := "Post", attrs := attrsOf [("name", .str "one"), ("author", .obj 1)], isNew := true }
    | _ => {}
  next := 4

/-- **C86 is violated where fields lead back**: the comparison of two users that look the same,
each with a post that names them, raises RecursionError, whatever the limit. -/
theorem twins_compare : ∀ n, (deq env n twins (.obj 0) (.obj 1) = .error .recursion ∧ deq env n twins (.obj 2) (.obj 3) = .error .recursion) ∧
    deq env n twins (.obj 1) (.obj 0) = .error .recursion ∧ deq env n twins (.obj 3) (.obj 2) = .error .recursion
  | 0 => ⟨⟨rfl, rfl⟩, rfl, rfl⟩
  | n + 1 => by
    obtain ⟨⟨h1, h2⟩, h3, h4⟩ := twins_compare n
    have h1' : oeq env twins n 0 1 = .error .recursion := h1
    have h2' : oeq env twins n 2 3 = .error .recursion := h2
    have h3' : oeq env twins n 1 0 = .error .recursion := h3
    have h4' : oeq env twins n 3 2 = .error .recursion := h4
    refine ⟨⟨?_, ?_⟩, ?_, ?_⟩
    · show veqList (oeq env twins n) [.none, .str "ann", .none, .none, .none, .list [.obj 2]] [.none, .str "ann", .none, .none, .none, .list [.obj 3]] = _
      simp [veqList, veq, pyEq, h2']
    · show veqList (oeq env twins n) [.none, .str "one", .obj 0] [.none, .str "one", .obj 1] = _
      simp [veqList, veq, pyEq, h1']
    · show veqList (oeq env twins n) [.none, .str "ann", .none, .none, .none, .list [.obj 3]] [.none, .str "ann", .none, .none, .none, .list [.obj 2]] = _
      simp [veqList, veq, pyEq, h4']
    · show veqList (oeq env twins n) [.none, .str "one", .obj 1] [.none, .str "one", .obj 0] = _
      simp [veqList, veq, pyEq, h3']

/-- **C87 is violated there as well**: the post cannot be given to the other user. -/
theorem twins_assign (n : Nat) : setAttrE env (deq env n) 2 "author" (.obj 1) twins = (.error .recursion, twins) := by
  have h := (twins_compare n).2.1
  have key : ∀ g : Bool → Py World Unit, (readW (fun w' => deq env n w' (.obj 1) (.obj 0)) >>= g) twins = (.error .recursion, twins) := by
    intro g
    have : readW (fun w' => deq env n w' (.obj 1) (.obj 0)) twins = (.error .recursion, twins) := by simp only [readW, h]
    rw [Py.bind_run, this]
  exact key _

/-- they are alike all the same: no difference can be found -/
theorem twins_alike : Alike env twins 0 1 := by
  refine ⟨fun i j => (i = 0 ∧ j = 1) ∨ (i = 2 ∧ j = 3), ?_, .inl ⟨rfl, rfl⟩⟩
  rintro i j (⟨rfl, rfl⟩ | ⟨rfl, rfl⟩)
  · refine .inr ⟨by decide, by decide, rfl, fun f hf => ?_⟩
    have hf : f ∈ user.fields := hf
    simp only [user, List.mem_cons, List.not_mem_nil, or_false] at hf
    rcases hf with rfl | rfl | rfl | rfl | rfl | rfl
    · exact ⟨_, _, rfl, rfl, .plain trivial rfl⟩
    · exact ⟨_, _, rfl, rfl, .plain trivial rfl⟩
    · exact ⟨_, _, rfl, rfl, .plain trivial rfl⟩
    · exact ⟨_, _, rfl, rfl, .plain trivial rfl⟩
    · exact ⟨_, _, rfl, rfl, .plain trivial rfl⟩
    · refine ⟨.list [.obj 2], .list [.obj 3], rfl, rfl, .list rfl (fun n x y hx hy => ?_)⟩
      cases n with
      | zero => cases hx; cases hy; exact .obj (.inr ⟨rfl, rfl⟩)
      | succ n => simp at hx
  · refine .inr ⟨by decide, by decide, rfl, fun f hf => ?_⟩
    have hf : f ∈ post.fields := hf
    simp only [post, List.mem_cons, List.not_mem_nil, or_false] at hf
    rcases hf with rfl | rfl | rfl
    · exact ⟨_, _, rfl, rfl, .plain trivial rfl⟩
    · exact ⟨_, _, rfl, rfl, .plain trivial rfl⟩
    · exact ⟨.obj 0, .obj 1, rfl, rfl, .obj (.inl ⟨rfl, rfl⟩)⟩

/-- the two posts of one user are alike, and the comparison says so -/
example (n : Nat) : deq env (n + 2) (pair "one" "one") (.obj 2) (.obj 3) = .ok true := rfl

/-- with different names it says no -/
example (n : Nat) : deq env (n + 2) (pair "one" "two") (.obj 2) (.obj 3) = .ok false := by
  show veqList (oeq env (pair "one" "two") (n + 1)) [.none, .str "one", .obj 0] [.none, .str "two", .obj 0] = _
  simp [veqList, veq, pyEq]

/-- a user without relations and a post of theirs that the user does not list: no way back -/
def letters : World where
  heap := fun i => match i with
    | 0 => { cls := "User", attrs := attrsOf [("name", .str "ann")] }
    | 1 => { cls := "Post", attrs := attrsOf [("name", .str "one"), ("author", .obj 0)] }
    | _ => { cls := "Post", attrs := attrsOf [("name", .str "one")] }
  next := 3

/-- the hypotheses of `eq_returns` are met -/
example (b : Val) : ∃ r, deq env 2 letters (.obj 1) b = .ok r := by
  have fields : ∀ i < 3, (i = 0 ∧ (letters.cdef env i).fields = user.fields) ∨ (i ≠ 0 ∧ (letters.cdef env i).fields = post.fields) := by
    intro i hi
    match i, hi with
    | 0, _ => exact .inl ⟨rfl, rfl⟩
    | 1, _ => exact .inr ⟨by decide, rfl⟩
    | 2, _ => exact .inr ⟨by decide, rfl⟩
  refine eq_returns (rank := fun i => if i = 0 then 0 else 1) (fun i hi f hf => ?_) (fun i hi f hf x hx j hj => ?_) (by decide) b
  · rcases fields i hi with ⟨rfl, h⟩ | ⟨_, h⟩ <;> rw [h] at hf
    · simp only [user, List.mem_cons, List.not_mem_nil, or_false] at hf
      rcases hf with rfl | rfl | rfl | rfl | rfl | rfl <;> exact ⟨_, rfl⟩
    · simp only [post, List.mem_cons, List.not_mem_nil, or_false] at hf
      rcases hf with rfl | rfl | rfl <;> exact ⟨_, rfl⟩
  · match i, hi, hf with
    | 0, _, hf =>
      have hf : f ∈ user.fields := hf
      simp only [user, List.mem_cons, List.not_mem_nil, or_false] at hf
      rcases hf with rfl | rfl | rfl | rfl | rfl | rfl <;> (cases (show x = _ from hx); cases hj)
    | 1, _, hf =>
      have hf : f ∈ post.fields := hf
      simp only [post, List.mem_cons, List.not_mem_nil, or_false] at hf
      rcases hf with rfl | rfl | rfl <;> (cases (show x = _ from hx); cases hj)
      decide
    | 2, _, hf =>
      have hf : f ∈ post.fields := hf
      simp only [post, List.mem_cons, List.not_mem_nil, or_false] at hf
      rcases hf with rfl | rfl | rfl <;> (cases (show x = _ from hx); cases hj)

end JC.TwinDemo
