import Verif.Props.ValidateSim
import Verif.Props.Demo

/-
C19: validate() terminates on every finite object graph, cyclic or not, visits each
object at most once, and changes no object.
-/
namespace JC

/-- "User supplied code terminates": no effect free validator and no getter of a
calculated field of any class runs into Python's recursion limit by itself. -/
structure UserCodeTerminates (env : Env) : Prop where
  leaf : ∀ cls, ∀ f ∈ (env.cls cls).fields,
    Mod.AllL (fun l => ∀ h c, l.validate h c ≠ .error .recursion) (fun _ => True) f.chain
  getter : ∀ cls, ∀ f ∈ (env.cls cls).fields, ∀ h i, f.getter h i ≠ .error .recursion

/-- `S` contains every object found in a field of an object of `S`. -/
def ClosedUnder (env : Env) (w : World) (S : List Nat) : Prop :=
  ∀ i ∈ S, ∀ f ∈ (w.cdef env i).fields, ∀ v, w.getattr env i f.name = .ok v → ∀ j ∈ v.objs, j ∈ S

/-- The two states differ at most in the mark graph and the ghost list of visits. -/
def SameData (w w' : World) : Prop :=
  w'.heap = w.heap ∧ w'.next = w.next ∧ w'.graphs = w.graphs ∧ w'.nextg = w.nextg

theorem SameData.refl (w : World) : SameData w w := ⟨rfl, rfl, rfl, rfl⟩

variable {env : Env}

theorem SameData.visitPut {w w' : World} (h : SameData w w') (i : Nat) :
    SameData w ((w'.markPut env i).visit i) := by
  obtain ⟨h1, h2, h3, h4⟩ := h
  unfold World.markPut
  simp only
  split <;> exact ⟨h1, h2, h3, h4⟩

theorem getattr_congr {w w' : World} (h : w'.heap = w.heap) (i : Nat) (n : String) :
    w'.getattr env i n = w.getattr env i n := by
  simp [World.getattr, World.cdef, World.attr, h]

/-- Objects of `S` not marked yet. -/
def unmarked (env : Env) (S : List Nat) (w : World) : List Nat :=
  S.filter (fun j => !(w.markGet env j).isSome)

theorem filter_length_le {α : Type} {p q : α → Bool} (l : List α) (h : ∀ a ∈ l, p a = true → q a = true) :
    (l.filter p).length ≤ (l.filter q).length := by
  induction l with
  | nil => simp
  | cons a l ih =>
    have ih := ih (fun b hb => h b (by simp [hb]))
    have ha := h a (by simp)
    by_cases hp : p a = true
    · simp [hp, ha hp, ih]
    · by_cases hq : q a = true
      · simp [hp, hq]; omega
      · simp [hp, hq, ih]

theorem filter_length_lt {α : Type} {p q : α → Bool} (l : List α) (h : ∀ a ∈ l, p a = true → q a = true)
    {x : α} (hx : x ∈ l) (hp : p x = false) (hq : q x = true) :
    (l.filter p).length < (l.filter q).length := by
  induction l with
  | nil => cases hx
  | cons a l ih =>
    have ha := h a (by simp)
    rcases List.mem_cons.1 hx with rfl | hx
    · have := filter_length_le l (fun b hb => h b (by simp [hb]))
      simp [hp, hq]; omega
    · have ih := ih (fun b hb => h b (by simp [hb])) hx
      by_cases hp : p a = true
      · simp [hp, ha hp, ih]
      · by_cases hq : q a = true
        · simp [hp, hq]; omega
        · simp [hp, hq, ih]

theorem unmarked_visitPut {S : List Nat} {w : World} {i : Nat} (hi : i ∈ S)
    (hm : (w.markGet env i).isSome = false) :
    (unmarked env S ((w.markPut env i).visit i)).length < (unmarked env S w).length := by
  unfold unmarked
  apply filter_length_lt (x := i) _ _ hi
  · simp [markGet_visit, markGet_markPut_self w i]
  · simp [hm]
  · intro a _ ha
    simp only [markGet_visit] at ha
    cases hc : (w.markGet env a).isSome with
    | false => rfl
    | true =>
      rw [markGet_markPut_mono (env := env) w i a hc] at ha
      exact ha

/-- Relation used for termination: same state, unchanged data, at most `m` unmarked
objects of `S` left. -/
def KTerm (env : Env) (w₀ : World) (S : List Nat) (m : Nat) (w₁ w₂ : World) : Prop :=
  w₁ = w₂ ∧ SameData w₀ w₁ ∧ (unmarked env S w₁).length ≤ m

theorem getAgree_diag {env : Env} {bad : Exc → Prop} {b : Bool} {w : World} {i : Nat} {n : String}
    (h : ∀ e, w.getattr env i n = .error e → ¬ bad e) : GetAgree env bad b w w i n := by
  cases hg : w.getattr env i n with
  | ok v => exact .inl ⟨v, hg, hg⟩
  | error e => exact .inr (.inl ⟨e, hg, hg, h e hg⟩)

theorem getattr_not_recursion (hu : UserCodeTerminates env) (w : World) (i : Nat) (n : String) (e : Exc)
    (h : w.getattr env i n = .error e) : e ≠ .recursion := by
  unfold World.getattr at h
  split at h
  · next f hf =>
    have hmem : f ∈ (env.cls (w.heap i).cls).fields := List.mem_of_find?_eq_some hf
    split at h
    · intro he; subst he; exact hu.getter _ f hmem _ _ h
    · cases h
  · cases h

theorem validate_sim (hu : UserCodeTerminates env) {w₀ : World} {S : List Nat}
    (hS : ClosedUnder env w₀ S) (m : Nat) :
    ∀ n n', m < n → m < n' → ∀ cls st (c : Ctx), (∀ j ∈ c.val.objs, j ∈ S) →
      Sim (KTerm env w₀ S m) (· = .recursion) ((instOps env n cls st).validate c)
        ((instOps env n' cls st).validate c) := by
  induction m with
  | zero =>
    intro n n' hn hn' cls st c hc
    obtain ⟨n, rfl⟩ : ∃ k, n = k + 1 := ⟨n - 1, by omega⟩
    obtain ⟨n', rfl⟩ : ∃ k, n' = k + 1 := ⟨n' - 1, by omega⟩
    simp only [instOps]
    refine sim_instValidate (K' := fun _ _ => False) (by simp) (by simp) ?_ ?_ (by simp) (by simp) ?_
    · rintro w₁ w₂ i _ ⟨rfl, _, _⟩; rfl
    · rintro w₁ w₂ i hv ⟨rfl, _, h⟩ hm
      have := unmarked_visitPut (env := env) (hc i (by simp [hv, Val.objs])) hm
      omega
    · intro i hv _ w₁ w₂ hk; exact hk.elim
  | succ m ih =>
    intro n n' hn hn' cls st c hc
    obtain ⟨n, rfl⟩ : ∃ k, n = k + 1 := ⟨n - 1, by omega⟩
    obtain ⟨n', rfl⟩ : ∃ k, n' = k + 1 := ⟨n' - 1, by omega⟩
    have ih := ih n n' (by omega) (by omega)
    simp only [instOps]
    refine sim_instValidate (K' := KTerm env w₀ S m) (by simp) (by simp) ?_ ?_ ?_ ?_ ?_
    · rintro w₁ w₂ i _ ⟨rfl, _, _⟩; rfl
    · rintro w₁ w₂ i hv ⟨rfl, hd, h⟩ hm
      have := unmarked_visitPut (env := env) (hc i (by simp [hv, Val.objs])) hm
      exact ⟨rfl, hd.visitPut i, by omega⟩
    · rintro w₁ w₂ ⟨rfl, hd, h⟩; exact ⟨rfl, hd, by omega⟩
    · rintro w₁ w₂ ⟨rfl, _, _⟩ j; rfl
    · intro i hv _
      have hi : i ∈ S := hc i (by simp [hv, Val.objs])
      apply sim_instBody (by simp)
      · rintro w₁ w₂ ⟨rfl, _, _⟩; exact ⟨rfl, rfl⟩
      · rintro w₁ w₂ ⟨rfl, hd, _⟩
        have hcd : w₁.cdef env i = w₀.cdef env i := by simp [World.cdef, hd.1]
        apply sim_validateFields
        · rintro f hf w w' ⟨rfl, hd', _⟩
          exact getAgree_diag (fun e he => getattr_not_recursion hu w i f.name e he)
        · rintro f hf _ w w' v ⟨rfl, hd', _⟩ hget
          apply sim_validateField
          · rintro _ _ ⟨rfl, _, _⟩ j; rfl
          · simp
          · intro w'' ek _
            have hvS : ∀ j ∈ v.objs, j ∈ S := by
              rw [getattr_congr hd'.1] at hget
              rw [hcd] at hf
              exact hS i hi f hf v hget
            have hs : SimValidate (KTerm env w₀ S m) (· = .recursion) env env (instOps env n)
                (instOps env n') (fun c => ∀ j ∈ c.val.objs, j ∈ S) :=
              { hv := by simp
                ha := by simp
                noMarks₁ := instOps_noMarks env n
                noMarks₂ := instOps_noMarks env n'
                col := fun c v k hp hv j hj => hp j (objs_children hv hj)
                alter := fun c hp => hp
                owner := by rintro _ _ o ⟨rfl, _, _⟩; rfl
                vis := ih }
            refine sim_den_chain hs f.chain ?_ _ ?_
            · rw [hcd] at hf
              refine Mod.AllL.mono (fun l hl => ?_) (fun _ h => h) _ (hu.leaf _ f hf)
              rintro c w₁ w₂ _ ⟨rfl, _, _⟩
              exact ⟨rfl, fun e he hb => hl _ _ (by rw [he, hb])⟩
            · split <;> exact hvS

/-- **C19** (termination). Let `S` be any list of objects containing `i` and every object
found in a field of one of its members (for instance all objects of the program). Then
`validate()` on `i` does not run into the recursion limit as soon as more than
`S.length` nested object visits are allowed, however the objects refer to each other,
and allowing more does not change the outcome: the computation terminates. -/
theorem validate_terminates (hu : UserCodeTerminates env) (w : World) (S : List Nat)
    (hS : ClosedUnder env w S) (i : Nat) (hi : i ∈ S) (all : Option Bool) (n : Nat)
    (hn : S.length < n) :
    (apiValidate env n i all w).1 ≠ .error .recursion ∧
    ∀ n', S.length < n' → apiValidate env n' i all w = apiValidate env n i all w := by
  have key : ∀ n', S.length < n' →
      Sim (KTerm env w S S.length) (· = .recursion)
        ((instOps env n (w.heap i).cls none).validate (rootCtx w i { allFields := all } (.obj i)))
        ((instOps env n' (w.heap i).cls none).validate (rootCtx w i { allFields := all } (.obj i))) := by
    intro n' hn'
    apply validate_sim hu hS _ n n' hn hn'
    intro j hj
    simp [rootCtx, Val.objs] at hj
    exact hj ▸ hi
  have hK : KTerm env w S S.length { w with marks := [] } { w with marks := [] } :=
    ⟨rfl, ⟨rfl, rfl, rfl, rfl⟩, List.length_filter_le _ _⟩
  refine ⟨fun he => (key n hn _ _ hK).2.1 _ he rfl, fun n' hn' => ?_⟩
  have := key n' hn' _ _ hK
  have e := Prod.ext this.1 this.2.2.1
  unfold apiValidate withFreshMarks
  simp only [e]

theorem Demo.userCode : UserCodeTerminates Demo.env where
  leaf := by
    intro cls f hf
    rcases Demo.env_cases cls with h | h | h <;> rw [h] at hf
    · simp only [Demo.user, List.mem_cons, List.not_mem_nil, or_false] at hf
      rcases hf with rfl | rfl | rfl | rfl | rfl | rfl <;>
        simp only [Demo.fId, Demo.fName, Demo.fSecret, Demo.fTmp, Demo.fFriend, Demo.fPosts,
          Mod.AllL, Mod.All, and_true] <;>
        (intro h c; simp only [Demo.optStr, Demo.reqStr, Ctx.vexc]; split <;> simp)
    · simp only [Demo.post, List.mem_cons, List.not_mem_nil, or_false] at hf
      rcases hf with rfl | rfl | rfl <;>
        simp only [Demo.fId, Demo.fName, Demo.fAuthor, Mod.AllL, Mod.All, and_true] <;>
        (intro h c; simp only [Demo.optStr, Demo.reqStr, Ctx.vexc]; split <;> simp)
    · cases hf
  getter := by
    intro cls f hf h' i
    rcases Demo.env_cases cls with h | h | h <;> rw [h] at hf
    · simp only [Demo.user, List.mem_cons, List.not_mem_nil, or_false] at hf
      rcases hf with rfl | rfl | rfl | rfl | rfl | rfl <;> intro h <;> cases h
    · simp only [Demo.post, List.mem_cons, List.not_mem_nil, or_false] at hf
      rcases hf with rfl | rfl | rfl <;> intro h <;> cases h
    · cases hf

theorem Demo.closed : ClosedUnder Demo.env Demo.world [0, 1, 2] := by
  intro i hi f hf v hv j hj
  simp only [List.mem_cons, List.not_mem_nil, or_false] at hi
  rcases hi with rfl | rfl | rfl
  · change f ∈ Demo.user.fields at hf
    simp only [Demo.user, List.mem_cons, List.not_mem_nil, or_false] at hf
    rcases hf with rfl | rfl | rfl | rfl | rfl | rfl <;> cases hv <;> revert hj <;>
      simp [Val.objs, objsL, Demo.attrsOf, dictGet, World.attr, Demo.world, Demo.fId, Demo.fName,
        Demo.fSecret, Demo.fTmp, Demo.fFriend, Demo.fPosts] <;> (intro h; simp [h])
  · change f ∈ Demo.user.fields at hf
    simp only [Demo.user, List.mem_cons, List.not_mem_nil, or_false] at hf
    rcases hf with rfl | rfl | rfl | rfl | rfl | rfl <;> cases hv <;> revert hj <;>
      simp [Val.objs, Demo.attrsOf, dictGet, World.attr, Demo.world, Demo.fId, Demo.fName,
        Demo.fSecret, Demo.fTmp, Demo.fFriend, Demo.fPosts] <;> (intro h; simp [h])
  · change f ∈ Demo.post.fields at hf
    simp only [Demo.post, List.mem_cons, List.not_mem_nil, or_false] at hf
    rcases hf with rfl | rfl | rfl <;> cases hv <;> revert hj <;>
      simp [Val.objs, Demo.attrsOf, dictGet, World.attr, Demo.world, Demo.fId, Demo.fName,
        Demo.fAuthor] <;> (intro h; simp [h])

/-- A cyclic graph of three objects meets the hypotheses, and is accepted. -/
example : (apiValidate Demo.env 4 0 none Demo.world).1 = .ok () := by rfl
example : (apiValidate Demo.env 4 0 none Demo.world).1 ≠ .error .recursion :=
  (validate_terminates Demo.userCode Demo.world [0, 1, 2] Demo.closed 0 (by simp) none 4
    (by decide)).1

/-- Relation used for "at most once": same state, unchanged data, the visits so far are
distinct and all marked. -/
def KOnce (env : Env) (w₀ : World) (w₁ w₂ : World) : Prop :=
  w₁ = w₂ ∧ SameData w₀ w₁ ∧ ∃ D, w₁.visits = w₀.visits ++ D ∧ D.Nodup ∧
    ∀ d ∈ D, (w₁.markGet env d).isSome

theorem validate_once_sim (w₀ : World) (n : Nat) : ∀ cls st (c : Ctx),
    Sim (KOnce env w₀) (fun _ => False) ((instOps env n cls st).validate c)
      ((instOps env n cls st).validate c) := by
  induction n with
  | zero => intro cls st c; exact Sim.raise (by simp)
  | succ n ih =>
    intro cls st c
    simp only [instOps]
    refine sim_instValidate (K' := KOnce env w₀) (by simp) (by simp) ?_ ?_ (fun _ _ h => h) ?_ ?_
    · rintro w₁ w₂ i _ ⟨rfl, _⟩; rfl
    · rintro w₁ w₂ i hv ⟨rfl, hd, D, h1, h2, h3⟩ hm
      refine ⟨rfl, hd.visitPut i, D ++ [i], ?_, ?_, ?_⟩
      · have : (w₁.markPut env i).visits = w₁.visits := by
          unfold World.markPut; simp only; split <;> rfl
        simp [World.visit, this, h1]
      · rw [List.nodup_append]
        refine ⟨h2, by simp, ?_⟩
        rintro a ha b hb rfl
        simp only [List.mem_singleton] at hb
        subst hb
        rw [h3 a ha] at hm; cases hm
      · intro d hd
        rw [markGet_visit]
        rcases List.mem_append.1 hd with h | h
        · exact markGet_markPut_mono w₁ i d (h3 d h)
        · simp only [List.mem_singleton] at h
          subst h
          exact markGet_markPut_self w₁ d
    · rintro w₁ w₂ ⟨rfl, _⟩ j; rfl
    · intro i hv _
      apply sim_instBody (by simp)
      · rintro w₁ w₂ ⟨rfl, _⟩; exact ⟨rfl, rfl⟩
      · rintro w₁ w₂ ⟨rfl, hd, _⟩
        apply sim_validateFields
        · rintro f hf w w' ⟨rfl, hd', _⟩
          exact getAgree_diag (by simp)
        · rintro f hf _ w w' v ⟨rfl, hd', _⟩ hget
          apply sim_validateField
          · rintro _ _ ⟨rfl, _⟩ j; rfl
          · simp
          · intro w'' ek _
            have hs : SimValidate (KOnce env w₀) (fun _ => False) env env (instOps env n)
                (instOps env n) (fun _ => True) :=
              { hv := by simp
                ha := by simp
                noMarks₁ := instOps_noMarks env n
                noMarks₂ := instOps_noMarks env n
                col := fun _ _ _ _ _ => trivial
                alter := fun _ _ => trivial
                owner := by rintro _ _ o ⟨rfl, _, _⟩; rfl
                vis := fun cls st c _ => ih cls st c }
            refine sim_den_chain hs f.chain ?_ _ trivial
            exact Mod.allL_of_forall (fun l => by
              rintro c w₁ w₂ _ ⟨rfl, _⟩
              exact ⟨rfl, fun e _ h => h⟩) f.chain

theorem world_restore {w w' : World} {V : List Nat} (h : SameData w w') (hV : w'.visits = V) :
    ({ w' with marks := w.marks } : World) = { w with visits := V } := by
  obtain ⟨h1, h2, h3, h4⟩ := h
  subst hV
  cases w; cases w'
  simp_all

/-- **C19** (at most once, no effects). Whatever the outcome, `validate()` leaves every
object as it was, and the objects whose fields it went through (the ghost list
`visits`, which no code reads) are pairwise distinct. -/
theorem validate_visits_once (w : World) (i : Nat) (all : Option Bool) (n : Nat) :
    ∃ D : List Nat, D.Nodup ∧
      (apiValidate env n i all w).2 = { w with visits := w.visits ++ D } := by
  have hK : KOnce env w { w with marks := [] } { w with marks := [] } :=
    ⟨rfl, ⟨rfl, rfl, rfl, rfl⟩, [], by simp, by simp, by simp⟩
  obtain ⟨_, hd, D, hD, hnd, _⟩ :=
    (validate_once_sim w n (w.heap i).cls none (rootCtx w i { allFields := all } (.obj i)) _ _ hK).2.2
  exact ⟨D, hnd, world_restore hd hD⟩

example : (apiValidate Demo.env 4 0 none Demo.world).2.visits = [0, 1, 2] := by rfl

/-- An object that was already visited is not validated again: `validate` on it does
nothing at all, in any nested position. -/
theorem validate_marked (w : World) (n : Nat) (cls : String) (st : Option Bool) (c : Ctx) (i : Nat)
    (hv : c.val = .obj i) (hm : (w.markGet env i).isSome) :
    (instOps env (n + 1) cls st).validate c w = (.ok (), w) := by
  simp only [instOps, instValidate, hv, hm, if_true]

end JC
