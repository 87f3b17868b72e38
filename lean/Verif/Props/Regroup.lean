import Verif.Props.Relink
import Verif.Props.Include

/-
C84: what a change of a list of related objects does to the other side, for lists of any length.
-/
namespace JC
variable {env : Env}

/-! ### Specification -/

/-- `j` keeps the objects `ys` in its list `of`, each of which refers to `j` in field `f`. -/
structure Members (env : Env) (w : World) (j : Nat) (f of : Field) (ys : List Nat) : Prop where
  has : HasField env w j of
  objs : w.attr j of.name = .list (ys.map .obj)
  rel : ∀ y ∈ ys, OneToMany env w y j f of
  back : ∀ y ∈ ys, w.attr y f.name = .obj j
  once : ys.Nodup

/-- `z` may join `j`: it refers to nothing, or is a member of the list of another object. -/
structure Joins (env : Env) (w : World) (j : Nat) (f of : Field) (z : Nat) : Prop where
  rel : OneToMany env w z j f of
  free : w.attr z f.name = .none ∨ ∃ a vs, a ≠ j ∧ w.attr z f.name = .obj a ∧ Members env w a f of vs ∧ z ∈ vs

/-- The list of `j` has become `zs`, the objects `D` have left it and the objects `E` have joined it, and nothing
else has happened: the objects that joined refer to `j` and keep its id, those that left and did not come back
refer to nothing and keep no id, and the other objects the newcomers referred to have lost exactly these. -/
structure Regrouped (env : Env) (w w' : World) (j : Nat) (f of : Field) (D E zs : List Nat) : Prop where
  classes : ∀ a, (w'.heap a).cls = (w.heap a).cls
  list : w'.attr j of.name = .list (zs.map .obj)
  joined : ∀ z ∈ E, w'.attr z f.name = .obj j ∧ w'.attr z f.refName = w.id env j
  left : ∀ y ∈ D, y ∉ E → w'.attr y f.name = .none ∧ w'.attr y f.refName = .none
  others : ∀ a vs, a ≠ j → Members env w a f of vs → w'.attr a of.name = .list ((vs.filter (fun v => decide (v ∉ E))).map .obj)
  frame : ∀ x n, ¬ (x = j ∧ n = of.name) → ¬ ((x ∈ D ∨ x ∈ E) ∧ (n = f.name ∨ n = f.refName)) →
    ¬ (n = of.name ∧ ∃ z ∈ E, w.attr z f.name = .obj x) → w'.attr x n = w.attr x n

/-! ### The attributes on the way -/

variable {C : Nat → String} {A A' : Nat → String → Val} {j : Nat} {f of : Field} {D E zs ys : List Nat}

/-- the list without the objects `E` -/
def dropObjs (E : List Nat) : Val → Val
  | .list vs => .list (vs.filter (fun v => match v with
    | .obj k => decide (k ∉ E)
    | _ => true))
  | v => v

open Classical in
/-- the attributes when the objects `D` have left and the objects `E` have joined -/
noncomputable def midway (A : Nat → String → Val) (j : Nat) (f of : Field) (zs : List Nat) (idv : Val) (D E : List Nat) : Nat → String → Val := fun x n =>
  if x = j ∧ n = of.name then .list (zs.map .obj)
  else if x ∈ E ∧ n = f.name then .obj j
  else if x ∈ E ∧ n = f.refName then idv
  else if x ∈ D ∧ (n = f.name ∨ n = f.refName) then .none
  else if n = of.name ∧ ∃ z ∈ E, A z f.name = .obj x then dropObjs E (A x n)
  else A x n

theorem dropObjs_map (E vs : List Nat) : dropObjs E (.list (vs.map .obj)) = .list ((vs.filter (fun v => decide (v ∉ E))).map .obj) := by
  simp only [dropObjs, List.filter_map]
  rfl

variable {idv : Val}

/-- one object leaves -/
theorem forgot_midway {y : Nat} (m : OM env C y j f of) :
    forgot (midway A j f of zs idv D []) y f = midway A j f of zs idv (D ++ [y]) [] := by
  have hd := m.differ
  funext x n
  simp only [forgot, put, midway, List.not_mem_nil, false_and, if_false, List.mem_append, List.mem_singleton, exists_false, and_false]
  by_cases hx : x = y
  · subst hx
    by_cases h1 : n = f.refName
    · simp [h1, hd]
    · by_cases h2 : n = f.name
      · simp [h2, hd]
      · simp [h1, h2, hd]
  · simp [hx]

theorem apart_of {x a : Nat} (m : OM env C x a f of) (h2 : (env.cls (C x)).field? of.name = some of) (h3 : (env.cls (C x)).localKey? of.name = none) : of.name ≠ f.name ∧ of.name ≠ f.refName := by
  refine ⟨fun h => ?_, fun h => ?_⟩
  · have h1 := m.left
    rw [h, h1] at h2
    cases h2
    have := m.instL
    rw [m.listR] at this
    cases this
  · have h1 := m.keyName
    rw [h, h1] at h3
    cases h3

theorem names_apart {x e a : Nat} (m : OM env C x a f of) (m' : OM env C e x f of) : of.name ≠ f.name ∧ of.name ≠ f.refName := apart_of m m'.right m'.plainR

/-- the objects some of `E` referred to before, other than `j` -/
def Owners (env : Env) (C : Nat → String) (A : Nat → String → Val) (j : Nat) (f of : Field) (E : List Nat) : Prop :=
  ∀ e ∈ E, ∀ a, a ≠ j → A e f.name = .obj a → OM env C e a f of ∧ ∃ vs : List Nat, A a of.name = .list (vs.map .obj) ∧ (∀ v ∈ vs, A v f.name = .obj a) ∧ vs.Nodup ∧ e ∈ vs

theorem dropObjs_more {E : List Nat} {z : Nat} {vs : List Nat} (h : z ∉ vs) : dropObjs (E ++ [z]) (.list (vs.map .obj)) = dropObjs E (.list (vs.map .obj)) := by
  rw [dropObjs_map, dropObjs_map]
  congr 2
  apply List.filter_congr
  intro v hv
  have : v ≠ z := fun h' => h (h' ▸ hv)
  simp [this]

open Classical in
theorem midway_join {z : Nat} (m : OM env C z j f of) (hO : Owners env C A j f of (E ++ [z])) (hD : ∀ x, x ∈ D ∨ x ∈ E → OM env C x j f of) :
    midway A j f of zs idv D (E ++ [z]) = fun x n => if x = z ∧ n = f.name then .obj j else if x = z ∧ n = f.refName then idv
      else if n = of.name ∧ x ≠ j ∧ A z f.name = .obj x then dropObjs (E ++ [z]) (A x n) else midway A j f of zs idv D E x n := by
  have hd := m.differ
  funext x n
  by_cases c1 : x = j ∧ n = of.name
  · obtain ⟨rfl, rfl⟩ := c1
    simp [midway, hd.symm]
  by_cases c2 : x = z ∧ n = f.name
  · obtain ⟨rfl, rfl⟩ := c2
    simp [midway, hd]
  by_cases c3 : x = z ∧ n = f.refName
  · obtain ⟨rfl, rfl⟩ := c3
    simp [midway, hd, m.distinct]
  rw [if_neg c2, if_neg c3]
  by_cases c4 : n = of.name ∧ x ≠ j ∧ A z f.name = .obj x
  · rw [if_pos c4]
    obtain ⟨rfl, hxj, hzx⟩ := c4
    have mo := (hO z (by simp) x hxj hzx).1
    have k1 : ¬ (x ∈ E ++ [z] ∧ of.name = f.name) := by
      rintro ⟨h1, h2⟩
      rcases List.mem_append.1 h1 with h1 | h1
      · exact (names_apart (hD x (.inr h1)) mo).1 h2
      · exact c2 ⟨by simpa using h1, h2⟩
    have k2 : ¬ (x ∈ E ++ [z] ∧ of.name = f.refName) := by
      rintro ⟨h1, h2⟩
      rcases List.mem_append.1 h1 with h1 | h1
      · exact (names_apart (hD x (.inr h1)) mo).2 h2
      · exact c3 ⟨by simpa using h1, h2⟩
    have k3 : ¬ (x ∈ D ∧ (of.name = f.name ∨ of.name = f.refName)) := by
      rintro ⟨h1, h2⟩
      have := names_apart (hD x (.inl h1)) mo
      exact h2.elim this.1 this.2
    unfold midway
    rw [if_neg c1, if_neg k1, if_neg k2, if_neg k3, if_pos ⟨rfl, z, by simp, hzx⟩]
  · rw [if_neg c4]
    have e1 : (x ∈ E ++ [z] ∧ n = f.name) ↔ (x ∈ E ∧ n = f.name) := by
      simp only [List.mem_append, List.mem_singleton]
      exact ⟨fun h => ⟨h.1.resolve_right fun h' => c2 ⟨h', h.2⟩, h.2⟩, fun h => ⟨.inl h.1, h.2⟩⟩
    have e2 : (x ∈ E ++ [z] ∧ n = f.refName) ↔ (x ∈ E ∧ n = f.refName) := by
      simp only [List.mem_append, List.mem_singleton]
      exact ⟨fun h => ⟨h.1.resolve_right fun h' => c3 ⟨h', h.2⟩, h.2⟩, fun h => ⟨.inl h.1, h.2⟩⟩
    unfold midway
    rw [if_neg c1, if_neg c1]
    simp only [e1, e2]
    split
    · rfl
    split
    · rfl
    split
    · rfl
    by_cases c5 : n = of.name ∧ ∃ e ∈ E, A e f.name = .obj x
    · obtain ⟨rfl, e, he, hex⟩ := c5
      have hxj : x ≠ j := fun h => c1 ⟨h, rfl⟩
      obtain ⟨_, vs, h1, h2, _, _⟩ := hO e (by simp [he]) x hxj hex
      rw [if_pos ⟨rfl, e, by simp [he], hex⟩, if_pos ⟨rfl, e, he, hex⟩, h1]
      exact dropObjs_more fun hz => c4 ⟨rfl, hxj, h2 z hz⟩
    · rw [if_neg c5, if_neg]
      rintro ⟨rfl, e, he, hex⟩
      rcases List.mem_append.1 he with he | he
      · exact c5 ⟨rfl, e, he, hex⟩
      · exact c4 ⟨rfl, fun h => c1 ⟨h, rfl⟩, (by simpa using he) ▸ hex⟩


theorem idIn_midway {y : Nat} (m : OM env C y j f of) (hD : ∀ x, x ∈ D ∨ x ∈ E → OM env C x j f of) : idIn env C (midway A j f of zs idv D E) j = idIn env C A j := by
  unfold idIn
  cases hp : (env.cls (C j)).primary with
  | none => rfl
  | some n =>
    have h1 := m.prim n hp
    have h2 : j ∉ D := fun h => (hD j (.inl h)).differ rfl
    have h3 : j ∉ E := fun h => (hD j (.inr h)).differ rfl
    simp [midway, h1, h2, h3]

theorem erase_filter {vs : List Nat} (h : vs.Nodup) {E : List Nat} {z : Nat} :
    (vs.filter (fun v => decide (v ∉ E))).erase z = vs.filter (fun v => decide (v ∉ E ++ [z])) := by
  rw [List.Nodup.erase_eq_filter (h.filter _), List.filter_filter]
  apply List.filter_congr
  intro v _
  by_cases h1 : v = z <;> by_cases h2 : v ∈ E <;> simp [h1, h2]

theorem runs_unlink_nothing {i : Nat} (m : OM env C i j f of) {n : Nat} (hn : env.fuel = n + 1) : Does C A (unlinkField env i f .none) A := by
  unfold unlinkField
  rw [hn]
  simp only [runU, unlinkBody, m.oppL, linkItems, m.instL, forItems]
  exact Does.pure

/-- one object joins -/
theorem step_join {z n N : Nat} (hN : env.fuel = N + 3) (m : OM env C z j f of) (hz : z ∉ E) (hzs : z ∈ zs) (hO : Owners env C A j f of (E ++ [z]))
    (hD : ∀ x, x ∈ D ∨ x ∈ E → OM env C x j f of) (hid : idv = idIn env C A j)
    (hc : z ∈ D ∧ A z f.name = .obj j ∨ z ∉ D ∧ (A z f.name = .none ∨ ∃ a, a ≠ j ∧ A z f.name = .obj a)) :
    Ends C (midway A j f of zs idv D E) (linkOther env (runL env (n + 2)) j f (.obj z)) (midway A j f of zs idv D (E ++ [z])) := by
  classical
  have hd := m.differ
  have hzf : midway A j f of zs idv D E z f.name = if z ∈ D then .none else A z f.name := by
    unfold midway
    rw [if_neg (fun h => hd h.1), if_neg (fun h => hz h.1), if_neg (fun h => hz h.1)]
    by_cases hzD : z ∈ D
    · simp [hzD]
    · rw [if_neg (fun h => hzD h.1), if_neg, if_neg hzD]
      rintro ⟨h1, e, he, hez⟩
      obtain ⟨mo, _⟩ := hO e (by simp [he]) z hd hez
      exact (names_apart m mo).1 h1.symm
  unfold linkOther
  simp only []
  refine Ends.bind ?_ (leads_linkGraph _ _)
  unfold linkSide
  refine Ends.look (fun w hw => ?_)
  have hw1 : w.attr z f.name = if z ∈ D then .none else A z f.name := by rw [hw.2]; exact hzf
  have hV : (if z ∈ D then Val.none else A z f.name) = .none ∨ ∃ a, a ≠ j ∧ (if z ∈ D then Val.none else A z f.name) = .obj a := by
    rcases hc with ⟨h, _⟩ | ⟨h, h' | ⟨a, haj, h'⟩⟩
    · exact .inl (if_pos h)
    · exact .inl (by rw [if_neg h, h'])
    · exact .inr ⟨a, haj, by rw [if_neg h, h']⟩
  have hq : pyEq (w.attr z f.name) (.obj j) = false := by
    rw [hw1]
    rcases hV with h | ⟨a, haj, h⟩ <;> rw [h]
    · simp [pyEq]
    · simp [pyEq, haj]
  have hq' : pyEq (.obj j) (midway A j f of zs idv D E z f.name) = false := by
    rw [hzf]
    rcases hV with h | ⟨a, haj, h⟩ <;> rw [h]
    · simp [pyEq]
    · simp [pyEq, haj.symm]
  simp only [m.instL, hq]
  refine Ends.bind ?_ (runs_delUnlinked _ _ _).leads
  have hidm : idIn env C (midway A j f of zs idv D E) j = idv := by rw [idIn_midway m hD, hid]
  by_cases hcase : ∃ a, a ≠ j ∧ z ∉ D ∧ A z f.name = .obj a
  · obtain ⟨a, haj, hzD, hza⟩ := hcase
    obtain ⟨mo, vs, h1, h2, h3, h4⟩ := hO z (by simp) a haj hza
    have hza' : midway A j f of zs idv D E z f.name = .obj a := by rw [hzf, if_neg hzD, hza]
    have hal : midway A j f of zs idv D E a of.name = .list ((vs.filter (fun v => decide (v ∉ E))).map .obj) := by
      unfold midway
      rw [if_neg (fun h => haj h.1), if_neg (fun h => (names_apart (hD a (.inr h.1)) mo).1 h.2), if_neg (fun h => (names_apart (hD a (.inr h.1)) mo).2 h.2),
        if_neg (fun h => h.2.elim (names_apart (hD a (.inl h.1)) mo).1 (names_apart (hD a (.inl h.1)) mo).2)]
      split
      · rw [h1, dropObjs_map]
      · rename_i hno
        rw [h1]
        congr 2
        refine (List.filter_eq_self.2 fun v hv => ?_).symm
        have : v ∉ E := fun he => hno ⟨rfl, v, he, h2 v hv⟩
        simp [this]
    have hu := runs_unlink_single mo hza' hal (by simp [h4, hz]) N
    refine leads_set_single m hq' (by rw [hza']; unfold unlinkField; rw [hN]; exact hu) ?_
    have hida : idIn env C (forgot (put (midway A j f of zs idv D E) a of.name (.list (((vs.filter (fun v => decide (v ∉ E))).erase z).map .obj))) z f) j = idv := by
      refine Eq.trans ?_ hidm
      unfold idIn
      cases hp : (env.cls (C j)).primary with
      | none => rfl
      | some n => simp [forgot, put, hd.symm, haj.symm]
    rw [hida]
    have he : put (put (forgot (put (midway A j f of zs idv D E) a of.name (.list (((vs.filter (fun v => decide (v ∉ E))).erase z).map .obj))) z f) z f.name (.obj j)) z f.refName idv = midway A j f of zs idv D (E ++ [z]) := by
      rw [midway_join m hO hD, erase_filter h3]
      funext x n
      simp only [put, forgot]
      by_cases c1 : x = z ∧ n = f.refName
      · simp [c1, m.distinct]
      by_cases c2 : x = z ∧ n = f.name
      · simp [c2, m.distinct.symm]
      rw [if_neg c1, if_neg c2, if_neg c1, if_neg c2, if_neg c2, if_neg c1]
      by_cases c3 : x = a ∧ n = of.name
      · obtain ⟨rfl, rfl⟩ := c3
        rw [if_pos ⟨rfl, rfl⟩, if_pos ⟨rfl, haj, hza⟩, h1, dropObjs_map]
      · rw [if_neg c3, if_neg]
        rintro ⟨hn, _, hzx⟩
        rw [hza] at hzx
        cases hzx
        exact c3 ⟨rfl, hn⟩
    rw [he]
    refine leads_link_held m ?_ hzs (n)
    simp [midway]
  · have hnone : midway A j f of zs idv D E z f.name = .none := by
      rw [hzf]
      rcases hc with ⟨h, _⟩ | ⟨h, h' | ⟨a, haj, h'⟩⟩
      · simp [h]
      · simp [h, h']
      · exact (hcase ⟨a, haj, h, h'⟩).elim
    refine leads_set_single (A₁ := midway A j f of zs idv D E) m hq' (by rw [hnone]; exact runs_unlink_nothing m hN) ?_
    have he : put (put (midway A j f of zs idv D E) z f.name (.obj j)) z f.refName idv = midway A j f of zs idv D (E ++ [z]) := by
      rw [midway_join m hO hD]
      funext x n
      simp only [put]
      have h3 : ¬ (n = of.name ∧ x ≠ j ∧ A z f.name = .obj x) := by
        rintro ⟨_, hx, hzx⟩
        rcases hc with ⟨_, h'⟩ | ⟨h, _⟩
        · rw [h'] at hzx; cases hzx; exact hx rfl
        · exact hcase ⟨x, hx, h, hzx⟩
      rw [if_neg h3]
      by_cases c1 : x = z ∧ n = f.refName
      · simp [c1, m.distinct]
      · simp [c1]
    rw [hidm, he]
    refine leads_link_held m ?_ hzs (n)
    simp [midway]


/-- all of `F` join, one after the other -/
theorem leads_all {body : Val → Py World Unit} : ∀ (F E : List Nat), (E ++ F).Nodup → (∀ E' z, z ∈ F → z ∉ E' → E' ⊆ E ++ F → Ends C (midway A j f of zs idv D E') (body (.obj z)) (midway A j f of zs idv D (E' ++ [z]))) →
    Ends C (midway A j f of zs idv D E) (forItems (F.map .obj) body) (midway A j f of zs idv D (E ++ F)) := by
  intro F
  induction F with
  | nil => intro E _ _; simp only [List.map_nil, forItems, List.append_nil]; exact Ends.pure
  | cons z F ih =>
    intro E hn h
    simp only [List.map_cons, forItems]
    have hz : z ∉ E := fun hz => by
      have := (List.nodup_append.1 hn).2.2 z hz z (by simp)
      exact this rfl
    refine Ends.bind (h E z (by simp) hz (fun x hx => by simp [hx])) ?_
    have he : E ++ z :: F = E ++ [z] ++ F := by simp
    rw [he] at hn h ⊢
    exact ih (E ++ [z]) hn (fun E' z' hz' h1 h2 => h E' z' (by simp [hz']) h1 h2)

/-- all of `F` leave, one after the other -/
theorem runs_all {α : Type} {g : Nat → α} {each : List α → Py World Unit} {body : α → Py World Unit} (h0 : each [] = Pure.pure ()) (h1 : ∀ x xs, each (x :: xs) = (do body x; each xs)) :
    ∀ (F D : List Nat), (D ++ F).Nodup → (∀ D' y, y ∈ F → y ∉ D' → Does C (midway A j f of zs idv D' []) (body (g y)) (midway A j f of zs idv (D' ++ [y]) [])) →
    Does C (midway A j f of zs idv D []) (each (F.map g)) (midway A j f of zs idv (D ++ F) []) := by
  intro F
  induction F with
  | nil => intro D _ _; simp only [List.map_nil, h0, List.append_nil]; exact Does.pure
  | cons z F ih =>
    intro D hn h
    simp only [List.map_cons, h1]
    have hz : z ∉ D := fun hz => by
      have := (List.nodup_append.1 hn).2.2 z hz z (by simp)
      exact this rfl
    refine Does.bind (h D z (by simp) hz) ?_
    have he : D ++ z :: F = D ++ [z] ++ F := by simp
    rw [he] at hn ⊢
    exact ih (D ++ [z]) hn (fun D' y hy => h D' y (by simp [hy]))

theorem midway_ref {y : Nat} (m : OM env C y j f of) (hD : y ∉ D) : midway A j f of zs idv D [] y f.name = A y f.name := by
  simp [midway, m.differ, hD]

/-- one object is unlinked -/
theorem step_leave {y : Nat} (m : OM env C y j f of) (hy : A y f.name = .obj j) (hD : y ∉ D) (run : UCmd → Py World Unit) :
    Does C (midway A j f of zs idv D []) (do addUnlinked j of.name (.obj y); unlinkOther env run j f (.obj y)) (midway A j f of zs idv (D ++ [y]) []) := by
  rw [← forgot_midway m]
  refine (runs_addUnlinked _ _ _).bind ?_
  unfold unlinkOther
  simp only []
  refine Does.look (fun v hv => ?_)
  have h : v.attr y f.name = .obj j := by rw [hv.2, midway_ref m hD]; exact hy
  have hq : pyEq (Val.obj j) (.obj j) = true := by simp [pyEq]
  simp only [m.instL, h, hq, if_true]
  refine (runs_rawSet _ _ _).bind (Does.bind (A₁ := forgot (midway A j f of zs idv D []) y f) ?_ (runs_addUnlinked _ _ _))
  simp only [unlinkKey, m.keyL, if_true]
  exact (runs_rawSet _ _ _).bind (runs_updObj (fun _ => rfl) (fun _ => rfl))

theorem midway_start (h : A j of.name = .list (ys.map .obj)) : midway A j f of ys idv [] [] = A := by
  funext x n
  simp only [midway, List.not_mem_nil, false_and, if_false, exists_false, and_false]
  split
  · rename_i hc; rw [hc.1, hc.2, h]
  · rfl

theorem midway_put (D E : List Nat) : put (midway A j f of ys idv D E) j of.name (.list (zs.map .obj)) = midway A j f of zs idv D E := by
  funext x n
  simp only [put, midway]
  split <;> rfl

/-- what the newcomers are, in terms of attributes -/
structure Newcomers (env : Env) (C : Nat → String) (A : Nat → String → Val) (j : Nat) (f of : Field) (D E : List Nat) : Prop where
  rel : ∀ x, x ∈ D ∨ x ∈ E → OM env C x j f of
  owners : Owners env C A j f of E
  from' : ∀ z ∈ E, z ∈ D ∧ A z f.name = .obj j ∨ z ∉ D ∧ (A z f.name = .none ∨ ∃ a, a ≠ j ∧ A z f.name = .obj a)

/-- assignment of the whole list -/
theorem leads_assign {x n : Nat} (mx : OM env C x j f of) (hn : env.fuel = n + 4) (hys : A j of.name = .list (ys.map .obj)) (hback : ∀ y ∈ ys, A y f.name = .obj j)
    (h1 : ys.Nodup) (h2 : zs.Nodup) (hne : zs ≠ ys) (N : Newcomers env C A j f of ys zs) :
    Ends C A (setField env j of.name (.list (zs.map .obj))) (midway A j f of zs (idIn env C A j) ys zs) := by
  unfold setField
  rw [hn]
  simp only [runL, setBody]
  refine Ends.look (fun w hw => ?_)
  have ha : w.attr j of.name = .list (ys.map .obj) := by rw [hw.2]; exact hys
  have hq : pyEq (Val.list (zs.map .obj)) (.list (ys.map .obj)) = false := by
    rw [Bool.eq_false_iff]
    intro h
    simp only [pyEq] at h
    exact hne (pyEqList_objs zs ys h)
  rw [hw.cdef, mx.right, ha]
  by_cases hcalc : of.store = .calculated
  · simp only [if_pos hcalc]
    exact Ends.raise _
  simp only [if_neg hcalc, hq, mx.refR, if_true]
  refine (runs_track j of).leads.bind (Ends.bind (A₁ := midway A j f of ys (idIn env C A j) ys []) (Does.leads ?_) ((runs_rawSet _ _ _).leads.bind (Ends.bind (A₁ := midway A j f of zs (idIn env C A j) ys []) ?_ ?_)))
  · unfold unlinkField
    rw [hn]
    simp only [runU, unlinkBody, mx.oppR, linkItems, mx.listR]
    have := runs_all (C := C) (A := A) (j := j) (f := f) (of := of) (zs := ys) (idv := idIn env C A j) (g := Val.obj) (each := fun l => forItems l (fun item => do addUnlinked j of.name item; unlinkOther env (runU env (n + 3)) j f item)) rfl (fun _ _ => rfl) ys []
      (by simpa using h1) (fun D' y hy hD => step_leave (N.rel y (.inl hy)) (hback y hy) hD _)
    rw [midway_start hys] at this
    simpa using this
  · simp only [syncKey, mx.keyR, ne_eq, not_false_eq_true, if_true, midway_put]
    exact Ends.pure
  · simp only [linkBody, mx.oppR, linkItems, mx.listR]
    have := leads_all (C := C) (A := A) (j := j) (f := f) (of := of) (zs := zs) (idv := idIn env C A j) (D := ys) (body := fun item => do delUnlinked j of.name item; linkOther env (runL env (n + 2)) j f item) zs [] (by simpa using h2) ?_
    · simpa using this
    · intro E' z hz hzE hE
      have hE' : E' ⊆ zs := by simpa using hE
      refine (runs_delUnlinked _ _ _).leads.bind (step_join (N := n + 1) hn (N.rel z (.inr hz)) hzE hz ?_ (fun x hx => N.rel x (hx.imp_right fun h => hE' h)) rfl (N.from' z hz))
      intro e he
      exact N.owners e (by
        rcases List.mem_append.1 he with he | he
        · exact hE' he
        · simpa using (by simpa using he : e = z) ▸ hz)


/-- the list of `j` reports that objects left it -/
theorem runs_reports {n : Nat} (hn : env.fuel = n + 4) (hback : ∀ y ∈ D, A y f.name = .obj j) (h1 : D.Nodup) (hrel : ∀ y ∈ D, OM env C y j f of) :
    Does C (midway A j f of zs idv [] []) (forEvs (ownerLEv env j of.name) (D.map fun y => LEv.del (.obj y))) (midway A j f of zs idv D []) := by
  have := runs_all (C := C) (A := A) (j := j) (f := f) (of := of) (zs := zs) (idv := idv) (g := fun y => LEv.del (Val.obj y)) (each := forEvs (ownerLEv env j of.name)) rfl (fun _ _ => rfl) D []
      (by simpa using h1) (fun D' y hy hD => by
        show Does _ _ (olistDel env j of.name (.obj y)) _
        unfold olistDel
        rw [hn, ← forgot_midway (hrel y hy)]
        exact runs_del_list (hrel y hy) ((midway_ref (hrel y hy) hD).trans (hback y hy)) _)
  simpa using this

/-- the list of `j` reports that objects left it and that others joined it -/
theorem leads_reports {n : Nat} {es : List (Int × Nat)} (hn : env.fuel = n + 4) (hback : ∀ y ∈ D, A y f.name = .obj j)
    (h1 : D.Nodup) (h2 : (es.map Prod.snd).Nodup) (h3 : es.map Prod.snd ⊆ zs) (N : Newcomers env C A j f of D (es.map Prod.snd)) :
    Ends C (midway A j f of zs (idIn env C A j) [] []) (forEvs (ownerLEv env j of.name) ((D.map fun y => LEv.del (.obj y)) ++ es.map fun p => LEv.add p.1 (.obj p.2)))
      (midway A j f of zs (idIn env C A j) D (es.map Prod.snd)) := by
  have split : ∀ (xs ys : List (LEv Val)) B B', Does C (midway A j f of zs (idIn env C A j) [] []) (forEvs (ownerLEv env j of.name) xs) B → Ends C B (forEvs (ownerLEv env j of.name) ys) B' →
      Ends C (midway A j f of zs (idIn env C A j) [] []) (forEvs (ownerLEv env j of.name) (xs ++ ys)) B' := by
    intro xs ys B B' hx hy
    have key : ∀ (xs : List (LEv Val)), forEvs (ownerLEv env j of.name) (xs ++ ys) = (do forEvs (ownerLEv env j of.name) xs; forEvs (ownerLEv env j of.name) ys) := by
      intro xs
      induction xs with
      | nil => rfl
      | cons x xs ih =>
        simp only [List.cons_append, forEvs, ih]
        funext w
        simp only [Py.bind_run]
        rcases ownerLEv env j of.name x w with ⟨⟨⟩, w⟩ <;> rfl
    rw [key]
    exact hx.leads.bind hy
  refine split _ _ (midway A j f of zs (idIn env C A j) D []) _ ?_ ?_
  · exact runs_reports hn hback h1 (fun y hy => N.rel y (.inl hy))
  · have go : ∀ (gs : List (Int × Nat)) (E : List Nat), (E ++ gs.map Prod.snd).Nodup → E ++ gs.map Prod.snd ⊆ es.map Prod.snd →
        Ends C (midway A j f of zs (idIn env C A j) D E) (forEvs (ownerLEv env j of.name) (gs.map fun p => LEv.add p.1 (.obj p.2))) (midway A j f of zs (idIn env C A j) D (E ++ gs.map Prod.snd)) := by
      intro gs
      induction gs with
      | nil => intro E _ _; simp only [List.map_nil, forEvs, List.append_nil]; exact Ends.pure
      | cons p gs ih =>
        intro E hnd hsub
        obtain ⟨k, z⟩ := p
        simp only [List.map_cons] at hnd hsub ⊢
        have hz : z ∉ E := fun hz => (List.nodup_append.1 hnd).2.2 z hz z (by simp) rfl
        have hzm : z ∈ es.map Prod.snd := hsub (by simp)
        have m := N.rel z (.inr hzm)
        have he : E ++ z :: gs.map Prod.snd = E ++ [z] ++ gs.map Prod.snd := by simp
        rw [he] at hnd hsub ⊢
        simp only [forEvs]
        refine Ends.bind ?_ (ih (E ++ [z]) hnd hsub)
        show Ends _ _ (olistAdd env j of.name k (.obj z)) _
        unfold olistAdd
        rw [hn]
        refine leads_add (n := n + 3) (A₁ := midway A j f of zs (idIn env C A j) D (E ++ [z])) m.plainR m.right m.refR ?_ ?_
        · simp only [runL, linkBody, m.oppR, linkItems, m.listR, forItems]
          refine Ends.bind ((runs_delUnlinked _ _ _).leads.bind ?_) Ends.pure
          exact step_join (N := n + 1) hn m hz (h3 hzm) (fun e he' => N.owners e (hsub (by simp only [List.mem_append] at he' ⊢; exact .inl he')))
            (fun x hx => N.rel x (hx.imp_right fun h => hsub (by simp [h]))) rfl (N.from' z hzm)
        · simp only [addKey, if_neg m.keyR]
          exact Ends.pure
    have := go es [] (by simpa using h2) (by simp)
    simpa using this

theorem runs_wills (l : List (LEv Val)) : Does C A (forEvs (ownerLEv env j of.name) (l.filter LEv.isWill)) A := by
  induction l with
  | nil => exact Does.pure
  | cons e l ih =>
    cases e with
    | will => exact (runs_willChange _ _).bind ih
    | _ => exact ih

/-- an operation on the list that leaves the items `zs` and reports that `D` left and `E` joined -/
theorem leads_listOp {n : Nat} {op : LOp Val} {es : List (Int × Nat)} {log : List (LEv Val)} (hn : env.fuel = n + 4) (hys : A j of.name = .list (ys.map .obj))
    (hop : ownedOp pyEq op (ys.map .obj) = ⟨none, zs.map .obj, log⟩) (hlog : log.filter (fun e => !e.isWill) = (D.map fun y => LEv.del (.obj y)) ++ es.map fun p => LEv.add p.1 (.obj p.2))
    (hback : ∀ y ∈ D, A y f.name = .obj j) (h1 : D.Nodup) (h2 : (es.map Prod.snd).Nodup) (h3 : es.map Prod.snd ⊆ zs) (N : Newcomers env C A j f of D (es.map Prod.snd)) :
    Ends C A (listOp env j of.name op) (midway A j f of zs (idIn env C A j) D (es.map Prod.snd)) := by
  unfold listOp
  refine Ends.look (fun w hw => ?_)
  have ha : w.attr j of.name = .list (ys.map .obj) := by rw [hw.2]; exact hys
  rw [ha]
  simp only [hop, hlog]
  refine (runs_wills log).leads.bind ((runs_rawSet _ _ _).leads.bind (Ends.bind ?_ Ends.pure))
  have : put A j of.name (.list (zs.map .obj)) = midway A j f of zs (idIn env C A j) [] [] := by
    conv_lhs => rw [← midway_start (A := A) (f := f) (idv := idIn env C A j) hys]
    exact midway_put [] []
  rw [this]
  exact leads_reports hn hback h1 h2 h3 N

/-! ### From states to attributes -/

theorem newcomers {w : World} (R : Relations env) (P : PlainPrimary env) (M : Members env w j f of ys) (hD : D ⊆ ys)
    (hE : ∀ z ∈ E, z ∈ D ∨ Joins env w j f of z) : Newcomers env w.classes w.attr j f of D E := by
  refine ⟨?_, ?_, ?_⟩
  · rintro x (hx | hx)
    · exact (M.rel x (hD hx)).om R P
    · rcases hE x hx with h | h
      · exact (M.rel x (hD h)).om R P
      · exact h.rel.om R P
  · intro e he a haj hea
    rcases hE e he with h | h
    · rw [M.back e (hD h)] at hea
      cases hea
      exact (haj rfl).elim
    · rcases h.free with h | ⟨a', vs, _, h1, h2, h3⟩
      · rw [h] at hea; cases hea
      · rw [h1] at hea
        cases hea
        exact ⟨(h2.rel e h3).om R P, vs, h2.objs, h2.back, h2.once, h3⟩
  · intro z hz
    by_cases hzD : z ∈ D
    · exact .inl ⟨hzD, M.back z (hD hzD)⟩
    · refine .inr ⟨hzD, ?_⟩
      rcases hE z hz with h | h
      · exact (hzD h).elim
      · exact h.free.imp_right fun ⟨a, _, h1, h2, _⟩ => ⟨a, h1, h2⟩

theorem regrouped {w w' : World} (R : Relations env) (N : Newcomers env w.classes w.attr j f of D E)
    (h : Holding w' w.classes (midway w.attr j f of zs (idIn env w.classes w.attr j) D E)) : Regrouped env w w' j f of D E zs := by
  classical
  refine ⟨fun a => congrFun h.1 a, ?_, ?_, ?_, ?_, ?_⟩
  · rw [h.2]; simp [midway]
  · intro z hz
    have m := N.rel z (.inr hz)
    have hid : w.id env j = idIn env w.classes w.attr j := Holding.id ⟨rfl, rfl⟩ j
    rw [h.2, hid]
    simp [midway, m.differ, hz, m.distinct]
  · intro y hy hyE
    have m := N.rel y (.inl hy)
    rw [h.2]
    simp [midway, m.differ, hy, hyE]
  · intro a vs haj M
    rw [h.2]
    have hl : (env.cls (w.classes a)).localKey? of.name = none := by
      cases hl : (env.cls (w.classes a)).localKey? of.name with
      | none => rfl
      | some x => exact (R.keys _ _ x of hl M.has).elim
    have ap : (a ∈ D ∨ a ∈ E) → of.name ≠ f.name ∧ of.name ≠ f.refName := fun hx => apart_of (N.rel a hx) M.has hl
    unfold midway
    rw [if_neg (fun h => haj h.1), if_neg (fun h => (ap (.inr h.1)).1 h.2), if_neg (fun h => (ap (.inr h.1)).2 h.2), if_neg (fun h => h.2.elim (ap (.inl h.1)).1 (ap (.inl h.1)).2)]
    split
    · rw [M.objs, dropObjs_map]
    · rename_i hno
      rw [M.objs]
      congr 2
      refine (List.filter_eq_self.2 fun v hv => ?_).symm
      have : v ∉ E := fun he => hno ⟨rfl, v, he, M.back v hv⟩
      simp [this]
  · intro x n c1 c2 c3
    rw [h.2]
    unfold midway
    rw [if_neg c1, if_neg (fun h => c2 ⟨.inr h.1, .inl h.2⟩), if_neg (fun h => c2 ⟨.inr h.1, .inr h.2⟩), if_neg (fun h => c2 ⟨.inl h.1, h.2⟩), if_neg c3]


/-- the lists are consistent again -/
theorem regrouped_members {w w' : World} (R : Relations env) (P : PlainPrimary env) (H : Regrouped env w w' j f of D E zs) (M : Members env w j f of ys) (hz : zs.Nodup)
    (hE : ∀ z ∈ E, z ∈ D ∨ Joins env w j f of z) (hD : D ⊆ ys) (hzs : ∀ z ∈ zs, z ∈ E ∨ z ∈ ys ∧ z ∉ D) : Members env w' j f of zs := by
  have hf : ∀ i g, HasField env w i g → HasField env w' i g := by
    intro i g h
    unfold HasField World.cdef at h ⊢
    rw [H.classes]
    exact h
  have ho : ∀ z ∈ zs, OneToMany env w z j f of := fun z hz => (hzs z hz).elim (fun h => (hE z h).elim (fun h => M.rel z (hD h)) (fun h => h.rel)) (fun h => M.rel z h.1)
  refine ⟨hf _ _ M.has, H.list, fun z hz => ?_, fun z hz => ?_, hz⟩
  · have := ho z hz
    exact ⟨this.differ, hf _ _ this.left, hf _ _ this.right, this.pair, this.kinds, this.keys⟩
  · rcases hzs z hz with h | ⟨h1, h2⟩
    · exact (H.joined z h).1
    · by_cases h3 : z ∈ E
      · exact (H.joined z h3).1
      · have m := (M.rel z h1).om R P
        rw [H.frame z f.name (fun h => m.differ h.1) (fun h => h.1.elim h2 h3) ?_]
        · exact M.back z h1
        · rintro ⟨hn, e, he, hez⟩
          have N := newcomers R P M hD hE
          have := (N.owners e he z m.differ hez).1
          exact (names_apart m this).1 hn.symm

/-! ### Theorems -/

/-- **C84**. `j.of = zs`: the new list holds exactly the objects assigned; those of the old list that are not
among them refer to nothing any more, the new ones refer to `j`, and the lists they were in before lose them. -/
theorem assign_list_effect (R : Relations env) (P : PlainPrimary env) {w w' : World} (hfuel : 4 ≤ env.fuel) (M : Members env w j f of ys) (hz : zs.Nodup)
    (hne : zs ≠ ys) (hzs : ∀ z ∈ zs, z ∈ ys ∨ Joins env w j f of z) (h : (FOp.set of.name (.list (zs.map .obj))).run env j w = (.ok (), w')) :
    Regrouped env w w' j f of ys zs zs := by
  obtain ⟨n, hn⟩ : ∃ n, env.fuel = n + 4 := ⟨env.fuel - 4, by omega⟩
  have N := newcomers R P M (fun _ h => h) hzs
  obtain ⟨x, hx⟩ : ∃ x, x ∈ ys ∨ x ∈ zs := by
    cases ys with
    | cons y ys => exact ⟨y, by simp⟩
    | nil => cases zs with
      | cons z zs => exact ⟨z, by simp⟩
      | nil => exact (hne rfl).elim
  have mx := N.rel x hx
  refine regrouped R N ?_
  have hset : setField env j of.name (.list (zs.map .obj)) w = (.ok (), w') := by
    have hw : Holding w w.classes w.attr := ⟨rfl, rfl⟩
    change setAttr env j of.name (.list (zs.map .obj)) w = _ at h
    unfold setAttr at h
    have := get_bind_ok h
    rw [hw.cdef, mx.plainR] at this
    exact this
  exact leads_assign mx hn M.objs M.back M.once hz hne N w w' ⟨rfl, rfl⟩ hset

/-- **C84**. Any operation on the list that leaves the items `zs` and reports that `D` left and then that `E` joined. -/
theorem list_method_effect (R : Relations env) (P : PlainPrimary env) {w w' : World} {op : LOp Val} {es : List (Int × Nat)} {log : List (LEv Val)} (hfuel : 4 ≤ env.fuel)
    (M : Members env w j f of ys) (hop : ownedOp pyEq op (ys.map .obj) = ⟨none, zs.map .obj, log⟩)
    (hlog : log.filter (fun e => !e.isWill) = (D.map fun y => LEv.del (.obj y)) ++ es.map fun p => LEv.add p.1 (.obj p.2))
    (hD : D ⊆ ys) (hDn : D.Nodup) (hEn : (es.map Prod.snd).Nodup) (hEz : es.map Prod.snd ⊆ zs) (hE : ∀ z ∈ es.map Prod.snd, z ∈ D ∨ Joins env w j f of z)
    (h : (FOp.lst of.name op).run env j w = (.ok (), w')) : Regrouped env w w' j f of D (es.map Prod.snd) zs := by
  obtain ⟨n, hn⟩ : ∃ n, env.fuel = n + 4 := ⟨env.fuel - 4, by omega⟩
  have N := newcomers R P M hD hE
  refine regrouped R N ?_
  exact leads_listOp hn M.objs hop hlog (fun y hy => M.back y (hD hy)) hDn hEn hEz N w w' ⟨rfl, rfl⟩ h


/-- Any operation on the list that leaves the items `zs` and reports that `D` left: it completes. -/
theorem list_removal_effect (R : Relations env) (P : PlainPrimary env) {w : World} {op : LOp Val} {log : List (LEv Val)} (hfuel : 4 ≤ env.fuel)
    (M : Members env w j f of ys) (hop : ownedOp pyEq op (ys.map .obj) = ⟨none, zs.map .obj, log⟩)
    (hlog : log.filter (fun e => !e.isWill) = D.map fun y => LEv.del (.obj y)) (hD : D ⊆ ys) (hDn : D.Nodup) :
    ∃ w', (FOp.lst of.name op).run env j w = (.ok (), w') ∧ Regrouped env w w' j f of D [] zs := by
  obtain ⟨n, hn⟩ : ∃ n, env.fuel = n + 4 := ⟨env.fuel - 4, by omega⟩
  have N : Newcomers env w.classes w.attr j f of D [] := newcomers R P M hD (by simp)
  have hd : Does w.classes w.attr (listOp env j of.name op) (midway w.attr j f of zs (idIn env w.classes w.attr j) D []) := by
    unfold listOp
    refine Does.look (fun v hv => ?_)
    have ha : v.attr j of.name = .list (ys.map .obj) := by rw [hv.2]; exact M.objs
    rw [ha]
    simp only [hop, hlog]
    refine (runs_wills log).bind ((runs_rawSet _ _ _).bind (Does.bind ?_ Does.pure))
    have : put w.attr j of.name (.list (zs.map .obj)) = midway w.attr j f of zs (idIn env w.classes w.attr j) [] [] := by
      conv_lhs => rw [← midway_start (A := w.attr) (f := f) (idv := idIn env w.classes w.attr j) M.objs]
      exact midway_put [] []
    rw [this]
    exact runs_reports hn (fun y hy => M.back y (hD hy)) hDn (fun y hy => N.rel y (.inl hy))
  obtain ⟨w', h1, h2⟩ := hd w ⟨rfl, rfl⟩
  exact ⟨w', h1, regrouped R N h2⟩

/-- **C84**. `j.of.clear()`: every object of the list refers to nothing any more, and nothing else changes. -/
theorem clear_effect (R : Relations env) (P : PlainPrimary env) {w : World} (hfuel : 4 ≤ env.fuel) (M : Members env w j f of ys) :
    ∃ w', (FOp.lst of.name .clear).run env j w = (.ok (), w') ∧ Regrouped env w w' j f of ys [] [] := by
  refine list_removal_effect R P hfuel M (log := .will :: dels (ys.map .obj)) rfl ?_ (fun _ h => h) M.once
  simp [dels, LEv.isWill, List.filter_map, Function.comp_def]

/-- position `k` of a list of length `n`, counted from the front or from the back -/
def AtPos (n k : Nat) (i : Int) : Prop := k < n ∧ (i = k ∨ i = (k : Int) - n)

theorem AtPos.norm {n k : Nat} {i : Int} (h : AtPos n k i) : normIdx n i = some k := by
  obtain ⟨h1, h2⟩ := h
  unfold normIdx
  simp only []
  split
  · rw [if_pos (by omega)]; congr 1; omega
  · rw [if_pos (by omega)]; congr 1; omega

theorem pos_last {n : Nat} (h : 0 < n) : AtPos n (n - 1) (-1) := ⟨by omega, .inr (by omega)⟩

theorem getIdxs_one {vs : List Nat} {k y : Nat} (h : vs[k]? = some y) : getIdxs (vs.map Val.obj) (some k).toList = [.obj y] := by
  simp [getIdxs, h]

theorem eraseIdx_objs (vs : List Nat) (k : Nat) : (vs.map Val.obj).eraseIdx k = (vs.eraseIdx k).map .obj := by
  induction vs generalizing k with
  | nil => rfl
  | cons v vs ih => cases k with
    | zero => rfl
    | succ k => simp [List.eraseIdx, ih]

/-- **C84**. `j.of.pop(i)`: the object at that position, and no other, leaves. -/
theorem pop_effect (R : Relations env) (P : PlainPrimary env) {w : World} {i : Option Int} {k y : Nat} (hfuel : 4 ≤ env.fuel) (M : Members env w j f of ys)
    (hp : AtPos ys.length k (i.getD (-1))) (hy : ys[k]? = some y) :
    ∃ w', (FOp.lst of.name (.pop i)).run env j w = (.ok (), w') ∧ Regrouped env w w' j f of [y] [] (ys.eraseIdx k) := by
  have hn : normIdx (ys.map Val.obj).length (i.getD (-1)) = some k := by rw [List.length_map]; exact hp.norm
  refine list_removal_effect R P hfuel M (log := [.will, .del (.obj y)]) ?_ rfl (by simpa using List.mem_of_getElem? hy) (by simp)
  simp only [ownedOp, withIdx, hn, notified, getIdxs_one hy, dels]
  rw [eraseIdx_objs]
  rfl

/-- **C84**. `del j.of[i]`. -/
theorem delete_effect (R : Relations env) (P : PlainPrimary env) {w : World} {i : Int} {k y : Nat} (hfuel : 4 ≤ env.fuel) (M : Members env w j f of ys)
    (hp : AtPos ys.length k i) (hy : ys[k]? = some y) :
    ∃ w', (FOp.lst of.name (.delIdx i)).run env j w = (.ok (), w') ∧ Regrouped env w w' j f of [y] [] (ys.eraseIdx k) := by
  have hn : normIdx (ys.map Val.obj).length i = some k := by rw [List.length_map]; exact hp.norm
  refine list_removal_effect R P hfuel M (log := [.will, .del (.obj y)]) ?_ rfl (by simpa using List.mem_of_getElem? hy) (by simp)
  simp only [ownedOp, withIdx, hn, notified, getIdxs_one hy, dels]
  rw [eraseIdx_objs]
  rfl

/-- the position before which an insertion at `i` puts the new item in a list of length `n` -/
def BeforePos (n k : Nat) (i : Int) : Prop := 0 ≤ i ∧ (k : Int) = min i n ∨ i < 0 ∧ (k : Int) = max 0 (n + i)

/-- **C84**. `j.of.insert(i, z)`: `z` joins, and leaves the list it was in. -/
theorem insert_effect (R : Relations env) (P : PlainPrimary env) {w w' : World} {i : Int} {k z : Nat} (hfuel : 4 ≤ env.fuel) (M : Members env w j f of ys)
    (hp : BeforePos ys.length k i) (hz : Joins env w j f of z) (h : (FOp.lst of.name (.insert i (.obj z))).run env j w = (.ok (), w')) :
    Regrouped env w w' j f of [] [z] (ys.take k ++ z :: ys.drop k) := by
  refine list_method_effect R P hfuel M (op := .insert i (.obj z)) (D := []) (es := [(min (ys.map Val.obj).length i, z)]) (log := [.will, .add (min (ys.map Val.obj).length i) (.obj z)]) ?_ rfl (by simp) (by simp) (by simp) ?_ ?_ h
  · have hk : (if i < 0 then (i + ys.length).toNat else min i.toNat ys.length) = k := by
      rcases hp with ⟨h1, h2⟩ | ⟨h1, h2⟩
      · rw [if_neg (by omega)]; omega
      · rw [if_pos h1]; omega
    simp [ownedOp, pyInsert, hk, ← List.map_take, ← List.map_drop]
  · simp
  · simpa using hz

/-- **C84**. `j.of.extend(zs)`, `j.of += zs`: the objects join one after the other. -/
theorem extend_effect (R : Relations env) (P : PlainPrimary env) {w w' : World} {op : LOp Val} (hop : op = .extend (.seq (zs.map .obj)) ∨ op = .iadd (.seq (zs.map .obj)))
    (hfuel : 4 ≤ env.fuel) (M : Members env w j f of ys) (hn : zs.Nodup) (hz : ∀ z ∈ zs, Joins env w j f of z) (h : (FOp.lst of.name op).run env j w = (.ok (), w')) :
    Regrouped env w w' j f of [] zs (ys ++ zs) := by
  have adds : ∀ (zs : List Nat) (k : Int), ∃ es : List (Int × Nat), es.map Prod.snd = zs ∧ addsFrom 1 k (zs.map Val.obj) = es.map fun p => LEv.add p.1 (.obj p.2) := by
    intro zs
    induction zs with
    | nil => exact fun k => ⟨[], rfl, rfl⟩
    | cons z zs ih =>
      intro k
      obtain ⟨es, h1, h2⟩ := ih (k + 1)
      exact ⟨(k, z) :: es, by simp [h1], by simp [addsFrom, h2]⟩
  obtain ⟨es, h1, h2⟩ := adds zs (ys.map Val.obj).length
  have hlog : ((if (zs.map Val.obj).length > 0 then [LEv.will] else []) ++ addsFrom 1 ((ys.map Val.obj).length : Int) (zs.map Val.obj)).filter (fun e => !e.isWill) = es.map fun p => LEv.add p.1 (.obj p.2) := by
    rw [h2, List.filter_append]
    have : (if (zs.map Val.obj).length > 0 then [LEv.will] else ([] : List (LEv Val))).filter (fun e => !e.isWill) = [] := by split <;> rfl
    rw [this, List.nil_append]
    refine List.filter_eq_self.2 fun a ha => ?_
    obtain ⟨p, _, rfl⟩ := List.mem_map.1 ha
    rfl
  have := list_method_effect R P hfuel M (op := op) (zs := ys ++ zs) (D := []) (es := es) (by
    rcases hop with rfl | rfl <;> simp only [ownedOp, ownedExtend, ItArg.items, ItArg.again, List.map_append] <;> rfl) hlog (by simp) (by simp) (h1 ▸ hn) (by rw [h1]; simp)
    (by rw [h1]; exact fun z hz' => .inr (hz z hz')) h
  rwa [h1] at this

/-- **C84**. `j.of[i] = z`: the object at that position leaves and `z` joins; nothing happens if it is the same object. -/
theorem replace_effect (R : Relations env) (P : PlainPrimary env) {w w' : World} {i : Int} {k y z : Nat} (hfuel : 4 ≤ env.fuel) (M : Members env w j f of ys)
    (hp : AtPos ys.length k i) (hy : ys[k]? = some y) (hz : z = y ∨ Joins env w j f of z) (h : (FOp.lst of.name (.setIdx i (.obj z))).run env j w = (.ok (), w')) :
    Regrouped env w w' j f of [y] [z] (ys.set k z) := by
  have hn : normIdx (ys.map Val.obj).length i = some k := by rw [List.length_map]; exact hp.norm
  refine list_method_effect R P hfuel M (op := .setIdx i (.obj z)) (zs := ys.set k z) (D := [y]) (es := [(if i < 0 then (ys.map Val.obj).length + i else i, z)]) (log := [.will, .del (.obj y), .add (if i < 0 then (ys.map Val.obj).length + i else i) (.obj z)]) ?_ rfl (by simpa using List.mem_of_getElem? hy) (by simp) (by simp) ?_ ?_ h
  · simp only [ownedOp, withIdx, hn, notified, getIdxs_one hy, dels]
    simp [List.map_set]
  · have hk := hp.1
    simpa using List.mem_set hk z
  · simpa using hz


end JC

namespace JC.SymDemo
open JC
open JC.Demo (user post fId fPosts fAuthor attrsOf)

theorem posts0 : Members Demo.env blog 0 fAuthor fPosts [2, 3] where
  has := rfl
  objs := rfl
  rel := by
    intro y hy
    simp only [List.mem_cons, List.not_mem_nil, or_false] at hy
    rcases hy with rfl | rfl
    · exact by0
    · exact ⟨by decide, by rfl, by rfl, paired_author, ⟨rfl, rfl⟩, ⟨rfl, by decide⟩⟩
  back := by
    intro y hy
    simp only [List.mem_cons, List.not_mem_nil, or_false] at hy
    rcases hy with rfl | rfl <;> rfl
  once := by decide

theorem posts1 : Members Demo.env blog 1 fAuthor fPosts [] := ⟨rfl, rfl, by simp, by simp, by simp⟩

theorem joins0 : Joins Demo.env blog 0 fAuthor fPosts 4 := ⟨⟨by decide, by rfl, by rfl, paired_author, ⟨rfl, rfl⟩, ⟨rfl, by decide⟩⟩, .inl rfl⟩
theorem joins1 : Joins Demo.env blog 1 fAuthor fPosts 2 := ⟨by1, .inr ⟨0, [2, 3], by decide, rfl, posts0, by simp⟩⟩
theorem joins1' : Joins Demo.env blog 1 fAuthor fPosts 4 := ⟨⟨by decide, by rfl, by rfl, paired_author, ⟨rfl, rfl⟩, ⟨rfl, by decide⟩⟩, .inl rfl⟩

/-- `user0.posts = [post4, post3]`: post 2 is without author, post 3 stays, post 4 joins. -/
example : Regrouped Demo.env blog ((FOp.set "posts" (.list [.obj 4, .obj 3])).run Demo.env 0 blog).2 0 fAuthor fPosts [2, 3] [4, 3] [4, 3] :=
  assign_list_effect relations plainPrimary (by decide) posts0 (by decide) (by decide)
    (by
      intro z hz
      simp only [List.mem_cons, List.not_mem_nil, or_false] at hz
      rcases hz with rfl | rfl
      · exact .inr joins0
      · exact .inl (by simp))
    (TrackDemo.completes_eq (by decide +kernel))

/-- `user1.posts = [post2, post4]`: post 2 leaves user 0. -/
theorem regroup1 : Regrouped Demo.env blog ((FOp.set "posts" (.list [.obj 2, .obj 4])).run Demo.env 1 blog).2 1 fAuthor fPosts [] [2, 4] [2, 4] :=
  assign_list_effect relations plainPrimary (by decide) posts1 (by decide) (by decide)
    (by
      intro z hz
      simp only [List.mem_cons, List.not_mem_nil, or_false] at hz
      rcases hz with rfl | rfl
      · exact .inr joins1
      · exact .inr joins1')
    (TrackDemo.completes_eq (by decide +kernel))
example : ((FOp.set "posts" (.list [.obj 2, .obj 4])).run Demo.env 1 blog).2.attr 0 "posts" = .list [.obj 3] := regroup1.others 0 [2, 3] (by decide) posts0
example : Members Demo.env ((FOp.set "posts" (.list [.obj 2, .obj 4])).run Demo.env 1 blog).2 1 fAuthor fPosts [2, 4] :=
  regrouped_members relations plainPrimary regroup1 posts1 (by decide)
    (by
      intro z hz
      simp only [List.mem_cons, List.not_mem_nil, or_false] at hz
      rcases hz with rfl | rfl
      · exact .inr joins1
      · exact .inr joins1') (by simp) (by simp)

example := clear_effect relations plainPrimary (by decide) posts0
example := pop_effect relations plainPrimary (i := none) (k := 1) (y := 3) (by decide) posts0 ⟨by decide, by decide⟩ rfl
example := delete_effect relations plainPrimary (i := 0) (k := 0) (y := 2) (by decide) posts0 ⟨by decide, by decide⟩ rfl
example : Regrouped Demo.env blog ((FOp.lst "posts" (.insert 1 (.obj 4))).run Demo.env 0 blog).2 0 fAuthor fPosts [] [4] [2, 4, 3] :=
  insert_effect relations plainPrimary (i := 1) (k := 1) (by decide) posts0 (.inl (by decide)) joins0 (TrackDemo.completes_eq (by decide +kernel))
example : Regrouped Demo.env blog ((FOp.lst "posts" (.setIdx (-1) (.obj 4))).run Demo.env 0 blog).2 0 fAuthor fPosts [3] [4] [2, 4] :=
  replace_effect relations plainPrimary (i := -1) (k := 1) (by decide) posts0 ⟨by decide, by decide⟩ rfl (.inr joins0) (TrackDemo.completes_eq (by decide +kernel))
example : Regrouped Demo.env blog ((FOp.lst "posts" (.extend (.seq [.obj 2, .obj 4]))).run Demo.env 1 blog).2 1 fAuthor fPosts [] [2, 4] [2, 4] :=
  extend_effect relations plainPrimary (.inl rfl) (by decide) posts1 (by decide)
    (by
      intro z hz
      simp only [List.mem_cons, List.not_mem_nil, or_false] at hz
      rcases hz with rfl | rfl
      · exact joins1
      · exact joins1')
    (TrackDemo.completes_eq (by decide +kernel))
/-- `del user0.posts[0:2]` through the general theorem -/
example := list_removal_effect relations plainPrimary (op := .delSlice ⟨some 0, some 2, none⟩) (zs := []) (D := [2, 3]) (by decide) posts0 (log := [.will, .del (.obj 2), .del (.obj 3)]) (by rfl) rfl (by simp) (by decide)
/-- `user0.posts[0:1] = [post4]` through the general theorem -/
example : Regrouped Demo.env blog ((FOp.lst "posts" (.setSlice ⟨some 0, some 1, none⟩ (.seq [.obj 4]))).run Demo.env 0 blog).2 0 fAuthor fPosts [2] [4] [4, 3] :=
  list_method_effect relations plainPrimary (by decide) posts0 (es := [(0, 4)]) (log := [.will, .del (.obj 2), .add 0 (.obj 4)]) (by rfl) rfl (by simp) (by decide) (by decide) (by decide)
    (by simpa using joins0) (TrackDemo.completes_eq (by decide +kernel))

end JC.SymDemo
