import Verif.Props.Merge

/-
C75: how an input is spelled does not matter: the order of its entries, and which of the two
names of a field is used.
-/
namespace JC
variable {env : Env}

/-! ### Specification -/

/-- The reference ids a dict gives for a relation, under the id's own name and under its name in
JSON, as far as they are not None. -/
def refsGiven (f : Field) (kvs : List (String × Val)) : List Val :=
  ([dictGet kvs f.refName, dictGet kvs f.jrefName].filterMap id).filter (fun v => !v.isNone)

/-- The first key of a dict that is no name of class `C`, if there is one. -/
def firstUnknown (env : Env) (C : String) (kvs : List (String × Val)) : Option String :=
  (kvs.map Prod.fst).find? (fun k => !((env.cls C).availableNames.contains k))

/-- What a value for key `n` is taken to be when it is missing. -/
def lookupNone (kvs : List (String × Val)) (n : String) : Val := (dictGet kvs n).getD .none

/-- The list commands `_add` and `_del` in a dict. -/
def commandsOf : Val → Option Val × Option Val
  | .dict kvs => (dictGet kvs "_add", dictGet kvs "_del")
  | _ => (none, none)

/-- Two inputs for a field with the given modifiers say the same: they are the same, or dicts for
an object that say the same about every field, every reference id and the primary key, or lists
or dicts of such inputs. -/
inductive SameSense (env : Env) : List Mod → Val → Val → Prop where
  | same (ms : List Mod) (v : Val) : SameSense env ms v v
  | object {ms : List Mod} {C : String} {st : Option Bool} {a b : List (String × Val)} : Around ms (.instOf C st) →
      (∀ f ∈ (env.cls C).fields, Gives f a ↔ Gives f b) →
      (∀ f ∈ (env.cls C).fields, SameSense env f.chain (givenValue f a) (givenValue f b)) →
      (∀ f ∈ (env.cls C).fields, refsGiven f a = refsGiven f b) →
      (∀ n, (env.cls C).primary = some n → lookupNone a n = lookupNone b n) →
      (st.getD (env.cls C).strictInput = true → firstUnknown env C a = firstUnknown env C b) → SameSense env ms (.dict a) (.dict b)
  | list {ms item : List Mod} {nn : Bool} {sp : Special} {xs ys : List Val} : Around ms (.listOf nn sp item) →
      xs.length = ys.length → (∀ (i : Nat) x y, xs[i]? = some x → ys[i]? = some y → SameSense env item x y) →
      (∀ (i : Nat) x y, xs[i]? = some x → ys[i]? = some y → commandsOf x = commandsOf y) → SameSense env ms (.list xs) (.list ys)
  | dict {ms item : List Mod} {nn : Bool} {xs ys : List (String × Val)} : Around ms (.dictOf nn item) →
      xs.map Prod.fst = ys.map Prod.fst → (∀ (i : Nat) x y, xs[i]? = some x → ys[i]? = some y → SameSense env item x.2 y.2) →
      SameSense env ms (.dict xs) (.dict ys)

/-- Two dicts of arguments for an object of class `C` say the same: about every field, about every
reference id, about the primary key, and, if unknown keys are refused, about these. -/
structure SameArguments (env : Env) (C : String) (a b : List (String × Val)) : Prop where
  given : ∀ f ∈ (env.cls C).fields, Gives f a ↔ Gives f b
  values : ∀ f ∈ (env.cls C).fields, SameSense env f.chain (givenValue f a) (givenValue f b)
  refs : ∀ f ∈ (env.cls C).fields, refsGiven f a = refsGiven f b
  primary : ∀ n, (env.cls C).primary = some n → lookupNone a n = lookupNone b n
  unknown : (env.cls C).strictInput = true → firstUnknown env C a = firstUnknown env C b

/-- `a` with key `x` written `y` -/
def renameKey (x y : String) (a : List (String × Val)) : List (String × Val) := a.map (fun e => if e.1 = x then (y, e.2) else e)

/-! ### Classes of objects do not change -/

/-- Everything in the mark graph is an object of the class it is listed under. -/
def MarksTyped (w : World) : Prop := ∀ e ∈ w.marks, e.2 < w.next ∧ (w.heap e.2).cls = e.1.1

/-- Since `w₀` objects have kept their classes, and the mark graph is fine. -/
structure SinceW (w₀ w : World) : Prop where
  next : w₀.next ≤ w.next
  cls : ∀ j, j < w₀.next → (w.heap j).cls = (w₀.heap j).cls
  marks : MarksTyped w

theorem SinceW.refl {w : World} (h : MarksTyped w) : SinceW w w := ⟨Nat.le_refl _, fun _ _ => rfl, h⟩

theorem SinceW.trans {a b c : World} (h : SinceW a b) (h' : SinceW b c) : SinceW a c :=
  ⟨Nat.le_trans h.next h'.next, fun j hj => (h'.cls j (Nat.lt_of_lt_of_le hj h.next)).trans (h.cls j hj), h'.marks⟩

theorem sinceW_rawSet {w₀ w : World} (h : SinceW w₀ w) (i : Nat) (n : String) (v : Val) : SinceW w₀ (rawSet i n v w).2 := by
  have hc : ∀ j, ((rawSet i n v w).2.heap j).cls = (w.heap j).cls := by
    intro j
    simp only [rawSet, updObj, Py.modify_run, World.upd]
    split
    · rename_i h; subst h; rfl
    · rfl
  exact ⟨h.next, fun j hj => (hc j).trans (h.cls j hj), fun e he => ⟨(h.marks e he).1, (hc _).trans (h.marks e he).2⟩⟩

theorem sinceW_link (w₀ : World) : LinkClosed env (SinceW w₀) where
  quiet := fun w w' h hq => by
    have hc : ∀ j, (w'.heap j).cls = (w.heap j).cls := fun j => (hq.2.2 j).1
    refine ⟨by rw [hq.1]; exact h.next, fun j hj => (hc j).trans (h.cls j hj), fun e he => ?_⟩
    rw [hq.2.1] at he
    exact ⟨by rw [hq.1]; exact (h.marks e he).1, (hc _).trans (h.marks e he).2⟩
  rel := fun _ i n v _ h => sinceW_rawSet h i n v

/-- contexts whose object to write to exists -/
def OldOriginal (w₀ : World) (c : Ctx) : Prop := ∀ o, c.original = some o → o < w₀.next

theorem sinceW_visKp {w₀ : World} {n : Nat} (ht : ∀ cls st c, OldOriginal w₀ c → Kp' (SinceW w₀) ((instOps env n cls st).transform c)) :
    VisKp env (SinceW w₀) (OldOriginal w₀) (fun _ => False) (instOps env n) where
  link := sinceW_link w₀
  noMarks := instOps_noMarks env n
  nval := fun _ _ h => h
  colval := fun _ _ _ _ o ho => by cases ho
  alter := fun _ h => h
  transform := ht
  validate := fun _ _ _ h => h.elim

theorem sinceW_mark {w₀ w : World} (h : SinceW w₀ w) {i : Nat} (hi : i < w.next) (k : MarkKey) :
    SinceW w₀ { w with marks := (((w.heap i).cls, k), i) :: w.marks } := by
  refine ⟨h.next, h.cls, fun e he => ?_⟩
  rcases List.mem_cons.1 he with rfl | he
  · exact ⟨hi, rfl⟩
  · exact h.marks e he

theorem sinceW_markPut {w₀ w : World} (h : SinceW w₀ w) {i : Nat} (hi : i < w.next) : SinceW w₀ (w.markPut env i) := by
  unfold World.markPut
  simp only []
  split <;> exact sinceW_mark h hi _

theorem alloc_sinceW {w₀ w : World} (h : SinceW w₀ w) (cls : String) : SinceW w₀ (alloc env cls w).2 := by
  have hc : ∀ j, j < w.next → ((alloc env cls w).2.heap j).cls = (w.heap j).cls := by
    intro j hj
    simp only [alloc]
    rw [if_neg (Nat.ne_of_lt hj)]
  refine ⟨Nat.le_trans h.next (Nat.le_succ _), fun j hj => (hc j (Nat.lt_of_lt_of_le hj h.next)).trans (h.cls j hj), fun e he => ?_⟩
  exact ⟨Nat.lt_succ_of_lt (h.marks e he).1, (hc _ (h.marks e he).1).trans (h.marks e he).2⟩

/-- a call with its own mark graph -/
theorem sinceW_fresh {α : Type} {w₀ : World} {m : Py World α} (h : ∀ w₁, Kp' (SinceW w₁) m ∨ ¬ w₀.next ≤ w₁.next) :
    Kp' (SinceW w₀) (withFreshMarks m) := by
  intro w hw
  refine ⟨?_, fun _ _ => trivial⟩
  rcases h w with h | h
  · have h0 : SinceW w { w with marks := [] } := ⟨Nat.le_refl _, fun _ _ => rfl, fun e he => by cases he⟩
    have := (h { w with marks := [] } h0).1
    unfold withFreshMarks
    rcases hr : m { w with marks := [] } with ⟨r, w'⟩
    rw [hr] at this
    refine ⟨Nat.le_trans hw.next this.next, fun j hj => (this.cls j (Nat.lt_of_lt_of_le hj hw.next)).trans (hw.cls j hj), fun e he => ?_⟩
    exact ⟨Nat.lt_of_lt_of_le (hw.marks e he).1 this.next, (this.cls _ (hw.marks e he).1).trans (hw.marks e he).2⟩
  · exact absurd hw.next h

/-- a constructed object exists and has the class asked for -/
theorem newObj_sinceW {n : Nat} (ht : ∀ w₀ cls st c, OldOriginal w₀ c → Kp' (SinceW w₀) ((instOps env n cls st).transform c))
    (cls : String) (kvs : List (String × Val)) {w₀ w : World} (hw : SinceW w₀ w) :
    SinceW w₀ (newObj env (instOps env n) cls kvs w).2 ∧
    ∀ i, (newObj env (instOps env n) cls kvs w).1 = .ok i →
      i < (newObj env (instOps env n) cls kvs w).2.next ∧ ((newObj env (instOps env n) cls kvs w).2.heap i).cls = cls := by
  unfold newObj
  split
  · exact ⟨hw, fun i h => by cases h⟩
  have h1 := alloc_sinceW (env := env) hw cls
  have hi1 : w.next < (alloc env cls w).2.next := Nat.lt_succ_self _
  have hc1 : ((alloc env cls w).2.heap w.next).cls = cls := by simp [alloc, freshObj]
  have hrun : ∀ k : Nat → Py World Nat, (alloc env cls >>= k) w = k w.next (alloc env cls w).2 := fun _ => rfl
  rw [hrun]
  generalize (alloc env cls w).2 = w₁ at *
  have hsd : Kp' (SinceW w₁) (setDict (instOps env n) w.next kvs true) := by
    unfold setDict
    refine Kp.get.bind (fun u hu => ?_)
    refine Kp.bind' (sinceW_fresh (fun w₂ => ?_)) (fun _ => Kp.pure' _)
    by_cases hle : w₁.next ≤ w₂.next
    · refine Or.inl (ht w₂ _ _ _ ?_)
      intro o ho
      cases ho
      exact Nat.lt_of_lt_of_le hi1 hle
    · exact Or.inr hle
  have hall : Kp (SinceW w₁) (setDict (instOps env n) w.next kvs true >>= fun _ => graphPutSelf env w.next >>= fun _ => pure w.next)
      (fun i => i = w.next) :=
    hsd.bind' (fun _ => (kp_graphPutSelf (sinceW_link w₁) _).bind' (fun _ => Kp.pure rfl))
  obtain ⟨g1, g2⟩ := hall w₁ (SinceW.refl h1.marks)
  refine ⟨h1.trans g1, fun i hi => ?_⟩
  have := g2 i hi
  subst this
  exact ⟨Nat.lt_of_lt_of_le hi1 g1.next, (g1.cls _ hi1).trans hc1⟩

/-- the object found for a dict exists and has the class asked for -/
theorem findDest_sinceW {n : Nat} (ht : ∀ w₀ cls st c, OldOriginal w₀ c → Kp' (SinceW w₀) ((instOps env n cls st).transform c))
    {cls : String} {c : Ctx} {kvs : List (String × Val)} {w₀ w : World} (hw : SinceW w₀ w) (hc : OldOriginal w c) :
    SinceW w₀ (findDest env (instOps env n) cls c kvs w).2 ∧
    ∀ d, (findDest env (instOps env n) cls c kvs w).1 = .ok d →
      d.1 < (findDest env (instOps env n) cls c kvs w).2.next ∧
      (c.original = none → ((findDest env (instOps env n) cls c kvs w).2.heap d.1).cls = cls) ∧
      (∀ o, c.original = some o → d.1 = o) := by
  cases ho : c.original with
  | some o =>
    have hi := hc o ho
    simp only [findDest, ho]
    refine ⟨?_, fun d hd => ?_⟩
    · unfold pyWhen
      split
      · exact sinceW_mark hw hi _
      · exact hw
    · unfold pyWhen at hd ⊢
      split at hd <;> rename_i hb <;> first | rw [if_pos hb] | rw [if_neg hb]
      all_goals cases hd; exact ⟨hi, (fun h => by cases h), (fun o' h' => by cases h'; rfl)⟩
  | none =>
    simp only [findDest, ho]
    have hnew : ∀ (g : Nat → World → World), (∀ u i, SinceW w₀ u → i < u.next → SinceW w₀ (g i u)) →
        (∀ u i, (g i u).heap = u.heap ∧ (g i u).next = u.next) →
        SinceW w₀ ((newObj env (instOps env n) cls [] >>= fun i => Py.modify (g i) >>= fun _ => pure (i, false)) w).2 ∧
        ∀ d : Nat × Bool, ((newObj env (instOps env n) cls [] >>= fun i => Py.modify (g i) >>= fun _ => pure (i, false)) w).1 = .ok d →
          d.1 < ((newObj env (instOps env n) cls [] >>= fun i => Py.modify (g i) >>= fun _ => pure (i, false)) w).2.next ∧
          (((newObj env (instOps env n) cls [] >>= fun i => Py.modify (g i) >>= fun _ => pure (i, false)) w).2.heap d.1).cls = cls := by
      intro g hg hs
      obtain ⟨a1, a2⟩ := newObj_sinceW ht cls [] hw
      rw [Py.bind_run]
      rcases hr : newObj env (instOps env n) cls [] w with ⟨r, u⟩
      rw [hr] at a1 a2
      cases r with
      | error e => exact ⟨a1, fun d hd => by cases hd⟩
      | ok i =>
        obtain ⟨b1, b2⟩ := a2 i rfl
        refine ⟨hg u i a1 b1, fun d hd => ?_⟩
        cases hd
        exact ⟨by show i < (g i u).next; rw [(hs u i).2]; exact b1, by show ((g i u).heap i).cls = cls; rw [(hs u i).1]; exact b2⟩
    split
    · obtain ⟨q1, q2⟩ := hnew (fun i u => u.markPut env i) (fun u i hu hi => sinceW_markPut hu hi)
        (fun u i => by obtain ⟨k, hk⟩ := markPut_cons env i u; simp only [hk]; exact ⟨trivial, trivial⟩)
      exact ⟨q1, fun d hd => ⟨(q2 d hd).1, fun _ => (q2 d hd).2, fun o h => by cases h⟩⟩
    · rw [show ∀ k : World → Py World (Nat × Bool), (Py.get >>= k) w = k w w from fun _ => rfl]
      cases hm : mLookup (cls, .pk (env.pystr (inputPk env cls kvs))) w.marks with
      | some o =>
        refine ⟨hw, fun d hd => ?_⟩
        cases hd
        obtain ⟨m1, m2⟩ := hw.marks _ (lookup_mem hm)
        exact ⟨m1, fun _ => m2, fun o h => by cases h⟩
      | none =>
        obtain ⟨q1, q2⟩ := hnew (fun i u => u.markPutp env (inputPk env cls kvs) i) (fun u i hu hi => sinceW_mark hu hi _)
          (fun u i => ⟨rfl, rfl⟩)
        exact ⟨q1, fun d hd => ⟨(q2 d hd).1, fun _ => (q2 d hd).2, fun o h => by cases h⟩⟩

theorem apply_sinceW (hE : EagerSafe env) {n : Nat}
    (ht : ∀ w₀ cls st c, OldOriginal w₀ c → Kp' (SinceW w₀) ((instOps env n cls st).transform c)) (w₀ : World)
    (cls : String) (st : Option Bool) (c : Ctx) (dest : Nat) (soft : Bool) (kvs : List (String × Val)) :
    Kp' (SinceW w₀) (applyDict env (Field.ops env (instOps env n)) cls st c dest soft kvs) := by
  refine kp_applyDict_free (sinceW_link w₀) ?_ ?_
  · intro cls' f hf c' ho _
    exact kp_field_transform (sinceW_visKp (ht w₀)) (hE cls' f hf) (by intro o h; rw [ho] at h; cases h)
  · intro _ _ f _ _ v w hw
    exact ⟨sinceW_rawSet hw dest f.name v, fun _ _ => trivial⟩

theorem inst_sinceW (hE : EagerSafe env) (n : Nat) : ∀ w₀ cls st c, OldOriginal w₀ c → Kp' (SinceW w₀) ((instOps env n cls st).transform c) := by
  induction n with
  | zero => intro _ cls st c _; exact Kp.raise _
  | succ n ih =>
    intro w₀ cls st c hc
    simp only [instOps, instTransform]
    have hfd : ∀ kvs, Kp' (SinceW w₀) (findDest env (instOps env n) cls c kvs) := fun kvs w hw =>
      ⟨(findDest_sinceW ih hw (fun o ho => Nat.lt_of_lt_of_le (hc o ho) hw.next)).1, fun _ _ => trivial⟩
    split
    · exact Kp.pure' _
    · exact (hfd _).bind' (fun d => (apply_sinceW hE ih w₀ cls st c d.1 d.2 _).bind' (fun _ => Kp.pure' _))
    · exact Kp.pure' _

/-! ### Same sense, same effect -/

theorem gives_has {f : Field} {a b : List (String × Val)} (h : Gives f a ↔ Gives f b) : hasFieldValue f a = hasFieldValue f b := by
  rw [Bool.eq_iff_iff, gives_iff, gives_iff]
  exact h

theorem refKeys_same {dest : Nat} {f : Field} {a b : List (String × Val)} (h : refsGiven f a = refsGiven f b) :
    (setRefKey env dest f.refName a f.refName >>= fun _ => setRefKey env dest f.refName a f.jrefName) =
    (setRefKey env dest f.refName b f.refName >>= fun _ => setRefKey env dest f.refName b f.jrefName) := by
  have key : ∀ kvs : List (String × Val), (setRefKey env dest f.refName kvs f.refName >>= fun _ => setRefKey env dest f.refName kvs f.jrefName) =
      (match refsGiven f kvs with
      | [] => pure ()
      | [v] => setAttr env dest f.refName v
      | v :: v' :: _ => (setAttr env dest f.refName v >>= fun _ => setAttr env dest f.refName v')) := by
    intro kvs
    have hz : Val.none.isNone = true := rfl
    unfold setRefKey refsGiven getD
    cases h1 : dictGet kvs f.refName with
    | none =>
      cases h2 : dictGet kvs f.jrefName with
      | none => rfl
      | some y =>
        cases h3 : y.isNone <;> simp [h3, hz]
    | some x =>
      cases h2 : dictGet kvs f.jrefName with
      | none =>
        cases h3 : x.isNone <;> simp [h3, hz]
      | some y =>
        cases h3 : x.isNone <;> cases h4 : y.isNone <;> simp [h3, h4]
  rw [key a, key b, h]

theorem strict_same {c : Ctx} (names : List String) : ∀ kvs : List (String × Val),
    strictCheck c names kvs = match (kvs.map Prod.fst).find? (fun k => !(names.contains k)) with
      | none => .ok ()
      | some k => .error (.validation [(concatKeypath [.s (dotJoin (c.keypathr.map Key.str)), .s k], "key is not allowed")])
  | [] => rfl
  | (k, v) :: r => by
    unfold strictCheck
    rw [strict_same names r]
    by_cases hk : k ∈ names
    · rw [if_pos hk, List.map_cons, List.find?_cons_of_neg (by simpa using hk)]
    · rw [if_neg hk, List.map_cons, List.find?_cons_of_pos (by simpa using hk)]

theorem special_same {sp : Special} {c : Ctx} {k : Key} {x y : Val} (h : commandsOf x = commandsOf y) :
    (colEnv env sp).special c k x = (colEnv env sp).special c k y := by
  have key : ∀ z : Val, (colEnv env sp).special c k z =
      if sp ≠ .no ∧ ((commandsOf z).1.isSome ∨ (commandsOf z).2.isSome) then
        some (match c.owner, c.keypatho.getLast? with
          | some o, some (.s fname) =>
            let go (add : Bool) (k : Val) : Py World Unit :=
              if sp = .localKeys then linkLocalKeys env add o fname k else addLinkKey add o fname k
            match (commandsOf z).1 with
            | some k => go true k
            | none => match (commandsOf z).2 with
              | some k => go false k
              | none => pure ()
          | _, _ => Py.raise .attributeError)
      else none := by
    intro z
    cases z with
    | dict kvs => rfl
    | _ => simp [colEnv, commandsOf]
  rw [key x, key y, h]

/-- the item loop -/
theorem loop_same {ce : ColEnv World} {f : Ctx → Py World Val} {c : Ctx} (hc : ∀ w, (ce.ownerConf c w).2 = w)
    (hk : ∀ v k w, MarksTyped w → MarksTyped (f (c.colval v k) w).2)
    (hsp : ∀ k v act, ce.special c k v = some act → ∀ w, MarksTyped w → MarksTyped (act w).2) :
    ∀ (es es' : List (Key × Val)), es.map Prod.fst = es'.map Prod.fst →
      (∀ (i : Nat) k x y, es[i]? = some (k, x) → es'[i]? = some (k, y) →
        ce.special c k x = ce.special c k y ∧ ∀ w, MarksTyped w → f (c.colval x k) w = f (c.colval y k) w) →
      ∀ w, MarksTyped w → colMapLoop ce true f c es w = colMapLoop ce true f c es' w
  | [], [], _, _, _, _ => rfl
  | [], _ :: _, h, _, _, _ => by cases h
  | _ :: _, [], h, _, _, _ => by cases h
  | (k, x) :: es, (k', y) :: es', hks, hall, w, hw => by
    simp only [List.map_cons, List.cons.injEq] at hks
    obtain ⟨rfl, hks⟩ := hks
    obtain ⟨h1, h2⟩ := hall 0 k x y rfl rfl
    have ih := loop_same hc hk hsp es es' hks (fun i k x y hx hy => hall (i + 1) k x y hx hy)
    simp only [colMapLoop, if_true]
    rw [h1]
    cases hs : ce.special c k y with
    | some act =>
      simp only [Py.bind_run]
      rcases hr : act w with ⟨e | a, w'⟩
      · rfl
      · simp only []
        exact ih w' (by have := hsp k y act hs w hw; rw [hr] at this; exact this)
    | none =>
      simp only [Py.bind_run]
      rw [h2 w hw]
      have hty := hk y k w hw
      rcases hr : f (c.colval y k) w with ⟨e | a, w'⟩
      · rfl
      · rw [hr] at hty
        simp only []
        have hcc := hc w'
        rcases hq : ce.ownerConf c w' with ⟨e | u, w''⟩
        · rfl
        · rw [hq] at hcc
          subst hcc
          simp only []
          rw [ih _ hty]

theorem loop_nval {sp : Special} {b : Bool} {f : Ctx → Py World Val} {c : Ctx} (z : Val) : ∀ es : List (Key × Val),
    colMapLoop (colEnv env sp) b f (c.nval z) es = colMapLoop (colEnv env sp) b f c es
  | [] => rfl
  | (k, v) :: es => by
    simp only [colMapLoop]
    rw [loop_nval z es]
    rfl

theorem enumVals_keys : ∀ (xs ys : List Val) (k : Nat), xs.length = ys.length →
    (enumVals k xs).map Prod.fst = (enumVals k ys).map Prod.fst
  | [], [], _, _ => rfl
  | [], _ :: _, _, h => by cases h
  | _ :: _, [], _, h => by cases h
  | x :: xs, y :: ys, k, h => by
    simp only [enumVals, List.map_cons]
    rw [enumVals_keys xs ys (k + 1) (by simpa using h)]

theorem enumVals_get : ∀ (xs : List Val) (k i : Nat) (q : Key) (x : Val), (enumVals k xs)[i]? = some (q, x) → xs[i]? = some x
  | [], _, _, _, _, h => by simp [enumVals] at h
  | z :: xs, k, 0, q, x, h => by
    simp only [enumVals, List.getElem?_cons_zero, Option.some.injEq, Prod.mk.injEq] at h
    simp [h.2]
  | z :: xs, k, i + 1, q, x, h => by
    simp only [enumVals, List.getElem?_cons_succ] at h
    simpa using enumVals_get xs (k + 1) i q x h

theorem ownerConf_still (sp : Special) (c : Ctx) (w : World) : ((colEnv env sp).ownerConf c w).2 = w := by
  simp only [colEnv]
  cases c.owner <;> rfl

theorem typed_of {α : Type} {m : Py World α} (h : ∀ w₀, Kp' (SinceW w₀) m) {w : World} (hw : MarksTyped w) : MarksTyped (m w).2 :=
  ((h w w (SinceW.refl hw)).1).marks

theorem eager_around {ms : List Mod} {m : Mod} (h : EagerChain (fun _ => False) ms) (ha : Around ms m) : m.EagerAll (fun _ => False) := by
  obtain ⟨xs, ys, rfl, -⟩ := ha
  exact Mod.EagerAllL_iff.1 h.2 m (by simp)

/-- dicts for an object that say the same are read alike -/
def ReadsAlike (env : Env) (n : Nat) : Prop :=
  ∀ C st a b, (∀ f ∈ (env.cls C).fields, Gives f a ↔ Gives f b) →
    (∀ f ∈ (env.cls C).fields, SameSense env f.chain (givenValue f a) (givenValue f b)) →
    (∀ f ∈ (env.cls C).fields, refsGiven f a = refsGiven f b) →
    (∀ n, (env.cls C).primary = some n → lookupNone a n = lookupNone b n) →
    (st.getD (env.cls C).strictInput = true → firstUnknown env C a = firstUnknown env C b) →
    ∀ (c : Ctx) (w : World), MarksTyped w → (∀ o, c.original = some o → o < w.next ∧ (w.heap o).cls = C) →
      (instOps env n C st).transform (c.nval (.dict a)) w = (instOps env n C st).transform (c.nval (.dict b)) w

theorem chain_same (hE : EagerSafe env) {n : Nat} (hR : ReadsAlike env n) {ms : List Mod} {v v' : Val} (h : SameSense env ms v v') :
    EagerChain (fun _ => False) ms → ∀ (c : Ctx) (w : World), MarksTyped w → c.original = none →
      (chainOps (setParent env) (denL env (instOps env n) ms)).transform (c.nval v) w =
      (chainOps (setParent env) (denL env (instOps env n) ms)).transform (c.nval v') w := by
  have hnm := instOps_noMarks env n
  induction h with
  | same ms v => intros; rfl
  | object ha h1 h2 h3 h4 h5 _ =>
    intro _ c w hw ho
    rw [around_transform hnm ha rfl rfl, around_transform hnm ha rfl rfl]
    exact hR _ _ _ _ h1 h2 h3 h4 h5 c w hw (fun o h => by rw [ho] at h; cases h)
  | @list ms item nn sp xs ys ha hl _ hc ih =>
    intro he c w hw ho
    rw [around_transform hnm ha rfl rfl, around_transform hnm ha rfl rfl]
    have hei : EagerChain (fun _ => False) item := eager_around he ha
    have hkp : ∀ w₀ v k, Kp' (SinceW w₀) ((chainOps (setParent env) (denL env (instOps env n) item)).transform (c.colval v k)) :=
      fun w₀ v k => kp_chain_transform (sinceW_visKp (inst_sinceW hE n w₀)) item hei.1 hei.2 _ (fun o h => by cases h)
    have hloop := loop_same (ce := colEnv env sp) (f := (chainOps (setParent env) (denL env (instOps env n) item)).transform) (c := c)
      (ownerConf_still sp c) (fun v k w hw => typed_of (fun w₀ => hkp w₀ v k) hw)
      (fun k v act hs w hw => typed_of (fun w₀ => kp_special (sinceW_link w₀) sp c k v act hs) hw)
      (enumVals 0 xs) (enumVals 0 ys) (enumVals_keys xs ys 0 hl)
      (fun i k x y hx hy => ⟨special_same (hc i x y (enumVals_get _ _ _ _ _ hx) (enumVals_get _ _ _ _ _ hy)),
        fun w hw => ih i x y (enumVals_get _ _ _ _ _ hx) (enumVals_get _ _ _ _ _ hy) hei (c.colval x k) w hw rfl⟩) w hw
    have hloop' : colMapLoop (colEnv env sp) true (chainOps (setParent env) (denL env (instOps env n) item)).transform (c.nval (.list xs)) (enumVals 0 xs) w =
        colMapLoop (colEnv env sp) true (chainOps (setParent env) (denL env (instOps env n) item)).transform (c.nval (.list ys)) (enumVals 0 ys) w := by
      rw [loop_nval, loop_nval]
      exact hloop
    have hrun : ∀ zs : List Val, (Mod.den env (instOps env n) (.listOf nn sp item)).transform (c.nval (.list zs)) =
        (colMapLoop (colEnv env sp) true (chainOps (setParent env) (denL env (instOps env n) item)).transform (c.nval (.list zs)) (enumVals 0 zs) >>=
          fun r => pure (toListVal r)) := fun _ => rfl
    rw [hrun, hrun, Py.bind_run, Py.bind_run, hloop']
  | @dict ms item nn xs ys ha hk _ ih =>
    intro he c w hw ho
    rw [around_transform hnm ha rfl rfl, around_transform hnm ha rfl rfl]
    have hei : EagerChain (fun _ => False) item := eager_around he ha
    have hkp : ∀ w₀ v k, Kp' (SinceW w₀) ((chainOps (setParent env) (denL env (instOps env n) item)).transform (c.colval v k)) :=
      fun w₀ v k => kp_chain_transform (sinceW_visKp (inst_sinceW hE n w₀)) item hei.1 hei.2 _ (fun o h => by cases h)
    have hget : ∀ (zs : List (String × Val)) (i : Nat) (k : Key) (x : Val), (enumDict zs)[i]? = some (k, x) → ∃ q, zs[i]? = some q ∧ q.2 = x := by
      intro zs i k x h
      simp only [enumDict, List.getElem?_map, Option.map_eq_some_iff, Prod.mk.injEq] at h
      obtain ⟨q, h1, -, h2⟩ := h
      exact ⟨q, h1, h2⟩
    have hkeys : (enumDict xs).map Prod.fst = (enumDict ys).map Prod.fst := by
      have e : ∀ zs : List (String × Val), (enumDict zs).map Prod.fst = (zs.map Prod.fst).map Key.s := by
        intro zs; simp [enumDict]
      rw [e, e, hk]
    have hloop := loop_same (ce := { colEnv env .no with special := fun _ _ _ => none })
      (f := (chainOps (setParent env) (denL env (instOps env n) item)).transform) (c := c)
      (ownerConf_still (env := env) .no c) (fun v k w hw => typed_of (fun w₀ => hkp w₀ v k) hw)
      (fun k v act hs => by cases hs)
      (enumDict xs) (enumDict ys) hkeys
      (fun i k x y hx hy => by
        obtain ⟨p, p1, rfl⟩ := hget _ _ _ _ hx
        obtain ⟨q, q1, rfl⟩ := hget _ _ _ _ hy
        exact ⟨rfl, fun w hw => ih i p q p1 q1 hei (c.colval p.2 k) w hw rfl⟩) w hw
    have hnv : ∀ (z : Val) (es : List (Key × Val)),
        colMapLoop { colEnv env .no with special := fun _ _ _ => none } true
          (chainOps (setParent env) (denL env (instOps env n) item)).transform (c.nval z) es =
        colMapLoop { colEnv env .no with special := fun _ _ _ => none } true
          (chainOps (setParent env) (denL env (instOps env n) item)).transform c es := by
      intro z es
      induction es with
      | nil => rfl
      | cons e es ihe =>
        obtain ⟨k, v⟩ := e
        simp only [colMapLoop]
        rw [ihe]
        rfl
    have hrun : ∀ zs : List (String × Val), (Mod.den env (instOps env n) (.dictOf nn item)).transform (c.nval (.dict zs)) =
        (colMapLoop { colEnv env .no with special := fun _ _ _ => none } true
          (chainOps (setParent env) (denL env (instOps env n) item)).transform (c.nval (.dict zs)) (enumDict zs) >>=
          fun r => pure (toDictVal r)) := fun _ => rfl
    rw [hrun, hrun, Py.bind_run, Py.bind_run, hnv, hnv, hloop]

theorem isNone_same {ms : List Mod} {v v' : Val} (h : SameSense env ms v v') : v.isNone = v'.isNone := by
  cases h <;> rfl

theorem field_same (hE : EagerSafe env) {n : Nat} (hR : ReadsAlike env n) {C : String} {f : Field} (hf : f ∈ (env.cls C).fields)
    {a b : List (String × Val)} (h1 : Gives f a ↔ Gives f b) (h2 : SameSense env f.chain (givenValue f a) (givenValue f b))
    (h3 : refsGiven f a = refsGiven f b) (c : Ctx) (dest : Nat) (soft : Bool) {w : World} (hw : MarksTyped w) :
    transformField env (Field.ops env (instOps env n)) c dest soft a f w = transformField env (Field.ops env (instOps env n)) c dest soft b f w := by
  unfold transformField
  rw [gives_has h1]
  split
  · unfold presentField
    rw [getFieldValue_eq, getFieldValue_eq]
    have hal : ∀ cur, allowWrite f cur (givenValue f a) = allowWrite f cur (givenValue f b) := by
      intro cur
      unfold allowWrite
      rw [isNone_same h2]
    simp only [Py.bind_run]
    rcases hr : readW (fun w => if f.writeRule = .writeOnce then w.getattr env dest f.name else .ok .none) w with ⟨e | cur, w1⟩
    · rfl
    · obtain ⟨rfl, -⟩ := readW_ok hr
      simp only [hal]
      split
      · simp only [Py.bind_run, Py.get_run]
        rcases hq : readW (fun w => c.ekey env w f.name) w1 with ⟨e | ek, w2⟩
        · rfl
        · obtain ⟨rfl, -⟩ := readW_ok hq
          simp only []
          have := chain_same hE hR h2 (hE C f hf) (c.nextvo .none f.name ek ((w2.heap dest).cls, f.name) dest) w2 hw rfl
          have e : ∀ v, (c.nextvo .none f.name ek ((w2.heap dest).cls, f.name) dest).nval v =
            c.nextvo v f.name ek ((w2.heap dest).cls, f.name) dest := fun _ => rfl
          rw [e, e] at this
          unfold Field.ops
          rw [this]
      · rfl
  · unfold absentField
    split
    · split
      · have := congrFun (refKeys_same (env := env) (dest := dest) h3) w
        exact this
      · rfl
    · rfl

theorem reads_alike (hE : EagerSafe env) (n : Nat) : ReadsAlike env n := by
  induction n with
  | zero => intro _ _ _ _ _ _ _ _ _ _ _ _ _; rfl
  | succ n hR =>
    intro C st a b h1 h2 h3 h4 h5 c w hw ho
    have hpk : inputPk env C a = inputPk env C b := by
      unfold inputPk
      cases hp : (env.cls C).primary with
      | none => rfl
      | some m => exact h4 m hp
    have hfd : findDest env (instOps env n) C (c.nval (.dict a)) a = findDest env (instOps env n) C (c.nval (.dict b)) b := by
      unfold findDest
      rw [hpk]
      rfl
    have hrun : ∀ kvs, (instOps env (n + 1) C st).transform (c.nval (.dict kvs)) =
        (findDest env (instOps env n) C (c.nval (.dict kvs)) kvs >>= fun d =>
          applyDict env (Field.ops env (instOps env n)) C st (c.nval (.dict kvs)) d.1 d.2 kvs >>= fun _ => pure (.obj d.1)) := fun _ => rfl
    rw [hrun, hrun, Py.bind_run, Py.bind_run, hfd]
    have ht := inst_sinceW hE n
    obtain ⟨q1, q2⟩ := findDest_sinceW ht (cls := C) (c := c.nval (.dict b)) (kvs := b) (SinceW.refl hw) (fun o h => (ho o h).1)
    rcases hr : findDest env (instOps env n) C (c.nval (.dict b)) b w with ⟨e | d, w1⟩
    · rfl
    rw [hr] at q1 q2
    obtain ⟨-, r2, r3⟩ := q2 d rfl
    simp only []
    have hcls : (w1.heap d.1).cls = C := by
      cases hor : c.original with
      | none => exact r2 hor
      | some o =>
        have hd : d.1 = o := r3 o hor
        rw [hd, q1.cls o (ho o hor).1]
        exact (ho o hor).2
    have happ : applyDict env (Field.ops env (instOps env n)) C st (c.nval (.dict a)) d.1 d.2 a w1 =
        applyDict env (Field.ops env (instOps env n)) C st (c.nval (.dict b)) d.1 d.2 b w1 := by
      have hcd : w1.cdef env d.1 = env.cls C := congrArg env.cls hcls
      have hst : pyWhen (st.getD (env.cls C).strictInput) (readW (fun _ => strictCheck (c.nval (.dict a)) (env.cls C).availableNames a)) =
          pyWhen (st.getD (env.cls C).strictInput) (readW (fun _ => strictCheck (c.nval (.dict b)) (env.cls C).availableNames b)) := by
        unfold pyWhen
        split
        · rename_i hs
          rw [strict_same, strict_same]
          unfold firstUnknown at h5
          rw [h5 hs]
          rfl
        · rfl
      have hloop : ∀ fs : List Field, (∀ f ∈ fs, f ∈ (env.cls C).fields) → ∀ u, MarksTyped u →
          transformFields env (Field.ops env (instOps env n)) (c.nval (.dict a)) d.1 d.2 a fs u =
          transformFields env (Field.ops env (instOps env n)) (c.nval (.dict b)) d.1 d.2 b fs u := by
        intro fs
        induction fs with
        | nil => intro _ _ _; rfl
        | cons f fs ih =>
          intro hfs u hu
          have hf := hfs f (by simp)
          simp only [transformFields, Py.bind_run]
          have e : transformField env (Field.ops env (instOps env n)) (c.nval (.dict a)) d.1 d.2 a f u =
              transformField env (Field.ops env (instOps env n)) (c.nval (.dict b)) d.1 d.2 b f u := by
            rw [field_same hE hR hf (h1 f hf) (h2 f hf) (h3 f hf) _ _ _ hu]
            rfl
          rw [e]
          have hk : MarksTyped (transformField env (Field.ops env (instOps env n)) (c.nval (.dict b)) d.1 d.2 b f u).2 := by
            refine typed_of (fun w₀ => ?_) hu
            exact kp_transformField_free (sinceW_link w₀) hf
              (fun c' ho' _ => kp_field_transform (sinceW_visKp (ht w₀)) (hE C f hf) (by intro o h; rw [ho'] at h; cases h))
              (fun _ v w hw => ⟨sinceW_rawSet hw _ _ v, fun _ _ => trivial⟩)
          rcases hq : transformField env (Field.ops env (instOps env n)) (c.nval (.dict b)) d.1 d.2 b f u with ⟨e | x, u'⟩
          · rfl
          · rw [hq] at hk
            exact ih (fun f' h' => hfs f' (by simp [h'])) u' hk
      have hnn : nonnullRefLists a (env.cls C).fields = nonnullRefLists b (env.cls C).fields := by
        unfold nonnullRefLists
        congr 1
        exact List.filter_congr (fun f hf => by rw [gives_has (h1 f hf)])
      have hstart : ∀ kvs, applyDict env (Field.ops env (instOps env n)) C st (c.nval (.dict kvs)) d.1 d.2 kvs w1 =
          (pyWhen (st.getD (env.cls C).strictInput) (readW (fun _ => strictCheck (c.nval (.dict kvs)) (env.cls C).availableNames kvs)) >>= fun _ =>
            transformFields env (Field.ops env (instOps env n)) (c.nval (.dict kvs)) d.1 d.2 kvs (env.cls C).fields >>= fun _ =>
            fillRefLists env d.1 (nonnullRefLists kvs (env.cls C).fields)) w1 := by
        intro kvs
        show (Py.get >>= _) w1 = _
        rw [show ∀ k : World → Py World Unit, (Py.get >>= k) w1 = k w1 w1 from fun _ => rfl]
        simp only [hcd]
      rw [hstart, hstart]
      rw [hst, hnn]
      simp only [Py.bind_run]
      rcases hq : pyWhen (st.getD (env.cls C).strictInput) (readW (fun _ => strictCheck (c.nval (.dict b)) (env.cls C).availableNames b)) w1 with ⟨e | x, w2⟩
      · rfl
      · have hw2 : w2 = w1 := by
          unfold pyWhen at hq
          split at hq
          · exact (readW_ok hq).1
          · cases hq; rfl
        subst hw2
        simp only []
        rw [hloop _ (fun _ h => h) _ q1.marks]
    rw [Py.bind_run, Py.bind_run, happ]

theorem fresh_congr {α : Type} {m m' : Py World α} {w : World} (h : m { w with marks := [] } = m' { w with marks := [] }) :
    withFreshMarks m w = withFreshMarks m' w := by
  show (match m { w with marks := [] } with | (r, w') => (r, ({ w' with marks := w.marks } : World))) = _
  rw [h]
  rfl

/-- **C75**: setting arguments that say the same has the same effect: the same exception or
completion, and the same state afterwards. -/
theorem set_same_arguments (hE : EagerSafe env) (n i : Nat) {a b : List (String × Val)} {w : World} (hi : i < w.next)
    (h : SameArguments env (w.heap i).cls a b) : apiSet env n i a w = apiSet env n i b w := by
  have hR := reads_alike hE n (w.heap i).cls none a b h.given h.values h.refs h.primary h.unknown
    (rootCtx w i { fillBlanks := false, allFields := some false } .none) { w with marks := [] } (fun _ he => by cases he)
    (fun o ho => by cases ho; exact ⟨hi, rfl⟩)
  have e : ∀ kvs, apiSet env n i kvs w =
      (withFreshMarks ((instOps env n (w.heap i).cls none).transform
        ((rootCtx w i { fillBlanks := false, allFields := some false } .none).nval (.dict kvs))) >>= fun _ => pure ()) w := fun _ => rfl
  rw [e, e, Py.bind_run, Py.bind_run, fresh_congr hR]

/-- **C75**: constructing with arguments that say the same gives the same. -/
theorem new_same_arguments (hE : EagerSafe env) (n : Nat) {C : String} {a b : List (String × Val)}
    (h : SameArguments env C a b) (w : World) : apiNew env n C a w = apiNew env n C b w := by
  unfold apiNew newObj
  split
  · rfl
  · simp only [Py.bind_run]
    rcases hr : alloc env C w with ⟨e | i, w1⟩
    · rfl
    simp only []
    have hi : i < w1.next ∧ (w1.heap i).cls = C := by
      simp only [alloc, Prod.mk.injEq, Except.ok.injEq] at hr
      obtain ⟨rfl, rfl⟩ := hr
      exact ⟨Nat.lt_succ_self _, by simp [freshObj]⟩
    have hR := reads_alike hE n C none a b h.given h.values h.refs h.primary h.unknown
      (rootCtx w1 i { fillBlanks := true, allFields := some false } .none) { w1 with marks := [] } (fun _ he => by cases he)
      (fun o ho => by cases ho; exact hi)
    have e : ∀ kvs, setDict (instOps env n) i kvs true w1 =
        (withFreshMarks ((instOps env n C none).transform
          ((rootCtx w1 i { fillBlanks := true, allFields := some false } .none).nval (.dict kvs))) >>= fun _ => pure ()) w1 := by
      intro kvs
      rw [← hi.2]
      rfl
    rw [e, e, Py.bind_run, Py.bind_run, fresh_congr hR]

/-! ### Order and names -/

theorem dictGet_perm {α : Type} {a b : List (String × α)} (hp : a.Perm b) (hn : (a.map Prod.fst).Nodup) (k : String) :
    dictGet a k = dictGet b k := by
  induction hp with
  | nil => rfl
  | cons x _ ih =>
    rw [List.map_cons, List.nodup_cons] at hn
    have := ih hn.2
    unfold dictGet at this ⊢
    rw [List.find?_cons, List.find?_cons]
    split
    · rfl
    · exact this
  | swap x y l =>
    rw [List.map_cons, List.map_cons, List.nodup_cons] at hn
    have hxy : y.1 ≠ x.1 := fun h => hn.1 (by simp [h])
    unfold dictGet
    rw [List.find?_cons, List.find?_cons, List.find?_cons, List.find?_cons]
    by_cases h1 : x.1 = k <;> by_cases h2 : y.1 = k
    · exact absurd (h2.trans h1.symm) hxy
    all_goals simp [h1, h2]
  | trans h1 _ ih1 ih2 => exact (ih1 hn).trans (ih2 ((h1.map Prod.fst).nodup_iff.1 hn))

/-- **C75**: the order of the entries does not matter. -/
theorem reordered_same {C : String} {a b : List (String × Val)} (hp : a.Perm b) (hn : (a.map Prod.fst).Nodup)
    (hk : (env.cls C).strictInput = true → ∀ k ∈ a.map Prod.fst, k ∈ (env.cls C).availableNames) : SameArguments env C a b := by
  have hg := dictGet_perm hp hn
  have hv : ∀ f : Field, givenValue f a = givenValue f b := by intro f; unfold givenValue; rw [hg, hg]
  refine ⟨fun f _ => ?_, fun f _ => ?_, fun f _ => ?_, fun n _ => ?_, fun hs => ?_⟩
  · unfold Gives; rw [hg, hg]
  · rw [hv f]; exact .same _ _
  · unfold refsGiven; rw [hg, hg]
  · unfold lookupNone; rw [hg]
  · have h1 : firstUnknown env C a = none := by
      unfold firstUnknown
      rw [List.find?_eq_none]
      intro k h
      simpa using hk hs k h
    have h2 : firstUnknown env C b = none := by
      unfold firstUnknown
      rw [List.find?_eq_none]
      intro k h
      simpa using hk hs k ((hp.map Prod.fst).mem_iff.2 h)
    rw [h1, h2]

theorem dictGet_rename {x y : String} {a : List (String × Val)} (hy : y ∉ a.map Prod.fst) (k : String) :
    dictGet (renameKey x y a) k = if k = y then dictGet a x else if k = x then none else dictGet a k := by
  induction a with
  | nil => simp [renameKey, dictGet]
  | cons e a ih =>
    rw [List.map_cons, List.mem_cons, not_or] at hy
    have := ih hy.2
    unfold renameKey dictGet at this ⊢
    rw [List.map_cons, List.find?_cons]
    by_cases hx : e.1 = x
    · by_cases hk : k = y
      · simp [hx, hk]
      · simp only [hx, if_true]
        rw [if_neg hk] at this
        have hk' : ¬ y = k := fun h => hk h.symm
        simp only [hk', decide_false, if_neg hk]
        rw [this]
        by_cases hkx : k = x
        · simp [hkx]
        · have : ¬ e.1 = k := by rw [hx]; exact fun h => hkx h.symm
          simp [hkx, this]
    · simp only [if_neg hx]
      by_cases hk : k = y
      · have hne : ¬ e.1 = k := by rw [hk]; exact fun h => hy.1 h.symm
        rw [if_pos hk] at this
        simp [hx, hk] at this ⊢
        simpa [show ¬ e.1 = y from fun h => hy.1 h.symm] using this
      · rw [if_neg hk] at this
        by_cases hkx : k = x
        · have hne : ¬ e.1 = k := by rw [hkx]; exact hx
          rw [if_pos hkx] at this
          simp only [hne, decide_false, if_neg hk, if_pos hkx]
          exact this
        · rw [if_neg hkx] at this
          simp only [if_neg hk, if_neg hkx]
          by_cases hek : e.1 = k
          · simp [hek]
          · simp only [hek, decide_false, List.find?_cons]
            exact this

theorem firstUnknown_rename {C x y : String} (hx : x ∈ (env.cls C).availableNames) (hy : y ∈ (env.cls C).availableNames) :
    ∀ a : List (String × Val), firstUnknown env C a = firstUnknown env C (renameKey x y a)
  | [] => rfl
  | e :: a => by
    have ih := firstUnknown_rename hx hy a
    unfold firstUnknown renameKey at ih ⊢
    rw [List.map_cons, List.map_cons, List.map_cons, List.find?_cons, List.find?_cons]
    by_cases h : e.1 = x
    · simp only [h, if_true]
      simpa [hx, hy] using ih
    · simp only [if_neg h]
      split
      · rfl
      · exact ih

/-- Key `x` is used by field `f` only: it is no other name in the class, and not the primary key. -/
structure OnlyNames (cd : ClassDef) (f : Field) (x : String) : Prop where
  names : ∀ g ∈ cd.fields, g = f ∨ (g.name ≠ x ∧ g.jsonName ≠ x)
  refs : ∀ g ∈ cd.fields, g.refName ≠ x ∧ g.jrefName ≠ x
  notPrimary : cd.primary ≠ some x

/-- Key `x` is the id of relation `f` only. -/
structure OnlyRefers (cd : ClassDef) (f : Field) (x : String) : Prop where
  names : ∀ g ∈ cd.fields, g.name ≠ x ∧ g.jsonName ≠ x
  refs : ∀ g ∈ cd.fields, g = f ∨ (g.refName ≠ x ∧ g.jrefName ≠ x)
  notPrimary : cd.primary ≠ some x

/-- **C75**: a field can be given under its own name or under its name in JSON. -/
theorem renamed_same {C : String} {a : List (String × Val)} {f : Field} (hf : f ∈ (env.cls C).fields) (hy : f.jsonName ∉ a.map Prod.fst)
    (h1 : OnlyNames (env.cls C) f f.name) (h2 : OnlyNames (env.cls C) f f.jsonName) :
    SameArguments env C a (renameKey f.name f.jsonName a) := by
  have hg := dictGet_rename (x := f.name) hy
  have hself : dictGet a f.jsonName = none := dictGet_none_iff.2 hy
  have hname : f.name ≠ f.jsonName → dictGet (renameKey f.name f.jsonName a) f.name = none := by
    intro h; rw [hg]; simp [h]
  have hjson : dictGet (renameKey f.name f.jsonName a) f.jsonName = dictGet a f.name := by rw [hg]; simp
  have hother : ∀ k, k ≠ f.name → k ≠ f.jsonName → dictGet (renameKey f.name f.jsonName a) k = dictGet a k := by
    intro k hk hk'; rw [hg]; simp [hk, hk']
  have hgiven : ∀ g ∈ (env.cls C).fields, (Gives g a ↔ Gives g (renameKey f.name f.jsonName a)) ∧
      givenValue g a = givenValue g (renameKey f.name f.jsonName a) := by
    intro g hgm
    rcases h1.names g hgm with rfl | ⟨n1, n2⟩
    · by_cases he : g.name = g.jsonName
      · have hn : dictGet a g.name = none := by rw [he]; exact hself
        unfold Gives givenValue
        rw [he] at hjson ⊢
        rw [hjson, hself]
        exact ⟨Iff.rfl, rfl⟩
      · unfold Gives givenValue
        rw [hname he, hjson, hself]
        constructor
        · constructor
          · rintro (h | h)
            · exact .inr h
            · exact absurd rfl h
          · rintro (h | h)
            · exact absurd rfl h
            · exact .inl h
        · rcases dictGet a g.name with _ | v
          · rfl
          · cases v <;> rfl
    · rcases h2.names g hgm with rfl | ⟨m1, m2⟩
      · exact absurd rfl n1
      · unfold Gives givenValue
        rw [hother _ n1 m1, hother _ n2 m2]
        exact ⟨Iff.rfl, rfl⟩
  refine ⟨fun g hgm => (hgiven g hgm).1, fun g hgm => ?_, fun g hgm => ?_, fun n hn => ?_, fun _ => ?_⟩
  · rw [(hgiven g hgm).2]; exact .same _ _
  · unfold refsGiven
    rw [hother _ (h1.refs g hgm).1 (h2.refs g hgm).1, hother _ (h1.refs g hgm).2 (h2.refs g hgm).2]
  · unfold lookupNone
    rw [hother _ (fun h => h1.notPrimary (h ▸ hn)) (fun h => h2.notPrimary (h ▸ hn))]
  · refine firstUnknown_rename ?_ ?_ a <;> unfold ClassDef.availableNames <;> simp only [List.mem_append, List.mem_map]
    · exact .inl (.inl (.inl ⟨f, hf, rfl⟩))
    · exact .inl (.inl (.inr ⟨f, hf, rfl⟩))

/-- **C75**: the id of a relation can be given under its own name or under its name in JSON. -/
theorem renamed_ref_same {C : String} {a : List (String × Val)} {f : Field} (hf : f ∈ (env.cls C).fields) (hr : f.hasRefName = true)
    (hy : f.jrefName ∉ a.map Prod.fst) (h1 : OnlyRefers (env.cls C) f f.refName) (h2 : OnlyRefers (env.cls C) f f.jrefName) :
    SameArguments env C a (renameKey f.refName f.jrefName a) := by
  by_cases he : f.refName = f.jrefName
  · have : renameKey f.refName f.jrefName a = a := by
      unfold renameKey
      conv => rhs; rw [← List.map_id a]
      refine List.map_congr_left (fun e hm => ?_)
      split
      · rename_i h; rw [he] at h; exact absurd (List.mem_map.2 ⟨e, hm, h⟩) hy
      · rfl
    rw [this]
    exact ⟨fun _ _ => Iff.rfl, fun _ _ => .same _ _, fun _ _ => rfl, fun _ _ => rfl, fun _ => rfl⟩
  have hg := dictGet_rename (x := f.refName) hy
  have hself : dictGet a f.jrefName = none := dictGet_none_iff.2 hy
  have hname : dictGet (renameKey f.refName f.jrefName a) f.refName = none := by rw [hg]; simp [he]
  have hjson : dictGet (renameKey f.refName f.jrefName a) f.jrefName = dictGet a f.refName := by rw [hg]; simp
  have hother : ∀ k, k ≠ f.refName → k ≠ f.jrefName → dictGet (renameKey f.refName f.jrefName a) k = dictGet a k := by
    intro k hk hk'; rw [hg]; simp [hk, hk']
  have hgiven : ∀ g ∈ (env.cls C).fields, (Gives g a ↔ Gives g (renameKey f.refName f.jrefName a)) ∧
      givenValue g a = givenValue g (renameKey f.refName f.jrefName a) := by
    intro g hgm
    unfold Gives givenValue
    rw [hother _ (h1.names g hgm).1 (h2.names g hgm).1, hother _ (h1.names g hgm).2 (h2.names g hgm).2]
    exact ⟨Iff.rfl, rfl⟩
  refine ⟨fun g hgm => (hgiven g hgm).1, fun g hgm => ?_, fun g hgm => ?_, fun n hn => ?_, fun _ => ?_⟩
  · rw [(hgiven g hgm).2]; exact .same _ _
  · unfold refsGiven
    rcases h1.refs g hgm with rfl | ⟨n1, n2⟩
    · rw [hname, hjson, hself]
      cases dictGet a g.refName <;> rfl
    · rcases h2.refs g hgm with rfl | ⟨m1, m2⟩
      · exact absurd rfl n1
      · rw [hother _ n1 m1, hother _ n2 m2]
  · unfold lookupNone
    rw [hother _ (fun h => h1.notPrimary (h ▸ hn)) (fun h => h2.notPrimary (h ▸ hn))]
  · refine firstUnknown_rename ?_ ?_ a <;> unfold ClassDef.availableNames <;> simp only [List.mem_append, List.mem_map, List.mem_filter]
    · exact .inl (.inr ⟨f, ⟨hf, hr⟩, rfl⟩)
    · exact .inr ⟨f, ⟨hf, hr⟩, rfl⟩

end JC

/-! ### The hypotheses can be met, and the primary key -/

namespace JC.SpellDemo

def fKey : Field := { name := "item_id", jsonName := "itemId", chain := [.leaf Demo.optStr] }
def fDue : Field := { name := "due_date", jsonName := "dueDate", chain := [.leaf Demo.optStr] }
def fTitle : Field := { name := "board_title", jsonName := "boardTitle", chain := [.leaf Demo.optStr] }
def fItems : Field := { name := "items", jsonName := "items", ftype := .list, chain := [.listOf false .no [.instOf "Item" none]] }
def fOwner : Field := { name := "owner", jsonName := "owner", ftype := .inst, store := .localKey, refName := "owner_id", jrefName := "ownerId", chain := [.instOf "User" none] }

def item : ClassDef := { name := "Item", primary := some "item_id", fields := [fKey, fDue], strictInput := true }
def board : ClassDef := { name := "Board", fields := [fTitle, fOwner, fItems], strictInput := true }

def env : Env where
  cls := fun n => if n = "Item" then item else if n = "Board" then board else {}
  pystr := fun v => match v with
    | .str s => s
    | _ => ""

theorem eagerSafe : EagerSafe env := by
  intro c f hf
  simp only [env] at hf
  split at hf
  · simp only [item, List.mem_cons, List.not_mem_nil, or_false] at hf
    rcases hf with rfl | rfl <;> exact ⟨trivial, trivial, trivial⟩
  · split at hf
    · simp only [board, List.mem_cons, List.not_mem_nil, or_false] at hf
      rcases hf with rfl | rfl | rfl
      · exact ⟨trivial, trivial, trivial⟩
      · exact ⟨trivial, trivial, trivial⟩
      · exact ⟨trivial, ⟨trivial, ⟨trivial, trivial⟩⟩, trivial⟩
    · cases hf

def snake : List (String × Val) :=
  [("board_title", .str "t"), ("owner_id", .str "u"), ("items", .list [.dict [("item_id", .str "1"), ("due_date", .str "d")]])]
def camel : List (String × Val) :=
  [("items", .list [.dict [("dueDate", .str "d"), ("item_id", .str "1")]]), ("ownerId", .str "u"), ("boardTitle", .str "t")]

/-- Names, order and nested dicts spelled differently. -/
theorem items_same : SameSense env fItems.chain (.list [.dict [("item_id", .str "1"), ("due_date", .str "d")]])
    (.list [.dict [("dueDate", .str "d"), ("item_id", .str "1")]]) := by
  refine .list (SymDemo.around_one _) rfl ?_ ?_
  · intro i x y hx hy
    cases i with
    | zero =>
      simp only [List.getElem?_cons_zero, Option.some.injEq] at hx hy
      subst hx; subst hy
      refine .object (SymDemo.around_one _) ?_ ?_ ?_ ?_ ?_
      · intro f hf
        simp only [env, item, if_true, List.mem_cons, List.not_mem_nil, or_false] at hf
        rcases hf with rfl | rfl <;> simp [Gives, fKey, fDue, dictGet]
      · intro f hf
        simp only [env, item, if_true, List.mem_cons, List.not_mem_nil, or_false] at hf
        rcases hf with rfl | rfl <;> exact .same _ _
      · intro f hf
        simp only [env, item, if_true, List.mem_cons, List.not_mem_nil, or_false] at hf
        rcases hf with rfl | rfl <;> rfl
      · intro n hn
        cases hn
        rfl
      · intro _
        rfl
    | succ i => simp at hx
  · intro i x y hx hy
    cases i with
    | zero =>
      simp only [List.getElem?_cons_zero, Option.some.injEq] at hx hy
      subst hx; subst hy
      rfl
    | succ i => simp at hx

theorem spelled : SameArguments env "Board" snake camel where
  given := by
    intro f hf
    change f ∈ [fTitle, fOwner, fItems] at hf
    simp only [List.mem_cons, List.not_mem_nil, or_false] at hf
    rcases hf with rfl | rfl | rfl <;> simp [Gives, snake, camel, fTitle, fOwner, fItems, dictGet]
  values := by
    intro f hf
    change f ∈ [fTitle, fOwner, fItems] at hf
    simp only [List.mem_cons, List.not_mem_nil, or_false] at hf
    rcases hf with rfl | rfl | rfl
    · exact .same _ _
    · exact .same _ _
    · exact items_same
  refs := by
    intro f hf
    change f ∈ [fTitle, fOwner, fItems] at hf
    simp only [List.mem_cons, List.not_mem_nil, or_false] at hf
    rcases hf with rfl | rfl | rfl <;> rfl
  primary := fun _ h => by cases h
  unknown := fun _ => rfl

example (w : World) : apiNew env 5 "Board" snake w = apiNew env 5 "Board" camel w := new_same_arguments eagerSafe 5 spelled w

/-- the construction succeeds, with one item -/
example : (match (apiNew env 5 "Board" camel { heap := fun _ => {} }).1 with | .ok 0 => true | _ => false) = true := by decide +kernel

/-- renaming one key, in the class of boards -/
example : SameArguments env "Board" snake (renameKey "board_title" "boardTitle" snake) := by
  refine renamed_same (f := fTitle) (by simp [env, board]) (by simp [snake, fTitle]) ?_ ?_ <;>
    refine ⟨?_, ?_, fun h => by cases h⟩ <;> intro g hg <;> change g ∈ [fTitle, fOwner, fItems] at hg <;>
    simp only [List.mem_cons, List.not_mem_nil, or_false] at hg <;> rcases hg with rfl | rfl | rfl <;>
    first | exact .inl rfl | exact .inr (by decide) | decide

example : SameArguments env "Board" snake (renameKey "owner_id" "ownerId" snake) := by
  refine renamed_ref_same (f := fOwner) (by simp [env, board]) rfl (by simp [snake, fOwner]) ?_ ?_ <;>
    refine ⟨?_, ?_, fun h => by cases h⟩ <;> intro g hg <;> change g ∈ [fTitle, fOwner, fItems] at hg <;>
    simp only [List.mem_cons, List.not_mem_nil, or_false] at hg <;> rcases hg with rfl | rfl | rfl <;>
    first | exact .inl rfl | exact .inr (by decide) | decide

/-- how many objects there are after making a board with two item dicts with the same key `1` -/
def objects (k : String) : Nat :=
  (apiNew env 5 "Board" [("items", .list [.dict [(k, .str "1"), ("due_date", .str "d")], .dict [(k, .str "1")]])] { heap := fun _ => {} }).2.next

/-- **C75 is violated for the primary key**: dicts with the same primary key become one object if
the key is given under its own name, and two objects if it is given under its name in JSON. -/
theorem primary_spelling_broken : objects "item_id" = 2 ∧ objects "itemId" = 3 := by
  constructor <;> decide +kernel

end JC.SpellDemo
