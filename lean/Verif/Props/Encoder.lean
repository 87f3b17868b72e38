import Verif.Model.Encoder
import Verif.Props.PlainJson
import Verif.Props.Symmetry

/-
C83 (continued): what `json.dumps(…, cls=JSONEncoder)` writes.
-/
namespace JC

variable {env : Env}

/-! ### Specification -/

mutual
/-- What is to be written for a value in the state `w`: plain data as it is, objects as their
`tojson()`, also inside lists and dicts. There is no case for other values. -/
inductive Written (env : Env) (n : Nat) (w : World) : Val → Val → Prop
  | none : Written env n w .none .none
  | bool (b : Bool) : Written env n w (.bool b) (.bool b)
  | int (k : Int) : Written env n w (.int k) (.int k)
  | flt (f : Flt) : Written env n w (.flt f) (.flt f)
  | str (s : String) : Written env n w (.str s) (.str s)
  | obj {i : Nat} {r : Val} : (apiTojson env n i false false none w).1 = .ok r → Written env n w (.obj i) r
  | list {xs ys : List Val} : WrittenL env n w xs ys → Written env n w (.list xs) (.list ys)
  | dict {xs ys : List (String × Val)} : WrittenD env n w xs ys → Written env n w (.dict xs) (.dict ys)
/-- the items one by one -/
inductive WrittenL (env : Env) (n : Nat) (w : World) : List Val → List Val → Prop
  | nil : WrittenL env n w [] []
  | cons {x y : Val} {xs ys : List Val} : Written env n w x y → WrittenL env n w xs ys → WrittenL env n w (x :: xs) (y :: ys)
/-- the entries one by one, with their keys -/
inductive WrittenD (env : Env) (n : Nat) (w : World) : List (String × Val) → List (String × Val) → Prop
  | nil : WrittenD env n w [] []
  | cons {k : String} {x y : Val} {xs ys : List (String × Val)} : Written env n w x y → WrittenD env n w xs ys →
      WrittenD env n w ((k, x) :: xs) ((k, y) :: ys)
end

/-- the object is in the value, at any depth of lists and dicts -/
inductive Mentions (i : Nat) : Val → Prop
  | obj : Mentions i (.obj i)
  | list {x : Val} {xs : List Val} : x ∈ xs → Mentions i x → Mentions i (.list xs)
  | dict {kv : String × Val} {kvs : List (String × Val)} : kv ∈ kvs → Mentions i kv.2 → Mentions i (.dict kvs)

/-- The states have the same objects and graphs (the ghost list of visits aside, which no code reads). -/
def SameState (w w' : World) : Prop := ∃ D, w' = { w with visits := D }

/-! ### Proof -/

theorem SameState.refl (w : World) : SameState w w := ⟨w.visits, rfl⟩
theorem SameState.trans {a b c : World} : SameState a b → SameState b c → SameState a c := by
  rintro ⟨D, rfl⟩ ⟨E, rfl⟩; exact ⟨E, rfl⟩

theorem sameState_put {a b : World} (h : SameState a b) (i : Nat) : SameState ((a.markPut env i).visit i) ((b.markPut env i).visit i) := by
  obtain ⟨D, rfl⟩ := h
  refine ⟨D ++ [i], ?_⟩
  have e : ({ a with visits := D } : World).id env i = a.id env i := rfl
  unfold World.markPut World.visit
  simp only [e]
  split <;> rfl

theorem validate_blind (n : Nat) : ∀ cls st (c : Ctx),
    Sim SameState (fun _ => False) ((instOps env n cls st).validate c) ((instOps env n cls st).validate c) := by
  induction n with
  | zero => intro cls st c; exact Sim.raise (by simp)
  | succ n ih =>
    intro cls st c
    simp only [instOps]
    refine sim_instValidate (K' := SameState) (by simp) (by simp) ?_ ?_ (fun _ _ h => h) ?_ ?_
    · rintro w₁ w₂ i _ ⟨D, rfl⟩; rfl
    · rintro w₁ w₂ i hv h hm; exact sameState_put h i
    · rintro w₁ w₂ ⟨D, rfl⟩ j; rfl
    · intro i hv _
      apply sim_instBody (by simp)
      · rintro w₁ w₂ ⟨D, rfl⟩; exact ⟨rfl, rfl⟩
      · rintro w₁ w₂ ⟨D, rfl⟩
        apply sim_validateFields
        · rintro f hf w w' ⟨D, rfl⟩
          exact getAgree_diag (w := w) (by simp)
        · rintro f hf _ w w' v ⟨D, rfl⟩ hget
          apply sim_validateField
          · rintro _ _ ⟨D, rfl⟩ j; rfl
          · simp
          · intro w'' ek _
            have hs : SimValidate SameState (fun _ => False) env env (instOps env n)
                (instOps env n) (fun _ => True) :=
              { hv := by simp
                ha := by simp
                noMarks₁ := instOps_noMarks env n
                noMarks₂ := instOps_noMarks env n
                col := fun _ _ _ _ _ => trivial
                alter := fun _ _ => trivial
                owner := by rintro _ _ o ⟨D, rfl⟩; rfl
                vis := fun cls st c _ => ih cls st c }
            refine sim_den_chain hs f.chain ?_ _ trivial
            exact Mod.allL_of_forall (fun l => by
              rintro c w₁ w₂ _ ⟨D, rfl⟩
              exact ⟨rfl, fun e _ h => h⟩) f.chain

theorem tojson_blind (n : Nat) : ∀ cls st (c : Ctx),
    Sim SameState (fun _ => False) ((instOps env n cls st).tojson c) ((instOps env n cls st).tojson c) := by
  induction n with
  | zero => intro cls st c; exact Sim.raise (by simp)
  | succ n ih =>
    intro cls st c
    simp only [instOps]
    have hs : SimTojson SameState (fun _ => False) env (instOps env n) (instOps env n)
        (fun _ => True) True True :=
      { hv := by simp
        ha := by simp
        nval := fun _ _ _ => trivial
        col := fun _ _ _ _ => trivial
        alter := fun _ _ => trivial
        owner := by rintro _ _ o ⟨D, rfl⟩; rfl
        vis := fun _ cls st c _ => ih cls st c
        noMarks := fun _ => ⟨instOps_noMarks env n, instOps_noMarks env n⟩
        visV := fun _ cls st c _ => validate_blind n cls st c }
    refine sim_instTojson (by simp) ?_ ?_ ?_
    · rintro w₁ w₂ ⟨D, rfl⟩ j; rfl
    · rintro w₁ w₂ i _ ⟨D, rfl⟩; rfl
    · rintro i hv u₁ u₂ ⟨D, rfl⟩ f hf
      refine ⟨?_, ?_, ?_⟩
      · rintro _ w₁ w₂ ⟨D, rfl⟩; rfl
      · rintro w₁ w₂ ⟨D, rfl⟩; exact getAgree_diag (w := w₁) (by simp)
      · rintro w₁ w₂ ⟨D, rfl⟩ _ v ek
        exact sim_chainTojson hs f.chain (Mod.shownL_of_forall
          (fun l => by rintro c w₁ w₂ _ ⟨D, rfl⟩; exact ⟨rfl, fun e _ h => h⟩)
          (fun l => by rintro c w₁ w₂ _ ⟨D, rfl⟩; exact ⟨rfl, fun e _ h => h⟩) f.chain) _ trivial

theorem apiTojson_blind {w w' : World} (h : SameState w w') (n i : Nat) :
    (apiTojson env n i false false none w').1 = (apiTojson env n i false false none w).1 := by
  obtain ⟨D, rfl⟩ := h
  exact ((tojson_blind (env := env) n (w.heap i).cls none (rootCtx w i {} (.obj i)) { w with marks := [] } { w with visits := D, marks := [] } ⟨D, rfl⟩).1).symm

theorem written_same {n : Nat} {w w' : World} (h : SameState w w') (i : Nat) (r : Val) :
    (apiTojson env n i false false none w').1 = .ok r ↔ (apiTojson env n i false false none w).1 = .ok r := by
  rw [apiTojson_blind h]

/-- plain data is written as it is -/
theorem encode_plain (n : Nat) : ∀ (k : Nat) (v : Val), PlainV v → ∀ (w w' : World) (r : Val), encode env n k v w = (.ok r, w') → r = v ∧ w' = w := by
  intro k
  induction k with
  | zero => intro v _ w w' r h; cases h
  | succ k ih =>
    intro v hv w w' r h
    have hl : ∀ (xs : List Val), (∀ x ∈ xs, PlainV x) → ∀ (w w' : World) ys, encodeList (encode env n k) xs w = (.ok ys, w') → ys = xs ∧ w' = w := by
      intro xs
      induction xs with
      | nil => intro _ w w' ys h; cases h; exact ⟨rfl, rfl⟩
      | cons x xs ihx =>
        intro hx w w' ys h
        unfold encodeList at h
        obtain ⟨y, w1, h1, h⟩ := bind_ok h
        obtain ⟨ys', w2, h2, h3⟩ := bind_ok h
        obtain ⟨rfl, rfl⟩ := ih x (hx x (by simp)) _ _ _ h1
        obtain ⟨rfl, rfl⟩ := ihx (fun z hz => hx z (by simp [hz])) _ _ _ h2
        cases h3; exact ⟨rfl, rfl⟩
    have hd : ∀ (xs : List (String × Val)), (∀ x ∈ xs, PlainV x.2) → ∀ (w w' : World) ys, encodeDict (encode env n k) xs w = (.ok ys, w') → ys = xs ∧ w' = w := by
      intro xs
      induction xs with
      | nil => intro _ w w' ys h; cases h; exact ⟨rfl, rfl⟩
      | cons x xs ihx =>
        intro hx w w' ys h
        obtain ⟨kk, x⟩ := x
        unfold encodeDict at h
        obtain ⟨y, w1, h1, h⟩ := bind_ok h
        obtain ⟨ys', w2, h2, h3⟩ := bind_ok h
        obtain ⟨rfl, rfl⟩ := ih x (hx (kk, x) (by simp)) _ _ _ h1
        obtain ⟨rfl, rfl⟩ := ihx (fun z hz => hx z (by simp [hz])) _ _ _ h2
        cases h3; exact ⟨rfl, rfl⟩
    cases hv with
    | list hx =>
      simp only [encode] at h
      obtain ⟨y, w1, h1, h3⟩ := bind_ok h
      obtain ⟨rfl, rfl⟩ := hl _ hx _ _ _ h1
      cases h3; exact ⟨rfl, rfl⟩
    | dict hx =>
      simp only [encode] at h
      obtain ⟨y, w1, h1, h3⟩ := bind_ok h
      obtain ⟨rfl, rfl⟩ := hd _ hx _ _ _ h1
      cases h3; exact ⟨rfl, rfl⟩
    | _ => cases h; exact ⟨rfl, rfl⟩

/-- plain data is written, given enough depth -/
theorem plain_encode (n : Nat) {v : Val} (hv : PlainV v) : ∃ k₀, ∀ k ≥ k₀, ∀ w : World, encode env n k v w = (.ok v, w) := by
  induction hv with
  | @list xs _ ih =>
    have : ∃ k₀, ∀ k ≥ k₀, ∀ w : World, encodeList (encode env n k) xs w = (.ok xs, w) := by
      induction xs with
      | nil => exact ⟨0, fun _ _ _ => rfl⟩
      | cons x xs ihx =>
        rename_i hp
        obtain ⟨a, ha⟩ := ih x (by simp)
        obtain ⟨b, hb⟩ := ihx (fun z hz => hp z (by simp [hz])) (fun z hz => ih z (by simp [hz]))
        refine ⟨max a b, fun k hk w => ?_⟩
        unfold encodeList
        rw [Py.bind_run, ha k (by omega)]
        simp only [Py.bind_run, hb k (by omega)]
        rfl
    obtain ⟨a, ha⟩ := this
    refine ⟨a + 1, fun k hk w => ?_⟩
    obtain ⟨k, rfl⟩ := Nat.exists_eq_add_of_le' (show 1 ≤ k by omega)
    simp only [encode]
    rw [Py.bind_run, ha k (by omega)]; rfl
  | @dict xs _ ih =>
    have : ∃ k₀, ∀ k ≥ k₀, ∀ w : World, encodeDict (encode env n k) xs w = (.ok xs, w) := by
      induction xs with
      | nil => exact ⟨0, fun _ _ _ => rfl⟩
      | cons x xs ihx =>
        rename_i hp
        obtain ⟨kk, x⟩ := x
        obtain ⟨a, ha⟩ := ih (kk, x) (by simp)
        obtain ⟨b, hb⟩ := ihx (fun z hz => hp z (by simp [hz])) (fun z hz => ih z (by simp [hz]))
        refine ⟨max a b, fun k hk w => ?_⟩
        unfold encodeDict
        rw [Py.bind_run, ha k (by omega)]
        simp only [Py.bind_run, hb k (by omega)]
        rfl
    obtain ⟨a, ha⟩ := this
    refine ⟨a + 1, fun k hk w => ?_⟩
    obtain ⟨k, rfl⟩ := Nat.exists_eq_add_of_le' (show 1 ≤ k by omega)
    simp only [encode]
    rw [Py.bind_run, ha k (by omega)]; rfl
  | _ =>
    refine ⟨1, fun k hk w => ?_⟩
    obtain ⟨k, rfl⟩ := Nat.exists_eq_add_of_le' hk
    rfl

theorem Showable.same {w w' : World} {S : Nat → Prop} (h : Showable env w S) (hw : SameState w w') : Showable env w' S := by
  obtain ⟨D, rfl⟩ := hw
  exact ⟨h.field, h.key⟩

theorem encode_written {S : Nat → Prop} (n : Nat) {w₀ : World} (hs : Showable env w₀ S) : ∀ (k : Nat) (v : Val) (w w' : World) (r : Val), SameState w₀ w →
    (∀ i, Mentions i v → S i) → encode env n k v w = (.ok r, w') → Written env n w₀ v r ∧ SameState w₀ w' := by
  intro k
  induction k with
  | zero => intro v w w' r _ _ h; cases h
  | succ k ih =>
    intro v w w' r hw hm h
    have hl : ∀ (xs : List Val), (∀ x ∈ xs, ∀ i, Mentions i x → S i) → ∀ (w w' : World) ys, SameState w₀ w →
        encodeList (encode env n k) xs w = (.ok ys, w') → WrittenL env n w₀ xs ys ∧ SameState w₀ w' := by
      intro xs
      induction xs with
      | nil => intro _ w w' ys hw h; cases h; exact ⟨.nil, hw⟩
      | cons x xs ihx =>
        intro hx w w' ys hw h
        unfold encodeList at h
        obtain ⟨y, w1, h1, h⟩ := bind_ok h
        obtain ⟨ys', w2, h2, h⟩ := bind_ok h
        obtain ⟨a1, a2⟩ := ih x _ _ _ hw (hx x (by simp)) h1
        obtain ⟨b1, b2⟩ := ihx (fun z hz => hx z (by simp [hz])) _ _ _ a2 h2
        cases h; exact ⟨.cons a1 b1, b2⟩
    have hd : ∀ (xs : List (String × Val)), (∀ x ∈ xs, ∀ i, Mentions i x.2 → S i) → ∀ (w w' : World) ys, SameState w₀ w →
        encodeDict (encode env n k) xs w = (.ok ys, w') → WrittenD env n w₀ xs ys ∧ SameState w₀ w' := by
      intro xs
      induction xs with
      | nil => intro _ w w' ys hw h; cases h; exact ⟨.nil, hw⟩
      | cons x xs ihx =>
        intro hx w w' ys hw h
        obtain ⟨kk, x⟩ := x
        unfold encodeDict at h
        obtain ⟨y, w1, h1, h⟩ := bind_ok h
        obtain ⟨ys', w2, h2, h⟩ := bind_ok h
        obtain ⟨a1, a2⟩ := ih x _ _ _ hw (hx (kk, x) (by simp)) h1
        obtain ⟨b1, b2⟩ := ihx (fun z hz => hx z (by simp [hz])) _ _ _ a2 h2
        cases h; exact ⟨.cons a1 b1, b2⟩
    cases v with
    | list xs =>
      simp only [encode] at h
      obtain ⟨y, w1, h1, h⟩ := bind_ok h
      obtain ⟨a1, a2⟩ := hl xs (fun x hx i hi => hm i (.list hx hi)) _ _ _ hw h1
      cases h; exact ⟨.list a1, a2⟩
    | dict xs =>
      simp only [encode] at h
      obtain ⟨y, w1, h1, h⟩ := bind_ok h
      obtain ⟨a1, a2⟩ := hd xs (fun x hx i hi => hm i (.dict hx hi)) _ _ _ hw h1
      cases h; exact ⟨.dict a1, a2⟩
    | obj i =>
      simp only [encode] at h
      obtain ⟨y, w1, h1, h⟩ := bind_ok h
      obtain ⟨D, hD⟩ := tojson_changes_nothing (env := env) w n i false false none
      obtain ⟨rfl, rfl⟩ := encode_plain n k y (tojson_plain w S (hs.same hw) i (hm i .obj) n false false none y w1 h1) _ _ _ h
      refine ⟨.obj ((written_same hw i r).mp (by rw [h1])), hw.trans ⟨D, ?_⟩⟩
      rw [h1] at hD; exact hD
    | none => cases h; exact ⟨.none, hw⟩
    | bool b => cases h; exact ⟨.bool b, hw⟩
    | int b => cases h; exact ⟨.int b, hw⟩
    | flt b => cases h; exact ⟨.flt b, hw⟩
    | str b => cases h; exact ⟨.str b, hw⟩
    | _ => cases h

/-- **C83**. What the encoder writes for data made of lists, dicts, plain values and objects is the
data with every object replaced by its `tojson()`, as it is; no object changes. Other values are
never written. -/
theorem dumps_writes_tojson {S : Nat → Prop} {n k : Nat} {v : Val} {w w' : World} {r : Val} (hs : Showable env w S)
    (hm : ∀ i, Mentions i v → S i) (h : encode env n k v w = (.ok r, w')) : Written env n w v r ∧ SameState w w' :=
  encode_written n hs k v w w' r (.refl w) hm h

mutual
theorem written_encode {S : Nat → Prop} {n : Nat} {w₀ : World} (hs : Showable env w₀ S) {v r : Val} (hm : ∀ i, Mentions i v → S i) :
    Written env n w₀ v r → ∃ k₀, ∀ k ≥ k₀, ∀ w, SameState w₀ w → ∃ w', encode env n k v w = (.ok r, w') ∧ SameState w₀ w'
  | .none => ⟨1, fun k hk w hw => by obtain ⟨k, rfl⟩ := Nat.exists_eq_add_of_le' hk; exact ⟨w, rfl, hw⟩⟩
  | .bool b => ⟨1, fun k hk w hw => by obtain ⟨k, rfl⟩ := Nat.exists_eq_add_of_le' hk; exact ⟨w, rfl, hw⟩⟩
  | .int b => ⟨1, fun k hk w hw => by obtain ⟨k, rfl⟩ := Nat.exists_eq_add_of_le' hk; exact ⟨w, rfl, hw⟩⟩
  | .flt b => ⟨1, fun k hk w hw => by obtain ⟨k, rfl⟩ := Nat.exists_eq_add_of_le' hk; exact ⟨w, rfl, hw⟩⟩
  | .str b => ⟨1, fun k hk w hw => by obtain ⟨k, rfl⟩ := Nat.exists_eq_add_of_le' hk; exact ⟨w, rfl, hw⟩⟩
  | .obj (i := i) h => by
    have hp : PlainV r := tojson_plain w₀ S hs i (hm i .obj) n false false none r _ (Prod.ext h rfl)
    obtain ⟨a, ha⟩ := plain_encode (env := env) n hp
    refine ⟨a + 1, fun k hk w hw => ?_⟩
    obtain ⟨k, rfl⟩ := Nat.exists_eq_add_of_le' (show 1 ≤ k by omega)
    obtain ⟨D, hD⟩ := tojson_changes_nothing (env := env) w n i false false none
    refine ⟨_, ?_, hw.trans ⟨D, rfl⟩⟩
    simp only [encode]
    rw [Py.bind_run, show apiTojson env n i false false none w = (.ok r, { w with visits := D }) from Prod.ext ((written_same hw i r).mpr h) hD]
    exact ha k (by omega) _
  | .list (xs := xs) h => by
    obtain ⟨a, ha⟩ := written_encodeL hs (fun x hx i hi => hm i (.list hx hi)) h
    refine ⟨a + 1, fun k hk w hw => ?_⟩
    obtain ⟨k, rfl⟩ := Nat.exists_eq_add_of_le' (show 1 ≤ k by omega)
    obtain ⟨w', e, hw'⟩ := ha k (by omega) w hw
    refine ⟨w', ?_, hw'⟩
    simp only [encode]
    rw [Py.bind_run, e]; rfl
  | .dict (xs := xs) h => by
    obtain ⟨a, ha⟩ := written_encodeD hs (fun x hx i hi => hm i (.dict hx hi)) h
    refine ⟨a + 1, fun k hk w hw => ?_⟩
    obtain ⟨k, rfl⟩ := Nat.exists_eq_add_of_le' (show 1 ≤ k by omega)
    obtain ⟨w', e, hw'⟩ := ha k (by omega) w hw
    refine ⟨w', ?_, hw'⟩
    simp only [encode]
    rw [Py.bind_run, e]; rfl

theorem written_encodeL {S : Nat → Prop} {n : Nat} {w₀ : World} (hs : Showable env w₀ S) {xs ys : List Val} (hm : ∀ x ∈ xs, ∀ i, Mentions i x → S i) :
    WrittenL env n w₀ xs ys → ∃ k₀, ∀ k ≥ k₀, ∀ w, SameState w₀ w → ∃ w', encodeList (encode env n k) xs w = (.ok ys, w') ∧ SameState w₀ w'
  | .nil => ⟨0, fun _ _ w hw => ⟨w, rfl, hw⟩⟩
  | .cons h1 h2 => by
    obtain ⟨a, ha⟩ := written_encode hs (hm _ (by simp)) h1
    obtain ⟨b, hb⟩ := written_encodeL hs (fun z hz => hm z (by simp [hz])) h2
    refine ⟨max a b, fun k hk w hw => ?_⟩
    obtain ⟨w1, e1, hw1⟩ := ha k (by omega) w hw
    obtain ⟨w2, e2, hw2⟩ := hb k (by omega) w1 hw1
    refine ⟨w2, ?_, hw2⟩
    unfold encodeList
    rw [Py.bind_run, e1]
    simp only [Py.bind_run, e2]
    rfl

theorem written_encodeD {S : Nat → Prop} {n : Nat} {w₀ : World} (hs : Showable env w₀ S) {xs ys : List (String × Val)} (hm : ∀ x ∈ xs, ∀ i, Mentions i x.2 → S i) :
    WrittenD env n w₀ xs ys → ∃ k₀, ∀ k ≥ k₀, ∀ w, SameState w₀ w → ∃ w', encodeDict (encode env n k) xs w = (.ok ys, w') ∧ SameState w₀ w'
  | .nil => ⟨0, fun _ _ w hw => ⟨w, rfl, hw⟩⟩
  | .cons h1 h2 => by
    obtain ⟨a, ha⟩ := written_encode hs (hm _ List.mem_cons_self) h1
    obtain ⟨b, hb⟩ := written_encodeD hs (fun z hz => hm z (by simp [hz])) h2
    refine ⟨max a b, fun k hk w hw => ?_⟩
    obtain ⟨w1, e1, hw1⟩ := ha k (by omega) w hw
    obtain ⟨w2, e2, hw2⟩ := hb k (by omega) w1 hw1
    refine ⟨w2, ?_, hw2⟩
    unfold encodeDict
    rw [Py.bind_run, e1]
    simp only [Py.bind_run, e2]
    rfl
end

/-- **C83**. Conversely, data whose objects all have a JSON form is written, with any recursion limit
that is large enough. -/
theorem dumps_completes {S : Nat → Prop} {n : Nat} {v : Val} {w : World} {r : Val} (hs : Showable env w S)
    (hm : ∀ i, Mentions i v → S i) (h : Written env n w v r) : ∃ k₀, ∀ k ≥ k₀, (encode env n k v w).1 = .ok r := by
  obtain ⟨a, ha⟩ := written_encode hs hm h
  refine ⟨a, fun k hk => ?_⟩
  obtain ⟨w', e, -⟩ := ha k hk w (.refl w)
  rw [e]

end JC

namespace JC.EncodeDemo
open PlainDemo (attrsOf fName fBorn fFriend day)

def person : ClassDef := { name := "Person", fields := [fName, fBorn, fFriend] }
def env : Env := { cls := fun n => if n = "Person" then person else {} }
def world : World where
  heap := fun i => match i with
    | 0 => { cls := "Person", attrs := attrsOf [("name", .str "ann"), ("born", .date day), ("friend", .obj 1)] }
    | 1 => { cls := "Person", attrs := attrsOf [("name", .str "bob")] }
    | _ => {}
  next := 2

theorem showable : Showable env world (fun i => i < 2) := by
  refine ⟨fun i hi f hf _ v hv => ?_, fun i hi f hf hl => ?_⟩
  · have hg : f = fName ∨ f = fBorn ∨ f = fFriend := by
      rcases (show i = 0 ∨ i = 1 by omega) with rfl | rfl <;> simpa [World.cdef, world, env, person] using hf
    rcases (show i = 0 ∨ i = 1 by omega) with rfl | rfl <;> rcases hg with rfl | rfl | rfl <;> cases hv
    · exact .plain (.str _) ⟨(Leaf.Quiet.keeps fun _ _ => rfl), trivial⟩
    · exact .makes date_makes trivial
    · exact .obj (by decide) trivial
    · exact .plain (.str _) ⟨(Leaf.Quiet.keeps fun _ _ => rfl), trivial⟩
    · exact .makes date_makes trivial
    · exact .plain .none ⟨trivial, trivial⟩
  · have hg : f = fName ∨ f = fBorn ∨ f = fFriend := by
      rcases (show i = 0 ∨ i = 1 by omega) with rfl | rfl <;> simpa [World.cdef, world, env, person] using hf
    rcases hg with rfl | rfl | rfl <;> cases hl

/-- `{"people": [ann, bob], "total": 2}` -/
def report : Val := .dict [("people", .list [.obj 0, .obj 1]), ("total", .int 2)]
def bob : Val := .dict [("name", .str "bob")]
def written : Val := .dict [("people", .list [.dict [("name", .str "ann"), ("born", .str "2020-02-29T00:00:00.000Z"), ("friend", bob)], bob]), ("total", .int 2)]

theorem mentions (i : Nat) (h : Mentions i report) : i < 2 := by
  cases h with
  | dict hk h =>
    simp only [List.mem_cons, List.not_mem_nil, or_false] at hk
    rcases hk with rfl | rfl
    · cases h with
      | list hx h =>
        simp only [List.mem_cons, List.not_mem_nil, or_false] at hx
        rcases hx with rfl | rfl <;> cases h <;> decide
    · cases h

/-- A list of objects inside a dict is written. -/
example : Written env 5 world report written :=
  (dumps_writes_tojson (k := 9) (w' := (encode env 5 9 report world).2) showable mentions (by rfl)).1

end JC.EncodeDemo

namespace JC.PlainDemo
/-- A valid object with a date in a field of any type is not written at all. -/
theorem any_not_written (k : Nat) : (apiValidate penv 4 2 none world).1 = .ok () ∧
    (encode penv 4 (k + 3) (.obj 2) world).1 = .error .typeError := ⟨rfl, rfl⟩
end JC.PlainDemo
