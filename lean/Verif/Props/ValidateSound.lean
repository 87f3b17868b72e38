import Verif.Props.ValidateSpec
import Verif.Props.ValidateMod
import Verif.Props.Collection

/-
C20, soundness: what a successful validate() guarantees.
-/
namespace JC
variable {env : Env}

/-! ### Non-empty messages -/

/-- never a validation error without messages -/
def NE {α : Type} (m : Py World α) : Prop := ∀ s, (m s).1 ≠ .error (.validation [])

theorem NE.raiseMsgs (msgs : List (String × String)) : NE (JC.raiseMsgs (σ := World) msgs) := by
  intro s
  cases msgs <;> simp [JC.raiseMsgs]

theorem validateLoop_not_validation (c : Ctx) (ms : List (Ops World)) (acc s msgs) :
    (validateLoop c ms acc s).1 ≠ .error (.validation msgs) := by
  induction ms generalizing acc s with
  | nil => simp [validateLoop]
  | cons m ms ih =>
    simp only [validateLoop]
    rcases m.validate c s with ⟨r, s'⟩
    cases r with
    | ok a => exact ih _ _
    | error e =>
      cases e with
      | validation x =>
        simp only
        split
        · exact ih _ _
        · simp
      | _ => simp

theorem NE.chain (vs : List (Ops World)) (c : Ctx) : NE (chainValidate vs c) := by
  intro s
  unfold chainValidate
  rw [Py.bind_run]
  have h := validateLoop_not_validation c (nvs vs) [] s []
  rcases hr : validateLoop c (nvs vs) [] s with ⟨r, s'⟩
  rw [hr] at h
  cases r with
  | ok a => exact NE.raiseMsgs a s'
  | error e => simpa using h

theorem NE.colLoop {item : Ops World} {c : Ctx} {all : Bool} (h : ∀ c, NE (item.validate c))
    (es : List (Key × Val)) (acc) : NE (colValidateLoop item c all es acc) := by
  intro s
  induction es generalizing acc s with
  | nil => simp [colValidateLoop]
  | cons e es ih =>
    obtain ⟨k, v⟩ := e
    simp only [colValidateLoop]
    have h := h (c.colval v k) s
    rcases hr : item.validate (c.colval v k) s with ⟨r, s'⟩
    rw [hr] at h
    cases r with
    | ok a => exact ih _ _
    | error e =>
      cases e with
      | validation x =>
        simp only
        split
        · exact ih _ _
        · simpa using h
      | _ => simp

theorem NE.col {sp : Special} {item : Ops World} {c : Ctx} (h : ∀ c, NE (item.validate c))
    (es : List (Key × Val)) : NE (colValidate (colEnv env sp) item c es) := by
  intro s
  unfold colValidate
  rw [Py.bind_run]
  simp only [colEnv]
  cases c.owner with
  | none => simp
  | some o =>
    simp only [readW]
    rw [Py.bind_run]
    have h := NE.colLoop (c := c) h es [] (all := c.cfg.allFields.getD (s.cdef env o).validateAllFields) s
    rcases hr : colValidateLoop item c (c.cfg.allFields.getD (s.cdef env o).validateAllFields) es [] s with ⟨r, s'⟩
    rw [hr] at h
    cases r with
    | ok a => exact NE.raiseMsgs a s'
    | error e => simpa using h

theorem NE.unionV (c : Ctx) (alts : List (Ops World)) (h : ∀ a ∈ alts, ∀ c, NE (a.validate c)) :
    NE (unionValidate c alts) := by
  intro s
  induction alts generalizing s with
  | nil => simp [unionValidate, Ctx.vexc]
  | cons a as ih =>
    simp only [unionValidate, Py.catchV]
    have ih := ih (fun b hb => h b (by simp [hb]))
    rcases a.validate c s with ⟨r, s'⟩
    cases r with
    | ok a => simp
    | error e =>
      cases e with
      | validation x => exact ih s'
      | _ => simp

/-- Getters do not raise validation errors; leaves do not raise empty ones. -/
structure ProperErrors (env : Env) : Prop where
  leaf : ∀ cls, ∀ f ∈ (env.cls cls).fields,
    Mod.AllL (fun l => ∀ h c, l.validate h c ≠ .error (.validation [])) (fun _ => True) f.chain
  getter : ∀ cls, ∀ f ∈ (env.cls cls).fields, ∀ h i msgs, f.getter h i ≠ .error (.validation msgs)

theorem NE.den {vis : Visitor} (hvis : ∀ cls st c, NE ((vis cls st).validate c)) (m : Mod)
    (hl : m.All (fun l => ∀ h c, l.validate h c ≠ .error (.validation [])) (fun _ => True)) (c : Ctx) :
    NE ((m.den env vis).validate c) := by
  cases m with
  | eager => intro s; simp [Mod.den]
  | pre => intro s; simp [Mod.den]
  | leaf l => intro s; simpa [Mod.den, leafOps, readW] using hl s.heap c
  | listOf nn sp item =>
    simp only [Mod.den, listOps]
    split
    · intro s; simp
    · exact NE.col (fun c => NE.chain _ c) _
    · intro s; simp [Ctx.vexc]
  | dictOf nn item =>
    simp only [Mod.den, dictOps]
    split
    · intro s; simp
    · exact NE.col (fun c => NE.chain _ c) _
    · intro s; simp [Ctx.vexc]
  | instOf cls st => exact hvis cls st c
  | union alts =>
    simp only [Mod.den, unionOps]
    split
    · intro s; simp
    · apply NE.unionV
      intro a ha c
      rw [denA_map] at ha
      obtain ⟨x, _, rfl⟩ := List.mem_map.1 ha
      exact NE.chain _ c

theorem getattr_not_validation (hp : ProperErrors env) (w : World) (i : Nat) (n : String) (msgs) :
    w.getattr env i n ≠ .error (.validation msgs) := by
  unfold World.getattr
  split
  · next f hf =>
    have hmem : f ∈ (env.cls (w.heap i).cls).fields := List.mem_of_find?_eq_some hf
    split
    · exact hp.getter _ f hmem _ _ _
    · simp
  · simp

theorem NE.fieldLoop (hp : ProperErrors env) {ops : Field → Ops World} (hops : ∀ f c, NE ((ops f).validate c))
    (c : Ctx) (i : Nat) (only : Option (List String)) (all : Bool) (fs : List Field) (acc) :
    NE (validateFields env ops c i only all fs acc) := by
  intro s
  induction fs generalizing acc s with
  | nil => simp [validateFields]
  | cons f fs ih =>
    simp only [validateFields]
    cases hg : s.getattr env i f.name with
    | error e =>
      intro h
      have : e = .validation [] := by simpa using h
      exact getattr_not_validation hp s i f.name [] (by rw [hg, this])
    | ok v =>
      simp only
      split
      · exact ih _ _
      · have hf : (validateField env ops c i f v s).1 ≠ .error (.validation []) := by
          simp only [validateField, Py.bind_run, Py.get_run, readW]
          cases he : c.ekey env s f.name with
          | error e =>
            unfold Ctx.ekey at he
            split at he
            · cases he
            · cases he; simp
          | ok ek => exact hops f _ s
        rcases hr : validateField env ops c i f v s with ⟨r, s'⟩
        rw [hr] at hf
        cases r with
        | ok a => exact ih _ _
        | error e =>
          cases e with
          | validation x =>
            simp only
            cases all
            · simpa using hf
            · exact ih _ _
          | _ => simp

theorem NE.inst (hp : ProperErrors env) (n : Nat) (cls : String) (st : Option Bool) (c : Ctx) :
    NE ((instOps env n cls st).validate c) := by
  cases n with
  | zero => intro s; simp [instOps]
  | succ n =>
    simp only [instOps, instValidate]
    split
    · intro s; simp
    · intro s
      simp only
      split
      · simp
      · split
        · simp only [instValidateBody, Py.bind_run, Py.get_run]
          generalize hw : (s.markPut env _).visit _ = w
          have h := NE.fieldLoop hp (ops := Field.ops env (instOps env n)) (fun f c => NE.chain _ c) c ‹Nat›
            (onlyModified (w.heap ‹Nat›)) (c.cfg.allFields.getD (env.cls cls).validateAllFields)
            (w.cdef env ‹Nat›).fields [] w
          rcases hr : validateFields env (Field.ops env (instOps env n)) c _ _
            (c.cfg.allFields.getD (env.cls cls).validateAllFields) _ [] w with ⟨r, s'⟩
          rw [hr] at h
          cases r with
          | ok a => exact NE.raiseMsgs a s'
          | error e => simpa using h
        · simp [Ctx.vexc]
    · intro s; simp

/-! ### Marks -/

/-- the table entry an object is filed under -/
def markKey (env : Env) (w : World) (j : Nat) : String × MarkKey :=
  ((w.heap j).cls, match w.id env j with
    | .none => .mem j
    | v => .pk (env.pystr v))

/-- some object is filed under the key -/
def HasMark (w : World) (k : String × MarkKey) : Prop := (mLookup k w.marks).isSome

theorem markPut_eq (w : World) (j : Nat) :
    w.markPut env j = { w with marks := (markKey env w j, j) :: w.marks } := by
  unfold World.markPut markKey
  cases w.id env j <;> rfl

theorem marked_key {w : World} {j : Nat} (h : (w.markGet env j).isSome) :
    HasMark w (markKey env w j) ∨ HasMark w ((w.heap j).cls, .mem j) := by
  unfold World.markGet at h
  unfold markKey HasMark
  cases hv : w.id env j with
  | none => rw [hv] at h; exact .inl h
  | _ =>
    rw [hv] at h
    simp only at h ⊢
    split at h
    · next o ho => left; rw [ho]; rfl
    · exact .inr h

theorem marked_of_key {w : World} {j : Nat} (h : HasMark w (markKey env w j)) :
    (w.markGet env j).isSome := by
  unfold World.markGet
  unfold markKey HasMark at h
  cases hv : w.id env j with
  | none => rw [hv] at h; exact h
  | _ =>
    rw [hv] at h
    simp only at h ⊢
    split
    · rfl
    · next ho => rw [ho] at h; cases h

theorem id_congr {w w' : World} (h : w'.heap = w.heap) (j : Nat) : w'.id env j = w.id env j := by
  simp [World.id, World.cdef, World.attr, h]

theorem markKey_congr {w w' : World} (h : w'.heap = w.heap) (j : Nat) :
    markKey env w' j = markKey env w j := by
  simp only [markKey, id_congr h, h]

theorem sameIdentity_of_key {w : World} {i j : Nat}
    (h : markKey env w i = markKey env w j ∨ ((w.heap i).cls, MarkKey.mem i) = markKey env w j) :
    SameIdentity env w i j := by
  unfold markKey at h
  unfold SameIdentity
  cases hi : w.id env i <;> cases hj : w.id env j <;> simp_all

/-! ### Soundness -/

/-- the object at this place has been visited -/
def Seen (env : Env) (w : World) (_ : String) (c : Ctx) : Prop :=
  ∃ j, c.val = .obj j ∧ (w.markGet env j).isSome

/-- What a successful run from `w` to `w'` has established; `D` are the visited places,
with the class expected there. -/
structure Post (env : Env) (w : World) (D : List (String × Ctx)) (w' : World) : Prop where
  heap : w'.heap = w.heap
  mono : ∀ k, HasMark w k → HasMark w' k
  new : ∀ k, HasMark w' k → HasMark w k ∨ ∃ d ∈ D, ∃ j, d.2.val = .obj j ∧ markKey env w j = k
  ok : ∀ d ∈ D, ∃ j, d.2.val = .obj j ∧ env.isSub (w.heap j).cls d.1 = true ∧
    ObjOk env w (Seen env w') d.2 j

theorem Post.refl (w : World) : Post env w [] w :=
  ⟨rfl, fun _ h => h, fun _ h => .inl h, by simp⟩

theorem Seen.mono {w w' : World} (hh : w'.heap = w.heap) (hm : ∀ k, HasMark w k → HasMark w' k)
    (cls : String) (c : Ctx) (h : Seen env w cls c) : Seen env w' cls c := by
  obtain ⟨j, hj, hs⟩ := h
  exact ⟨j, hj, markGet_mono hh hm hs⟩

theorem ObjOk.mono {w : World} {O O' : String → Ctx → Prop} (hO : ∀ cls c, O cls c → O' cls c)
    {c : Ctx} {j : Nat} (h : ObjOk env w O c j) : ObjOk env w O' c j := by
  intro f hf hm
  obtain ⟨v, hv, ha⟩ := h f hf hm
  exact ⟨v, hv, fun m hm => (ha m hm).mono hO⟩

theorem fieldCtx_congr {w w' : World} (hh : w'.heap = w.heap) (c : Ctx) (j : Nat) (f : Field) (v : Val) :
    fieldCtx env w' c j f v = fieldCtx env w c j f v := by
  unfold fieldCtx World.cdef
  rw [hh]

theorem ObjOk.congr {w w' : World} (hh : w'.heap = w.heap) {O : String → Ctx → Prop} {c : Ctx} {j : Nat}
    (h : ObjOk env w' O c j) : ObjOk env w O c j := by
  intro f hf hm
  have hcd : w'.cdef env j = w.cdef env j := by unfold World.cdef; rw [hh]
  obtain ⟨v, hv, ha⟩ := h f (hcd ▸ hf) (by rw [hh]; exact hm)
  refine ⟨v, by rw [← getattr_congr hh]; exact hv, fun m hm => ?_⟩
  rw [← fieldCtx_congr hh, ← hh]
  exact ha m hm

theorem Post.trans {w w' w'' : World} {D D' : List (String × Ctx)} (h : Post env w D w')
    (h' : Post env w' D' w'') : Post env w (D ++ D') w'' where
  heap := h'.heap.trans h.heap
  mono := fun k hk => h'.mono k (h.mono k hk)
  new := by
    intro k hk
    rcases h'.new k hk with hk | ⟨d, hd, j, hj, hkey⟩
    · rcases h.new k hk with hk | ⟨d, hd, j, hj, hkey⟩
      · exact .inl hk
      · exact .inr ⟨d, by simp [hd], j, hj, hkey⟩
    · exact .inr ⟨d, by simp [hd], j, hj, by rw [← hkey]; exact (markKey_congr h.heap j).symm⟩
  ok := by
    intro d hd
    rcases List.mem_append.1 hd with hd | hd
    · obtain ⟨j, hj, hs, hok⟩ := h.ok d hd
      exact ⟨j, hj, hs, hok.mono (fun cls c => Seen.mono h'.heap h'.mono cls c)⟩
    · obtain ⟨j, hj, hs, hok⟩ := h'.ok d hd
      exact ⟨j, hj, by rw [← h.heap]; exact hs, hok.congr h.heap⟩

theorem chainValidate_accepts {vs : List (Ops World)} {c : Ctx} (hne : NonEmptyMsgs c (nvs vs))
    {s s' : World} (hv : chainValidate vs c s = (.ok (), s')) : Accepts c (nvs vs) s s' := by
  unfold chainValidate at hv
  rw [Py.bind_run] at hv
  rcases hl : validateLoop c (nvs vs) [] s with ⟨_ | msgs, s₁⟩
  · rw [hl] at hv; cases hv
  rw [hl] at hv
  cases msgs with
  | nil =>
    simp only [raiseMsgs, Py.pure_run, Prod.mk.injEq, true_and] at hv
    subst hv
    exact validateLoop_empty hne hl
  | cons x xs => simp [raiseMsgs] at hv

/-- The verdict on one modifier in terms of the specification. -/
def SoundAt (env : Env) (m : Mod) (run : Py World Unit) (c : Ctx) : Prop :=
  ∀ w w', run w = (.ok (), w') → ∃ D, Post env w D w' ∧ Accepted (Seen env w') w'.heap m c

/-- The verdict on a chain in terms of the specification. -/
def SoundChain (env : Env) (ms : List Mod) (run : Py World Unit) (c : Ctx) : Prop :=
  ∀ w w', run w = (.ok (), w') → ∃ D, Post env w D w' ∧
    ∀ m, Checked ms m → Accepted (Seen env w') w'.heap m c

theorem sound_accepts {c : Ctx} {d : Mod → Ops World} (ms : List Mod)
    (h : ∀ m ∈ ms, SoundAt env m ((d m).validate c) c) {s s' : World}
    (ha : Accepts c (ms.map d) s s') :
    ∃ D, Post env s D s' ∧ ∀ m ∈ ms, Accepted (Seen env s') s'.heap m c := by
  induction ms generalizing s with
  | nil => cases ha; exact ⟨[], Post.refl _, by simp⟩
  | cons m ms ih =>
    simp only [List.map_cons] at ha
    cases ha with
    | cons hm hrest =>
      obtain ⟨D, hD, hacc⟩ := h m (by simp) _ _ hm
      obtain ⟨D', hD', hacc'⟩ := ih (fun m' hm' => h m' (by simp [hm'])) hrest
      refine ⟨D ++ D', hD.trans hD', ?_⟩
      intro m' hm'
      rcases List.mem_cons.1 hm' with rfl | hm'
      · rw [hD'.heap]
        exact hacc.mono (fun cls c => Seen.mono hD'.heap hD'.mono cls c)
      · exact hacc' m' hm'

theorem sound_chain {vis : Visitor} (hn : NoMarks vis) (hne : ∀ cls st c, NE ((vis cls st).validate c))
    {ms : List Mod} {c : Ctx}
    (hl : Mod.AllL (fun l => ∀ h c, l.validate h c ≠ .error (.validation [])) (fun _ => True) ms)
    (h : ∀ m ∈ ms, SoundAt env m ((m.den env vis).validate c) c) :
    SoundChain env ms (chainValidate (denL env vis ms) c) c := by
  intro w w' hv
  have hacc := chainValidate_accepts (c := c) (vs := denL env vis ms) (by
    rw [nvs_denL _ _ hn]
    intro o ho s s' msgs hr hnil
    obtain ⟨m, hm, rfl⟩ := List.mem_map.1 ho
    exact NE.den hne m (Mod.AllL_iff.1 hl m (mem_nvsM hm)) c s (by rw [hr, hnil])) hv
  rw [nvs_denL _ _ hn] at hacc
  obtain ⟨D, hD, ha⟩ := sound_accepts (nvsM ms) (fun m hm => h m (mem_nvsM hm)) hacc
  exact ⟨D, hD, fun m hm => ha m (mem_nvsM_of_checked hm)⟩

theorem sound_items {ms : List Mod} {item : Ops World} {c : Ctx} {es : List (Key × Val)}
    (h : ∀ kv ∈ es, SoundChain env ms (item.validate (c.colval kv.2 kv.1)) (c.colval kv.2 kv.1))
    {s s' : World} (ha : ItemsAccept item c es s s') :
    ∃ D, Post env s D s' ∧ ∀ kv ∈ es, ∀ m, Checked ms m →
      Accepted (Seen env s') s'.heap m (c.colval kv.2 kv.1) := by
  induction ha with
  | nil s => exact ⟨[], Post.refl s, by simp⟩
  | @cons k v r s s' s'' hv hrest ih =>
    obtain ⟨D, hD, hacc⟩ := h (k, v) (by simp) _ _ hv
    obtain ⟨D', hD', hacc'⟩ := ih (fun m' hm' => h m' (by simp [hm']))
    refine ⟨D ++ D', hD.trans hD', ?_⟩
    intro kv hkv m hm
    rcases List.mem_cons.1 hkv with rfl | hkv
    · rw [hD'.heap]
      exact (hacc m hm).mono (fun cls c => Seen.mono hD'.heap hD'.mono cls c)
    · exact hacc' kv hkv m hm

theorem sound_col {sp : Special} {ms : List Mod} {item : Ops World} {c : Ctx} {es : List (Key × Val)}
    (hne : ∀ c, NE (item.validate c))
    (h : ∀ kv ∈ es, SoundChain env ms (item.validate (c.colval kv.2 kv.1)) (c.colval kv.2 kv.1))
    {s s' : World} (ha : colValidate (colEnv env sp) item c es s = (.ok (), s')) :
    ∃ D, Post env s D s' ∧ ∀ kv ∈ es, ∀ m, Checked ms m →
      Accepted (Seen env s') s'.heap m (c.colval kv.2 kv.1) := by
  cases ho : c.owner with
  | none =>
    unfold colValidate at ha
    simp [colEnv, ho, Py.bind_run] at ha
  | some o =>
    have hb : (colEnv env sp).ownerAllFields c s = (.ok (s.cdef env o).validateAllFields, s) := by
      simp [colEnv, ho, readW]
    exact sound_items h ((colValidate_ok_iff (fun c s s' msgs hr hnil => hne c s (by rw [hr, hnil])) hb).1 ha)

mutual
/-- Unions contain no instance modifiers (at any depth inside the union). -/
def Mod.PlainUnions : Mod → Prop
  | .listOf _ _ item => Mod.PlainUnionsL item
  | .dictOf _ item => Mod.PlainUnionsL item
  | .union alts => Mod.AllA (fun _ => True) (fun _ => False) alts
  | _ => True
def Mod.PlainUnionsL : List Mod → Prop
  | [] => True
  | m :: ms => Mod.PlainUnions m ∧ Mod.PlainUnionsL ms
end

mutual
theorem plain_of_noInst : ∀ (m : Mod), m.All (fun _ => True) (fun _ => False) → m.PlainUnions
  | .eager, _ => trivial
  | .pre, _ => trivial
  | .leaf _, _ => trivial
  | .listOf _ _ item, h => plainL_of_noInst item h
  | .dictOf _ item, h => plainL_of_noInst item h
  | .instOf _ _, _ => trivial
  | .union _, h => h
theorem plainL_of_noInst : ∀ (ms : List Mod), Mod.AllL (fun _ => True) (fun _ => False) ms →
    Mod.PlainUnionsL ms
  | [], _ => trivial
  | m :: ms, h => ⟨plain_of_noInst m h.1, plainL_of_noInst ms h.2⟩
end

mutual
theorem den_noInst {vis vis' : Visitor} : ∀ (m : Mod), m.All (fun _ => True) (fun _ => False) →
    m.den env vis = m.den env vis'
  | .eager, _ => rfl
  | .pre, _ => rfl
  | .leaf l, _ => rfl
  | .listOf nn sp item, h => by simp only [Mod.den]; rw [denL_noInst item h]
  | .dictOf nn item, h => by simp only [Mod.den]; rw [denL_noInst item h]
  | .instOf _ _, h => h.elim
  | .union alts, h => by simp only [Mod.den]; rw [denA_noInst alts h]
theorem denL_noInst {vis vis' : Visitor} : ∀ (ms : List Mod), Mod.AllL (fun _ => True) (fun _ => False) ms →
    denL env vis ms = denL env vis' ms
  | [], _ => rfl
  | m :: ms, h => by simp only [denL]; rw [den_noInst m h.1, denL_noInst ms h.2]
theorem denA_noInst {vis vis' : Visitor} : ∀ (as : List (List Mod)),
    Mod.AllA (fun _ => True) (fun _ => False) as → denA env vis as = denA env vis' as
  | [], _ => rfl
  | a :: as, h => by simp only [denA]; rw [denL_noInst a h.1, denA_noInst as h.2]
end

/-- A visitor that accepts everything without effects. -/
def idleVis : Visitor := fun _ _ => {}

theorem chain_noInst_state {vis : Visitor} (ms : List Mod)
    (h : Mod.AllL (fun _ => True) (fun _ => False) ms) (c : Ctx) (w : World) :
    (chainValidate (denL env vis ms) c w).2 = w := by
  rw [denL_noInst (vis' := idleVis) ms h]
  have hs : SimValidate (fun w₁ w₂ => w₁ = w ∧ w₂ = w) (fun _ => False) env env idleVis idleVis
      (fun _ => True) :=
    { hv := by simp
      ha := by simp
      noMarks₁ := fun _ _ => ⟨rfl, rfl⟩
      noMarks₂ := fun _ _ => ⟨rfl, rfl⟩
      col := fun _ _ _ _ _ => trivial
      alter := fun _ _ => trivial
      owner := by rintro _ _ o ⟨rfl, rfl⟩; rfl
      vis := fun _ _ _ _ => Sim.pure () }
  exact (sim_den_chain hs ms (Mod.allL_of_forall (fun l c w₁ w₂ _ hk =>
    ⟨by rw [hk.1, hk.2], fun _ _ h => h⟩) ms) c trivial w w ⟨rfl, rfl⟩).2.2.1

theorem union_ok_exists {vis : Visitor} (c : Ctx) : ∀ (alts : List (List Mod)),
    Mod.AllA (fun _ => True) (fun _ => False) alts → ∀ w w',
    unionValidate c (denA env vis alts) w = (.ok (), w') →
    ∃ a ∈ alts, chainValidate (denL env vis a) c w = (.ok (), w')
  | [], _, w, w', h => by simp [denA, unionValidate] at h
  | a :: as, ha, w, w', h => by
    simp only [denA, unionValidate, Py.catchV, chainOps] at h
    have hst := chain_noInst_state (env := env) (vis := vis) a ha.1 c w
    rcases hr : chainValidate (denL env vis a) c w with ⟨r, s⟩
    rw [hr] at h hst
    simp only at hst
    subst hst
    cases r with
    | ok u => exact ⟨a, by simp, by simpa using h ▸ hr⟩
    | error e =>
      cases e with
      | validation x =>
        obtain ⟨b, hb, hrun⟩ := union_ok_exists c as ha.2 _ _ h
        exact ⟨b, by simp [hb], hrun⟩
      | _ => simp at h

/-- leaf condition used throughout -/
abbrev LeafNE : Leaf → Prop := fun l => ∀ h c, l.validate h c ≠ .error (.validation [])

mutual
theorem sound_den {vis : Visitor} (hn : NoMarks vis) (hne : ∀ cls st c, NE ((vis cls st).validate c))
    (hvis : ∀ cls st c, SoundAt env (.instOf cls st) ((vis cls st).validate c) c) :
    ∀ (m : Mod), m.All LeafNE (fun _ => True) → m.PlainUnions → ∀ c,
      SoundAt env m ((m.den env vis).validate c) c
  | .eager, _, _, c => by
    intro w w' h
    simp only [Mod.den, Py.pure_run, Prod.mk.injEq, true_and] at h
    exact ⟨[], h ▸ Post.refl w, .eager⟩
  | .pre, _, _, c => by
    intro w w' h
    simp only [Mod.den, Py.pure_run, Prod.mk.injEq, true_and] at h
    exact ⟨[], h ▸ Post.refl w, .pre⟩
  | .leaf l, _, _, c => by
    intro w w' h
    simp only [Mod.den, leafOps, readW, Prod.mk.injEq] at h
    exact ⟨[], h.2 ▸ Post.refl w, .leaf (h.2 ▸ h.1)⟩
  | .listOf nn sp item, hl, hp, c => by
    simp only [Mod.den, listOps]
    split
    · next hv =>
      intro w w' h
      simp only [Py.pure_run, Prod.mk.injEq, true_and] at h
      exact ⟨[], h ▸ Post.refl w, .listNone hv⟩
    · next xs hv =>
      intro w w' h
      obtain ⟨D, hD, ha⟩ := sound_col (ms := item) (fun c => NE.chain _ c)
        (fun kv _ => sound_den_chain hn hne hvis item hl hp _) h
      refine ⟨D, hD, .list hv (fun k x hk m hm => ?_)⟩
      refine ha (.i k, x) ?_ m hm
      rw [enumVals_eq]
      refine List.mem_map.2 ⟨(x, k), ?_, rfl⟩
      rw [List.mem_zipIdx_iff_getElem?]
      exact hk
    · intro w w' h
      simp at h
  | .dictOf nn item, hl, hp, c => by
    simp only [Mod.den, dictOps]
    split
    · next hv =>
      intro w w' h
      simp only [Py.pure_run, Prod.mk.injEq, true_and] at h
      exact ⟨[], h ▸ Post.refl w, .dictNone hv⟩
    · next xs hv =>
      intro w w' h
      obtain ⟨D, hD, ha⟩ := sound_col (ms := item) (fun c => NE.chain _ c)
        (fun kv _ => sound_den_chain hn hne hvis item hl hp _) h
      refine ⟨D, hD, .dict hv (fun k x hk m hm => ?_)⟩
      exact ha (.s k, x) (List.mem_map.2 ⟨(k, x), hk, rfl⟩) m hm
    · intro w w' h
      simp at h
  | .instOf cls st, _, _, c => by
    simp only [Mod.den]
    exact hvis cls st c
  | .union alts, hl, hp, c => by
    simp only [Mod.den, unionOps]
    split
    · next hv =>
      intro w w' h
      simp only [Py.pure_run, Prod.mk.injEq, true_and] at h
      exact ⟨[], h ▸ Post.refl w, .unionNone hv⟩
    · intro w w' h
      obtain ⟨a, ha, hrun⟩ := union_ok_exists c.alterfdef alts hp _ _ h
      obtain ⟨D, hD, hacc⟩ := sound_den_alts hn hne hvis alts hl hp _ a ha _ _ hrun
      exact ⟨D, hD, .union ha hacc⟩
theorem sound_den_chain {vis : Visitor} (hn : NoMarks vis) (hne : ∀ cls st c, NE ((vis cls st).validate c))
    (hvis : ∀ cls st c, SoundAt env (.instOf cls st) ((vis cls st).validate c) c) :
    ∀ (ms : List Mod), Mod.AllL LeafNE (fun _ => True) ms → Mod.PlainUnionsL ms → ∀ c,
      SoundChain env ms (chainValidate (denL env vis ms) c) c
  | ms, hl, hp, c => sound_chain hn hne hl (sound_den_list hn hne hvis ms hl hp c)
theorem sound_den_list {vis : Visitor} (hn : NoMarks vis) (hne : ∀ cls st c, NE ((vis cls st).validate c))
    (hvis : ∀ cls st c, SoundAt env (.instOf cls st) ((vis cls st).validate c) c) :
    ∀ (ms : List Mod), Mod.AllL LeafNE (fun _ => True) ms → Mod.PlainUnionsL ms → ∀ c,
      ∀ m ∈ ms, SoundAt env m ((m.den env vis).validate c) c
  | [], _, _, _ => by intro m hm; cases hm
  | m :: ms, hl, hp, c => by
    intro m' hm'
    rcases List.mem_cons.1 hm' with h | h
    · rw [h]; exact sound_den hn hne hvis m hl.1 hp.1 c
    · exact sound_den_list hn hne hvis ms hl.2 hp.2 c m' h
theorem sound_den_alts {vis : Visitor} (hn : NoMarks vis) (hne : ∀ cls st c, NE ((vis cls st).validate c))
    (hvis : ∀ cls st c, SoundAt env (.instOf cls st) ((vis cls st).validate c) c) :
    ∀ (as : List (List Mod)), Mod.AllA LeafNE (fun _ => True) as →
      Mod.AllA (fun _ => True) (fun _ => False) as → ∀ c, ∀ a ∈ as,
      SoundChain env a (chainValidate (denL env vis a) c) c
  | [], _, _, _ => by intro m hm; cases hm
  | a :: as, hl, hp, c => by
    intro b hb
    rcases List.mem_cons.1 hb with h | h
    · rw [h]; exact sound_den_chain hn hne hvis a hl.1 (plainL_of_noInst a hp.1) c
    · exact sound_den_alts hn hne hvis as hl.2 hp.2 c b h
end

theorem fieldLoop_acc_ne {ops : Field → Ops World} {c : Ctx} {i : Nat} {only : Option (List String)}
    {all : Bool} {fs : List Field} {acc r : List (String × String)} {s s' : World} (hacc : acc ≠ [])
    (h : validateFields env ops c i only all fs acc s = (.ok r, s')) : r ≠ [] := by
  induction fs generalizing acc s with
  | nil =>
    simp only [validateFields, Py.pure_run, Prod.mk.injEq, Except.ok.injEq] at h
    exact h.1 ▸ hacc
  | cons f fs ih =>
    simp only [validateFields] at h
    split at h
    · simp at h
    · split at h
      · exact ih hacc h
      · split at h
        · exact ih hacc h
        · split at h
          · exact ih (dictUpdate_ne_nil _ _ (Or.inl hacc)) h
          · simp at h
        · simp at h

theorem mustCheck_iff (o : Obj) (f : Field) : MustCheck o f ↔ skipField f (onlyModified o) = false := by
  unfold MustCheck skipField onlyModified
  cases o.isNew with
  | true => simp
  | false =>
    by_cases he : f.store = .embedded
    · simp [he]
    · simp [he]

theorem validateField_run {ops : Field → Ops World} {c : Ctx} {i : Nat} {f : Field} {v : Val} {w : World} :
    validateField env ops c i f v w = if c.owner.isSome then (ops f).validate (fieldCtx env w c i f v) w
      else (.error .attributeError, w) := by
  simp only [validateField, Py.bind_run, Py.get_run, readW, Ctx.ekey, fieldCtx]
  cases c.owner <;> rfl

theorem sound_fields {ops : Field → Ops World} {c : Ctx} {i : Nat} {only : Option (List String)}
    {all : Bool} {fs : List Field} (hne : ∀ f ∈ fs, ∀ c, NE ((ops f).validate c))
    (hs : ∀ f ∈ fs, ∀ c, SoundChain env f.chain ((ops f).validate c) c) {w w' : World}
    (h : validateFields env ops c i only all fs [] w = (.ok [], w')) :
    ∃ D, Post env w D w' ∧ ∀ f ∈ fs, skipField f only = false → ∃ v, w.getattr env i f.name = .ok v ∧
      ∀ m, Checked f.chain m → Accepted (Seen env w') w'.heap m (fieldCtx env w c i f v) := by
  induction fs generalizing w with
  | nil =>
    simp only [validateFields, Py.pure_run, Prod.mk.injEq, true_and] at h
    exact ⟨[], h ▸ Post.refl w, by simp⟩
  | cons f fs ih =>
    have ih := @ih (fun f hf => hne f (by simp [hf])) (fun f hf => hs f (by simp [hf]))
    simp only [validateFields] at h
    cases hg : w.getattr env i f.name with
    | error e => rw [hg] at h; simp at h
    | ok v =>
      rw [hg] at h
      simp only at h
      by_cases hsk : skipField f only = true
      · rw [if_pos hsk] at h
        obtain ⟨D, hD, ha⟩ := ih h
        refine ⟨D, hD, fun f' hf' hs' => ?_⟩
        rcases List.mem_cons.1 hf' with rfl | hf'
        · rw [hsk] at hs'; cases hs'
        · exact ha f' hf' hs'
      · rw [if_neg hsk] at h
        rw [validateField_run] at h
        by_cases ho : c.owner.isSome = true
        · rw [if_pos ho] at h
          rcases hr : (ops f).validate (fieldCtx env w c i f v) w with ⟨r, w₁⟩
          rw [hr] at h
          cases r with
          | ok u =>
            simp only at h
            obtain ⟨D, hD, ha⟩ := hs f (by simp) _ _ _ hr
            obtain ⟨D', hD', ha'⟩ := ih h
            refine ⟨D ++ D', hD.trans hD', fun f' hf' hs' => ?_⟩
            rcases List.mem_cons.1 hf' with rfl | hf'
            · refine ⟨v, hg, fun m hm => ?_⟩
              rw [hD'.heap]
              exact (ha m hm).mono (fun cls c => Seen.mono hD'.heap hD'.mono cls c)
            · obtain ⟨v', hv', hacc⟩ := ha' f' hf' hs'
              refine ⟨v', by rw [← getattr_congr hD.heap]; exact hv', fun m hm => ?_⟩
              rw [← fieldCtx_congr hD.heap]
              exact hacc m hm
          | error e =>
            cases e with
            | validation msgs =>
              have hmsgs : msgs ≠ [] := fun hnil => hne f (by simp) _ w (by rw [hr, hnil])
              simp only at h
              split at h
              · exact absurd rfl (fieldLoop_acc_ne (dictUpdate_ne_nil _ _ (Or.inr hmsgs)) h)
              · simp at h
            | _ => simp at h
        · rw [if_neg ho] at h
          simp at h

/-- Well-formed programs for the soundness theorem. -/
structure SoundEnv (env : Env) : Prop where
  errors : ProperErrors env
  unions : ∀ cls, ∀ f ∈ (env.cls cls).fields, Mod.PlainUnionsL f.chain

theorem HasMark_put (w : World) (i : Nat) (k) :
    HasMark ((w.markPut env i).visit i) k ↔ HasMark w k ∨ markKey env w i = k := by
  unfold HasMark
  rw [visit_marks, markPut_eq]
  simp only [mLookup]
  by_cases h : markKey env w i = k
  · simp [h]
  · simp [h]

theorem sound_inst (he : SoundEnv env) (n : Nat) : ∀ cls st c w w',
    (instOps env n cls st).validate c w = (.ok (), w') →
    ∃ D, Post env w D w' ∧ Accepted (Seen env w') w'.heap (.instOf cls st) c ∧
      ∀ j, c.val = .obj j → (w.markGet env j).isSome = true ∨ (cls, c) ∈ D := by
  induction n with
  | zero => intro cls st c w w' h; simp [instOps] at h
  | succ n ih =>
    intro cls st c w w' h
    have hvis : ∀ cls st c, SoundAt env (.instOf cls st) ((instOps env n cls st).validate c) c := by
      intro cls st c w w' h
      obtain ⟨D, hD, ha, _⟩ := ih cls st c w w' h
      exact ⟨D, hD, ha⟩
    simp only [instOps] at h
    unfold instValidate at h
    cases hv : c.val with
    | none =>
      rw [hv] at h
      simp only [Py.pure_run, Prod.mk.injEq, true_and] at h
      exact ⟨[], h ▸ Post.refl w, .instNone hv, by simp⟩
    | obj i =>
      rw [hv] at h
      simp only at h
      by_cases hm : (w.markGet env i).isSome = true
      · rw [if_pos hm] at h
        simp only [Prod.mk.injEq, true_and] at h
        subst h
        refine ⟨[], Post.refl w, .inst ⟨i, hv, hm⟩, ?_⟩
        intro j hj; cases hj; exact .inl hm
      · rw [if_neg hm] at h
        have hh : ((w.markPut env i).visit i).heap = w.heap := visit_markPut_heap w i
        have hput := HasMark_put (env := env) w i
        generalize (w.markPut env i).visit i = w₁ at h hh hput
        split at h
        · next hsub =>
          simp only [instValidateBody, Py.bind_run, Py.get_run] at h
          rcases hr : validateFields env (Field.ops env (instOps env n)) c i (onlyModified (w₁.heap i))
            (c.cfg.allFields.getD (env.cls cls).validateAllFields) (w₁.cdef env i).fields [] w₁ with ⟨r, w₂⟩
          rw [hr] at h
          cases r with
          | error e => simp at h
          | ok msgs =>
            cases msgs with
            | cons x xs => simp [raiseMsgs] at h
            | nil =>
              simp only [raiseMsgs, Py.pure_run, Prod.mk.injEq, true_and] at h
              subst h
              obtain ⟨D, hD, ha⟩ := sound_fields (fun f _ c => NE.chain _ c)
                (fun f hf c => sound_den_chain (instOps_noMarks env n) (NE.inst he.errors n) hvis
                  f.chain (he.errors.leaf _ f hf) (he.unions _ f hf) c) hr
              have hseen : Seen env w₂ cls c := by
                refine ⟨i, hv, ?_⟩
                apply marked_of_key
                apply hD.mono
                rw [hput]
                exact .inr (markKey_congr (hD.heap.trans hh) i).symm
              refine ⟨(cls, c) :: D, ?_, .inst hseen, fun j _ => .inr (by simp)⟩
              refine ⟨hD.heap.trans hh, fun k hk => hD.mono k ((hput k).2 (.inl hk)), ?_, ?_⟩
              · intro k hk
                rcases hD.new k hk with hk | ⟨d, hd, j, hj, hkey⟩
                · rcases (hput k).1 hk with hk | hk
                  · exact .inl hk
                  · exact .inr ⟨(cls, c), by simp, i, hv, hk⟩
                · exact .inr ⟨d, by simp [hd], j, hj, by rw [← hkey]; exact (markKey_congr hh j).symm⟩
              · intro d hd
                rcases List.mem_cons.1 hd with rfl | hd
                · refine ⟨i, hv, by rw [← hh]; exact hsub, ?_⟩
                  apply ObjOk.congr hh
                  intro f hf hmust
                  obtain ⟨v, hv', hacc⟩ := ha f hf ((mustCheck_iff _ f).1 hmust)
                  exact ⟨v, hv', fun m hm => by rw [← hD.heap]; exact hacc m hm⟩
                · obtain ⟨j, hj, hs, hok⟩ := hD.ok d hd
                  exact ⟨j, hj, by rw [← hh]; exact hs, hok.congr hh⟩
        · simp at h
    | _ => rw [hv] at h; simp at h

/-- **C20**, soundness. If `validate()` succeeds, there is a list `J` of visited places
(each an object, where it was found, and the class expected there), starting from the
validated object, such that each of them is an instance of the class expected where it
was first reached, and each of its fields that must be validated holds a value accepted
by the field's guarding validators, where an object found inside a value is accepted
because an object with the same identity is in `J`.

Partial: (1) unions must not contain instance types, (2) an object met again at a place
expecting a different class is accepted without a class check, (3) of two objects of one
class with the same primary key only one is validated; all three are real
(`validate_union_unsound`, `validate_class_unsound`, `validate_duplicate_unsound`). -/
theorem validate_sound_partial (he : SoundEnv env) (w : World) (i : Nat) (all : Option Bool) (n : Nat)
    (h : (apiValidate env n i all w).1 = .ok ()) :
    ∃ J : List (String × Ctx), ((w.heap i).cls, rootCtx w i { allFields := all } (.obj i)) ∈ J ∧
      ∀ d ∈ J, ∃ j, d.2.val = .obj j ∧ env.isSub (w.heap j).cls d.1 = true ∧
        ObjOk env w (fun _ c => ∃ x, c.val = .obj x ∧ ∃ d' ∈ J, ∃ y, d'.2.val = .obj y ∧
          SameIdentity env w x y) d.2 j := by
  change ((instOps env n (w.heap i).cls none).validate
    (rootCtx w i { allFields := all } (.obj i)) { w with marks := [] }).1 = _ at h
  rcases hr : (instOps env n (w.heap i).cls none).validate
    (rootCtx w i { allFields := all } (.obj i)) { w with marks := [] } with ⟨r, w'⟩
  rw [hr] at h
  simp only at h
  subst h
  obtain ⟨D, hD, _, hroot⟩ := sound_inst he n _ _ _ _ _ hr
  refine ⟨D, ?_, ?_⟩
  · rcases hroot i rfl with h | h
    · exfalso
      unfold World.markGet at h
      simp only at h
      cases hid : World.id env { w with marks := [] } i <;> rw [hid] at h <;> simp [mLookup] at h
    · exact h
  · intro d hd
    obtain ⟨j, hj, hs, hok⟩ := hD.ok d hd
    refine ⟨j, hj, hs, ?_⟩
    refine ObjOk.congr (w' := { w with marks := [] }) rfl (hok.mono ?_)
    rintro cls c ⟨x, hx, hseen⟩
    refine ⟨x, hx, ?_⟩
    have hnew : ∀ k, HasMark w' k → ∃ d ∈ D, ∃ y, d.2.val = .obj y ∧ markKey env w y = k := by
      intro k hk
      rcases hD.new k hk with hk | ⟨d, hd, y, hy, hkey⟩
      · simp [HasMark, mLookup] at hk
      · exact ⟨d, hd, y, hy, by rw [← hkey]; exact (markKey_congr rfl y)⟩
    have hh : w'.heap = w.heap := hD.heap
    rcases marked_key hseen with hk | hk
    · obtain ⟨d', hd', y, hy, hkey⟩ := hnew _ hk
      refine ⟨d', hd', y, hy, sameIdentity_of_key (.inl ?_)⟩
      rw [hkey, markKey_congr hh]
    · obtain ⟨d', hd', y, hy, hkey⟩ := hnew _ hk
      refine ⟨d', hd', y, hy, sameIdentity_of_key (.inr ?_)⟩
      rw [hkey, hh]

end JC
