import Verif.Props.BuildSym
import Verif.Props.Construct

/-
C39 for construction and `set`: the stored reference id of a relation kept by local key is
the primary key of the linked object.
-/
namespace JC
variable {env : Env}

/-! ### Specification -/

/-- How primary keys are declared: first in the class, without a JSON name of their own, and
stored as given. Relations to one object kept by local key are linked. `str(s)` of a text
is the text. -/
structure KeyReady (env : Env) : Prop where
  plain : PlainPrimary env
  first : ∀ c n, (env.cls c).primary = some n → ∃ f fs, (env.cls c).fields = f :: fs ∧ f.name = n ∧ f.jsonName = n ∧
    (∀ g ∈ fs, g.name ≠ n) ∧ (∀ m ∈ f.chain, m.Keeps) ∧ f.default = none ∧ f.writeRule = .unlimited ∧ f.store ≠ .calculated
  linked : ∀ c, ∀ f ∈ (env.cls c).fields, f.store = .localKey → f.ftype = .inst → ∃ og, Paired env f og
  text : ∀ s, env.pystr (.str s) = s

/-- Wherever a dict in the input has a primary key, it is a text. -/
inductive TextKeys (env : Env) : Val → Prop where
  | atom {v : Val} : (∀ kvs, v ≠ .dict kvs) → (∀ xs, v ≠ .list xs) → TextKeys env v
  | list {xs : List Val} : (∀ x ∈ xs, TextKeys env x) → TextKeys env (.list xs)
  | dict {kvs : List (String × Val)} : (∀ c n, (env.cls c).primary = some n → getD kvs n = .none ∨ ∃ s, getD kvs n = .str s) →
      (∀ kv ∈ kvs, TextKeys env kv.2) → TextKeys env (.dict kvs)

/-- The input names the object's primary key or none. -/
def KeepsKey (env : Env) (w : World) (i : Nat) (kvs : List (String × Val)) : Prop :=
  ∀ n, (w.cdef env i).primary = some n → dictGet kvs n = none ∨ dictGet kvs n = some (w.id env i)

/-! ### Invariant -/

structure MInv (env : Env) (w : World) : Prop where
  mir : Mirrors env w
  marked : ∀ C s o, ((C, MarkKey.pk s), o) ∈ w.marks → w.id env o = .str s

structure MStep (env : Env) (w w' : World) : Prop where
  inv : MInv env w'
  ids : ∀ j, j < w.next → w'.id env j = w.id env j

theorem MStep.refl {w : World} (h : MInv env w) : MStep env w w := ⟨h, fun _ _ => rfl⟩

theorem MStep.trans {w w1 w2 : World} (h1 : MStep env w w1) (he : Ext w w1) (h2 : MStep env w1 w2) : MStep env w w2 :=
  ⟨h2.inv, fun j hj => (h2.ids j (Nat.lt_of_lt_of_le hj he.next)).trans (h1.ids j hj)⟩

/-- nothing refers to the object and it refers to nothing -/
def Lone (env : Env) (w : World) (o : Nat) : Prop :=
  ∀ g og, HasField env w o g → Paired env g og → refsOf g (w.attr o g.name) = []

theorem Lone.unref (R : Relations env) (K : KeyReady env) {w0 w : World} {o : Nat} (h : Lone env w o) (hb : BInv env w0 w) {a : Nat} {g : Field}
    (hg : HasField env w a g) (hs : g.store = .localKey) (hi : g.ftype = .inst) : w.attr a g.name ≠ .obj o := by
  intro ha
  obtain ⟨og, hp⟩ := K.linked _ g hg.mem hs hi
  have hr : Refers w a g o := by unfold Refers; rw [ha, refsOf_inst hi]; simp
  have ho : HasField env w o og := (hb.fits a g og hg hp).2 o hr
  have := ((symmetric_iff R hb.fits).2 hb.sym a o g og hg ho hp).1 hr
  unfold Refers at this
  rw [h og g ho (R.opp g og hp).1] at this
  cases this

theorem m_setAttr (R : Relations env) (K : KeyReady env) {w0 w w' : World} (hb : BInv env w0 w) (hm : MInv env w) {i : Nat} {n : String} {v : Val}
    (hp : (w.cdef env i).primary ≠ some n) (hv : ∀ g og, (w.cdef env i).field? n = some g → Paired env g og → Fits env w g og v)
    (h : setAttr env i n v w = (.ok (), w')) : MStep env w w' := by
  have hr : (FOp.set n v).run env i w = (.ok (), w') := h
  obtain ⟨-, h2, h3⟩ := (lk_op (lo := fun _ _ => True) R K.plain (i := i) (op := .set n v) hb.fits.typed hm.mir
    ⟨hp, fun g og hg hpg => (hv g og hg hpg).2⟩ (fun _ => by rw [hr]) (fun _ _ h => absurd trivial h) (fun _ _ _ => trivial)).out
  rw [hr] at h2 h3
  refine ⟨⟨h2, fun C s o hmem => ?_⟩, fun j _ => h3 j⟩
  have := (setAttr_rest (env := env) i n v w).2
  rw [h] at this
  rw [h3]
  exact hm.marked C s o (this ▸ hmem)

theorem id_of_primary {w : World} {o : Nat} {n : String} (h : (w.cdef env o).primary = some n) : w.id env o = w.attr o n := by
  unfold World.id; rw [h]

/-- writing the primary key of an object nobody refers to -/
theorem m_primary (R : Relations env) (K : KeyReady env) {w0 w w' : World} (hb : BInv env w0 w) (hm : Mirrors env w) {o : Nat} {f : Field} {v : Val}
    (hl : Lone env w o) (hf : HasField env w o f) (hr : f.isRef = false) (hst : f.store ≠ .calculated) (hpr : (w.cdef env o).primary = some f.name)
    (hid : w.id env o = .none) (h : setAttr env o f.name v w = (.ok (), w')) :
    Mirrors env w' ∧ (∀ j, j ≠ o → w'.id env j = w.id env j) ∧ w'.id env o = v := by
  have q := qr_plain R hf hr h
  have hlk := R.noKey hf
  have hfuel : env.fuel ≠ 0 := by
    intro h0
    unfold setAttr at h
    have h := get_bind_ok h
    rw [hlk] at h
    simp only [setField, h0, runL] at h
    cases h
  obtain ⟨g, hg, hrun⟩ := plain_set_run (v := v) hfuel ⟨f, hf, hlk, hr, hst⟩
  have hgf : g = f := Option.some.inj (hg.symm.trans hf)
  subst hgf
  rw [hrun] at h
  cases h
  have hoth : ∀ b m, b ≠ o ∨ m ≠ g.name → (w.upd o (fun x => opObj (w.cdef env o) g x (.set g.name v))).attr b m = w.attr b m := by
    intro b m hbm
    unfold World.attr World.upd
    simp only
    split
    · rename_i hbo
      subst hbo
      have hmn : m ≠ g.name := by
        rcases hbm with h | h
        · exact absurd rfl h
        · exact h
      rw [opObj_attrs (op := .set g.name v) _ _ (⟨g, hg, hlk, hr, hst⟩ : PlainField _ _)]
      simp [valueAfter, hmn]
    · rfl
  have hcd : ∀ b, (w.upd o (fun x => opObj (w.cdef env o) g x (.set g.name v))).cdef env b = w.cdef env b := fun b => congrArg env.cls (q.1 b)
  have hids : ∀ j, j ≠ o → (w.upd o (fun x => opObj (w.cdef env o) g x (.set g.name v))).id env j = w.id env j := by
    intro j hj
    unfold World.id
    rw [hcd]
    cases (w.cdef env j).primary with
    | none => rfl
    | some n => exact hoth j n (.inl hj)
  refine ⟨fun a k b hk hs hi hab => ?_, hids, ?_⟩
  · have hk' : HasField env w a k := (HasField.congr q.1).1 hk
    have hka : a ≠ o ∨ k.name ≠ g.name := by
      by_cases hao : a = o
      · refine .inr (fun hn => ?_)
        subst hao
        unfold HasField at hk'
        rw [hn, hg] at hk'
        cases hk'
        rw [isRef_localKey hs] at hr; cases hr
      · exact .inl hao
    have hka2 : a ≠ o ∨ k.refName ≠ g.name := by
      by_cases hao : a = o
      · refine .inr (fun hn => ?_)
        subst hao
        have := R.keyUniq _ k hk'.mem hs
        rw [hn] at this
        exact R.keys _ _ _ _ this hg
      · exact .inl hao
    rw [hoth a _ hka] at hab
    have hbo : b ≠ o := fun hbo => hl.unref R K hb hk' hs hi (hbo ▸ hab)
    rw [hoth a _ hka2, hids b hbo]
    exact hm a k b hk' hs hi hab
  · have h0 : (w.heap o).attrs g.name = .none := by rw [id_of_primary hpr] at hid; exact hid
    unfold World.id
    rw [hcd, hpr]
    unfold World.attr World.upd
    simp only [if_true]
    rw [opObj_attrs (op := .set g.name v) _ _ (⟨g, hg, hlk, hr, hst⟩ : PlainField _ _)]
    simp only [valueAfter, h0, true_and]
    split
    · rfl
    · rename_i he
      exact (pyEq_none (by simpa using he)).symm

/-! ### Objects made from no input -/

/-- an object nobody knows, without primary key -/
def Unknown (env : Env) (w : World) (o : Nat) : Prop := Lone env w o ∧ w.id env o = .none

/-- assigning an empty list to a relation that holds nothing -/
theorem set_nil_attrs (R : Relations env) {o : Nat} {f : Field} {w w' : World} (hf : HasField env w o f) (hr : f.isRef = true)
    (h0 : w.attr o f.name = .none) (h : setAttr env o f.name (.list []) w = (.ok (), w')) :
    (∀ j, (w'.heap j).cls = (w.heap j).cls) ∧ w'.attr o f.name = .list [] ∧
      ∀ m, m ≠ f.name → (f.store = .localKey → m ≠ f.refName) → w'.attr o m = w.attr o m := by
  unfold setAttr at h
  have h := get_bind_ok h
  rw [R.noKey hf] at h
  simp only at h
  unfold setField at h
  cases hfu : env.fuel with
  | zero => rw [hfu] at h; cases h
  | succ n =>
    rw [hfu] at h
    change setBody env (runL env n) o f.name (.list []) w = (.ok (), w') at h
    unfold setBody at h
    have h := get_bind_ok h
    unfold HasField at hf
    rw [hf] at h
    simp only [hr, h0, if_true] at h
    split at h
    · cases h
    · rw [if_neg (by simp [pyEq])] at h
      obtain ⟨_, w1, h1, h2⟩ := bind_ok h
      obtain ⟨_, w2, h3, h4⟩ := bind_ok h2
      obtain ⟨_, w3, h5, h6⟩ := bind_ok h4
      obtain ⟨_, w4, h7, h8⟩ := bind_ok h6
      have e1 := still_track (env := env) o f w
      rw [h1] at e1
      have hnone : linkItems f .none = [] := by unfold linkItems; split <;> simp_all
      have e2 : w2 = w1 := by
        unfold unlinkField at h3
        rw [hfu] at h3
        simp only [runU, unlinkBody, hnone] at h3
        cases hq : env.foreignField f <;> rw [hq] at h3 <;> (cases h3; rfl)
      have hnil : linkItems f (.list []) = [] := by unfold linkItems; split <;> simp_all
      have e4 : w' = w4 := by
        cases n with
        | zero => cases h8
        | succ n =>
          simp only [runL, linkBody, hnil] at h8
          cases hq : env.foreignField f <;> rw [hq] at h8 <;> (cases h8; rfl)
      have e3 : w3 = (rawSet o f.name (.list []) w2).2 := by rw [h5]
      have e5 : w4 = w3 ∨ (f.store = .localKey ∧ ∃ x, w4 = (rawSet o f.refName x w3).2) := by
        unfold syncKey at h7
        split at h7
        · cases h7; exact .inl rfl
        · rename_i hs
          have hs : f.store = .localKey := by simpa using hs
          cases hft : f.ftype <;> rw [hft] at h7
          case list =>
            obtain ⟨ks, w5, h9, h10⟩ := bind_ok h7
            obtain ⟨rfl, -⟩ := readW_ok h9
            exact .inr ⟨hs, _, by rw [h10]⟩
          all_goals first | (cases h7; done) | (cases h7; exact .inl rfl)
      subst e4 e2
      have hw3 : (∀ j, (w3.heap j).cls = (w.heap j).cls) ∧ w3.attr o f.name = .list [] ∧ ∀ m, m ≠ f.name → w3.attr o m = w.attr o m := by
        subst e3
        refine ⟨fun j => (cls_rawSet _ _ _ _ j).trans (e1 j).1, by rw [attr_rawSet]; simp, fun m hm => ?_⟩
        rw [attr_rawSet, if_neg (fun h => hm h.2)]
        exact congrFun (e1 o).2 m
      rcases e5 with rfl | ⟨hs, x, rfl⟩
      · exact ⟨hw3.1, hw3.2.1, fun m hm _ => hw3.2.2 m hm⟩
      · refine ⟨fun j => (cls_rawSet _ _ _ _ j).trans (hw3.1 j), ?_, fun m hm hm2 => ?_⟩
        · rw [attr_rawSet, if_neg]
          · exact hw3.2.1
          · rintro ⟨-, hn⟩
            have hmem : f ∈ (w.cdef env o).fields := HasField.mem hf
            have := R.keyUniq _ f hmem hs
            rw [← hn] at this
            exact R.keys _ _ _ _ this hf
        · rw [attr_rawSet, if_neg (fun h => hm2 hs h.2)]
          exact hw3.2.2 m hm

theorem Lone.congr {w w' : World} {o : Nat} (h : Lone env w o) (q : QR env w w') : Lone env w' o := by
  intro g og hg hp
  have hg' := (HasField.congr q.1).1 hg
  rw [q.2 o g og hg' hp]
  exact h g og hg' hp

/-- instance modifiers leave None alone -/
def NoneStill (vis : Visitor) : Prop :=
  ∀ cls st c w, c.val = .none → c.original = none → ∀ r w', (vis cls st).transform c w = (.ok r, w') → w' = w

theorem noneStill_instOps (n : Nat) : NoneStill (instOps env n) := by
  intro cls st c w hv ho r w' h
  cases n with
  | zero => cases h
  | succ n =>
    simp only [instOps, instTransform, hv] at h
    cases h; rfl

theorem none_still {vis : Visitor} (hn : NoMarks vis) (hv : NoneStill vis) {ms : List Mod} (hc : Mod.ObjectlessL ms ∨ Carrying ms)
    {c : Ctx} {w w' : World} {r : Val} (h0 : c.val = .none) (ho : c.original = none)
    (h : (chainOps (setParent env) (denL env vis ms)).transform c w = (.ok r, w')) : w' = w := by
  rcases hc with hob | hc
  · have := (still_chain_transform (env := env) hn (u := w) ms hob c w rfl).1
    rw [h] at this
    exact this
  · cases hc with
    | @inst _ _ _ ha =>
      rw [around_transform hn ha rfl rfl] at h
      exact hv _ _ c w h0 ho _ _ h
    | @list _ item nn sp ha _ =>
      rw [around_transform hn ha rfl rfl] at h
      simp only [Mod.den, listOps, h0] at h
      cases nn <;> cases h <;> rfl
    | @dict _ item nn ha _ =>
      rw [around_transform hn ha rfl rfl] at h
      simp only [Mod.den, dictOps, h0] at h
      cases nn <;> cases h <;> rfl

theorem keeps_chain {vis : Visitor} (hn : NoMarks vis) {ms : List Mod} (hk : ∀ m ∈ ms, m.Keeps) (c : Ctx) (w : World) :
    (chainOps (setParent env) (denL env vis ms)).transform c w = (.ok c.val, w) := by
  have hmem : ∀ x ∈ ms, x.isEagerM = false ∧ x.isPreM = false := by
    intro x hx
    have := hk x hx
    cases x with
    | leaf l => exact ⟨rfl, rfl⟩
    | _ => exact this.elim
  have ht : tvs (denL env vis ms) = [] := by
    rw [tvs_denL env vis hn]
    unfold tvsM tvsG
    rw [lastIdx_false _ _ (fun x hx => (hmem x hx).1)]
    rfl
  have hnv : nvs (denL env vis ms) = ms.map (fun m => m.den env vis) := by
    rw [nvs_denL env vis hn]
    unfold nvsM nvsG uptoG
    rw [lastIdx_false _ _ (fun x hx => (hmem x hx).1), firstIdx_false _ _ (fun x hx => (hmem x hx).2)]
  simp only [chainOps, chainTransform]
  rw [ht, hnv, Py.bind_run]
  exact reduce_keeps ms hk c.val

/-- the primary field among the others -/
theorem KeyReady.other (K : KeyReady env) (R : Relations env) {c : String} {n : String} (h : (env.cls c).primary = some n) {f : Field}
    (hf : f ∈ (env.cls c).fields) (hn : f.name = n) : f.jsonName = n ∧ (∀ m ∈ f.chain, m.Keeps) ∧ f.default = none ∧ f.writeRule = .unlimited ∧
      f.store ≠ .calculated ∧ f.isRef = false := by
  obtain ⟨g, gs, h1, h2, h3, h4, h5, h6, h7, h8⟩ := K.first c n h
  have hg : f = g := by
    have hgm : g ∈ (env.cls c).fields := by rw [h1]; simp
    have e1 := R.uniq c f hf
    have e2 := R.uniq c g hgm
    rw [hn] at e1
    rw [h2] at e2
    exact Option.some.inj (e1.symm.trans e2)
  subst hg
  exact ⟨h3, h5, h6, h7, h8, K.plain c n f h (hn ▸ R.uniq c f hf)⟩

theorem unknown_fillDefault (R : Relations env) (K : KeyReady env) (D : InputReady env) {w0 : World} {vis : Visitor} (hn : NoMarks vis)
    (hv : NoneStill vis) {c : Ctx} {dest : Nat} {cls : String} {f : Field} (hf : f ∈ (env.cls cls).fields) (hr : f.isRef = false)
    {w w' : World} (hb : BInv env w0 w) (hm : MInv env w) (hd : (w.heap dest).cls = cls) (hu : Unknown env w dest)
    (h : fillDefault env (Field.ops env vis) c dest f w = (.ok (), w')) : MStep env w w' ∧ Unknown env w' dest := by
  have hcd : w.cdef env dest = env.cls cls := congrArg env.cls hd
  have hhas : HasField env w dest f := by unfold HasField; rw [hcd]; exact R.uniq cls f hf
  by_cases hp : (env.cls cls).primary = some f.name
  · obtain ⟨-, h2, h3, -⟩ := K.other R hp hf rfl
    unfold fillDefault at h
    rw [h3] at h
    obtain ⟨ek, w1, h1, ha⟩ := bind_ok (get_bind_ok h)
    clear h
    obtain ⟨rfl, -⟩ := readW_ok h1
    obtain ⟨t, w2, ht, hb'⟩ := bind_ok ha
    unfold Field.ops at ht
    rw [keeps_chain hn h2] at ht
    cases ht
    have : w' = w1 := assign_same R hhas (by
      rw [← id_of_primary (hcd ▸ hp), hu.2]; rfl) hb'
    subst this
    exact ⟨MStep.refl hm, hu⟩
  · have hset : ∀ v, setAttr env dest f.name v w = (.ok (), w') → MStep env w w' ∧ Unknown env w' dest := by
      intro v h
      have hms := m_setAttr R K hb hm (hcd ▸ hp) (fun g og hg hpg => by
        rw [show (w.cdef env dest).field? f.name = some f from hhas] at hg
        cases hg
        rw [hpg.2.1] at hr; cases hr) h
      refine ⟨hms, hu.1.congr (qr_plain R hhas hr h), ?_⟩
      have hlt : dest < w.next := by
        rcases Nat.lt_or_ge dest w.next with h | h
        · exact h
        · exact absurd hhas (hb.bound dest h f)
      rw [hms.ids dest hlt]; exact hu.2
    unfold fillDefault at h
    cases hdf : f.default with
    | some v => rw [hdf] at h; exact hset v h
    | none =>
      rw [hdf] at h
      obtain ⟨ek, w1, h1, ha⟩ := bind_ok (get_bind_ok h)
      clear h
      obtain ⟨rfl, -⟩ := readW_ok h1
      obtain ⟨t, w2, ht, hb'⟩ := bind_ok ha
      unfold Field.ops at ht
      have := none_still hn hv (D.chains cls f hf) rfl rfl ht
      subst this
      exact hset t hb'

theorem unknown_fields (R : Relations env) (K : KeyReady env) (D : InputReady env) (he : Enclosed env w0) {vis : Visitor} (ht : VisTr env w0 vis)
    (hv : NoneStill vis) {c : Ctx} {dest : Nat} {soft : Bool} {cls : String} (fs : List Field) (hfs : ∀ f ∈ fs, f ∈ (env.cls cls).fields) :
    ∀ {w w' : World}, BInv env w0 w → MInv env w → dest < w.next → (w.heap dest).cls = cls → Unknown env w dest →
      transformFields env (Field.ops env vis) c dest soft [] fs w = (.ok (), w') → MStep env w w' ∧ Unknown env w' dest := by
  induction fs with
  | nil => intro w w' _ hm _ _ hu h; cases h; exact ⟨MStep.refl hm, hu⟩
  | cons f fs ih =>
    intro w w' hb hm hdn hd hu h
    obtain ⟨_, w1, h1, h2⟩ := bind_ok h
    have b1 := step_field R ht he D (hfs f (by simp)) (takes_nil w0 cls) hb hdn hd h1
    have h3 : MStep env w w1 ∧ Unknown env w1 dest := by
      unfold transformField at h1
      rw [if_neg (by simp [hasFieldValue, dictGet])] at h1
      unfold absentField at h1
      split at h1
      · split at h1
        · simp only [setRefKey, getD, dictGet] at h1
          cases h1; exact ⟨MStep.refl hm, hu⟩
        · cases h1; exact ⟨MStep.refl hm, hu⟩
      · rename_i hr
        split at h1
        · exact unknown_fillDefault R K D ht.noMarks hv (hfs f (by simp)) (by simpa using hr) hb hm hd hu h1
        · cases h1; exact ⟨MStep.refl hm, hu⟩
    obtain ⟨h4, h5⟩ := ih (fun f' h' => hfs f' (by simp [h'])) b1.inv h3.1.inv (Nat.lt_of_lt_of_le hdn b1.ext.next)
      ((b1.ext.cls dest hdn).trans hd) h3.2 h2
    exact ⟨h3.1.trans b1.ext h4, h5⟩

theorem unknown_lists (R : Relations env) (K : KeyReady env) {w0 : World} {dest : Nat} {cls : String} (fs : List Field)
    (hfs : ∀ f ∈ fs, f ∈ (env.cls cls).fields ∧ f.ftype = .list ∧ f.isRef = true) : ∀ {w w' : World}, BInv env w0 w → MInv env w → dest < w.next →
      (w.heap dest).cls = cls → Unknown env w dest →
      fillRefLists env dest (fs.map Field.name) w = (.ok (), w') → MStep env w w' ∧ Unknown env w' dest := by
  induction fs with
  | nil => intro w w' _ hm _ _ hu h; cases h; exact ⟨MStep.refl hm, hu⟩
  | cons f fs ih =>
    intro w w' hb hm hdn hd hu h
    obtain ⟨v, w1, h1, h2⟩ := bind_ok h
    obtain ⟨rfl, hval⟩ := readW_ok h1
    obtain ⟨_, w2, h3, h4⟩ := bind_ok h2
    obtain ⟨hfm, hfl, hfr⟩ := hfs f (by simp)
    have hcd : w1.cdef env dest = env.cls cls := congrArg env.cls hd
    have hhas : HasField env w1 dest f := by unfold HasField; rw [hcd]; exact R.uniq cls f hfm
    have b1 := step_fillLists R [f] (fun g hg => by cases List.mem_singleton.1 hg; exact ⟨hfm, hfl⟩) hb hdn hd (w' := w2) (by
      simp only [List.map, fillRefLists, Py.bind_run, readW, hval, h3]
      rfl)
    have h5 : MStep env w1 w2 ∧ Unknown env w2 dest := by
      unfold pyWhen at h3
      split at h3
      · have hms := m_setAttr R K hb hm (fun hp => by
          have := (K.other R (hcd ▸ hp) hfm rfl).2.2.2.2.2
          rw [this] at hfr; cases hfr) (fun g og hg hp => by
            rw [show (w1.cdef env dest).field? f.name = some f from hhas] at hg
            cases hg
            exact fits_list (bs := []) hfl List.nodup_nil (fun b hb => by cases hb)) h3
        have hv0 : w1.attr dest f.name = .none := by
          unfold World.getattr at hval
          rw [show (w1.cdef env dest).field? f.name = some f from hhas] at hval
          simp only at hval
          rw [if_neg (fun hs => by simp [Field.isRef, hs] at hfr)] at hval
          cases hval
          rename_i hnone
          revert hnone
          cases w1.attr dest f.name <;> simp [Val.isNone]
        obtain ⟨q1, q2, q3⟩ := set_nil_attrs R hhas hfr hv0 h3
        refine ⟨hms, fun g og hg hp => ?_, by rw [hms.ids dest hdn]; exact hu.2⟩
        have hg' := (HasField.congr q1).1 hg
        by_cases hgn : g.name = f.name
        · have : g = f := by
            unfold HasField at hg' hhas
            rw [hgn] at hg'
            exact Option.some.inj (hg'.symm.trans hhas)
          subst this
          rw [q2]
          exact refsOf_list hfl []
        · rw [q3 g.name hgn (fun hs hn => by
            have := R.keyUniq _ f hfm hs
            rw [← hn, ← hcd] at this
            exact R.keys _ _ _ _ this hg')]
          exact hu.1 g og hg' hp
      · cases h3; exact ⟨MStep.refl hm, hu⟩
    obtain ⟨h6, h7⟩ := ih (fun f' h' => hfs f' (by simp [h'])) b1.inv h5.1.inv (Nat.lt_of_lt_of_le hdn b1.ext.next)
      ((b1.ext.cls dest hdn).trans hd) h5.2 h4
    exact ⟨h5.1.trans b1.ext h6, h7⟩

/-! ### Values and fields -/

/-- what the object modifiers do to reference ids -/
structure VisM (env : Env) (w0 : World) (vis : Visitor) : Prop where
  none : NoneStill vis
  nested : ∀ cls st c w r w', c.original = Option.none → BInv env w0 w → MInv env w → (∀ kvs, c.val = .dict kvs → Takes env w0 cls kvs) →
    TextKeys env c.val → (vis cls st).transform c w = (.ok r, w') → MStep env w w'
  blank : ∀ cls st c i w r w', c.original = some i → c.val = .dict [] → w.marks = [] → (w.heap i).cls = cls → i < w.next →
    BInv env w0 w → MInv env w → Unknown env w i → (vis cls st).transform c w = (.ok r, w') → MStep env w w' ∧ Unknown env w' i

theorem looped_m {w0 w w' : World} {xs rs : List Val} (h : Looped env w0 (fun u u' _ _ => MInv env u → MStep env u u') w xs rs w')
    (hm : MInv env w) : MStep env w w' := by
  induction h with
  | nil => exact MStep.refl hm
  | cons h1 q _ ih => exact (q hm).trans h1.ext (ih (q hm).inv)

theorem m_chain {w0 : World} {vis : Visitor} (hv : VisTr env w0 vis) (hm : VisM env w0 vis) {ms : List Mod} (hc : Carrying ms) :
    ∀ {c : Ctx} {w w' : World} {r : Val}, c.original = none → BInv env w0 w → MInv env w → Feeds env w0 ms c.val → TextKeys env c.val →
      (chainOps (setParent env) (denL env vis ms)).transform c w = (.ok r, w') → MStep env w w' := by
  induction hc with
  | @inst ms C st ha =>
    intro c w w' r ho hw hi hf ht h
    rw [around_transform hv.noMarks ha rfl rfl] at h
    exact hm.nested C st c w r w' ho hw hi (fun kvs hk => (hk ▸ hf).takes ha) ht h
  | @list ms item nn sp ha hc' ih =>
    intro c w w' r ho hw hi hf ht h
    rw [around_transform hv.noMarks ha rfl rfl] at h
    cases hval : c.val with
    | list xs =>
      obtain ⟨h1, h2⟩ := (hval ▸ hf).items ha
      have ht' : ∀ x ∈ xs, TextKeys env x := by
        rw [hval] at ht
        cases ht with
        | atom _ h => exact absurd rfl (h xs)
        | list h => exact h
      obtain ⟨rs, -, hl⟩ := list_step (Q := fun u u' _ _ => MInv env u → MStep env u u') hval h1
        (fun x hx k w r w' hw h => ⟨step_chain hv hc' rfl hw (h2 x hx) h, fun hi => ih rfl hw hi (h2 x hx) (ht' x hx) h⟩) hw h
      exact looped_m hl hi
    | none =>
      simp only [Mod.den, listOps, hval] at h
      cases nn <;> cases h <;> exact MStep.refl hi
    | _ =>
      simp only [Mod.den, listOps, hval] at h
      cases h
      exact MStep.refl hi
  | @dict ms item nn ha hc' ih =>
    intro c w w' r ho hw hi hf ht h
    rw [around_transform hv.noMarks ha rfl rfl] at h
    cases hval : c.val with
    | dict kvs =>
      have h2 := (hval ▸ hf).entries ha
      have ht' : ∀ kv ∈ kvs, TextKeys env kv.2 := by
        rw [hval] at ht
        cases ht with
        | atom h _ => exact absurd rfl (h kvs)
        | dict _ h => exact h
      simp only [Mod.den, dictOps, hval] at h
      obtain ⟨rs, w1, h1, h3⟩ := bind_ok h
      cases h3
      have hmm : ∀ e ∈ enumDict kvs, ∃ kv ∈ kvs, e.2 = kv.2 := by
        intro e he
        simp only [enumDict, List.mem_map] at he
        obtain ⟨kv, hkv, rfl⟩ := he
        exact ⟨kv, hkv, rfl⟩
      refine looped_m (loop_step (Q := fun u u' _ _ => MInv env u → MStep env u u')
        (ce := { colEnv env .no with special := fun _ _ _ => Option.none }) (fun u => conf_still (env := env) .no c u) (enumDict kvs) (fun e he _ => rfl)
        (fun e he w r w' hw h => ?_) w rs w' hw h1) hi
      obtain ⟨kv, hkv, hek⟩ := hmm e he
      rw [hek] at h
      exact ⟨step_chain hv hc' rfl hw (h2 kv hkv) h, fun hi => ih rfl hw hi (h2 kv hkv) (ht' kv hkv) h⟩
    | none =>
      simp only [Mod.den, dictOps, hval] at h
      cases nn <;> cases h <;> exact MStep.refl hi
    | _ =>
      simp only [Mod.den, dictOps, hval] at h
      cases h
      exact MStep.refl hi

theorem m_value {w0 : World} {vis : Visitor} (hv : VisTr env w0 vis) (hm : VisM env w0 vis) (D : InputReady env)
    {cls : String} {f : Field} (hf : f ∈ (env.cls cls).fields) {c : Ctx} {w w' : World} {r : Val} (ho : c.original = none)
    (hw : BInv env w0 w) (hi : MInv env w) (hfeed : ¬ Mod.ObjectlessL f.chain → Feeds env w0 f.chain c.val) (ht : TextKeys env c.val)
    (h : (f.ops env vis).transform c w = (.ok r, w')) : MStep env w w' := by
  unfold Field.ops at h
  by_cases hob : Mod.ObjectlessL f.chain
  · have := (still_chain_transform (env := env) hv.noMarks (u := w) f.chain hob c w rfl).1
    rw [h] at this
    have : w' = w := this
    subst this
    exact MStep.refl hi
  · exact m_chain hv hm ((D.chains cls f hf).resolve_left hob) ho hw hi (hfeed hob) ht h

theorem dictGet_mem {α : Type} {kvs : List (String × α)} {k : String} {v : α} (h : dictGet kvs k = some v) : (k, v) ∈ kvs := by
  unfold dictGet at h
  obtain ⟨⟨k', v'⟩, h1, rfl⟩ := Option.map_eq_some_iff.1 h
  have h2 := List.find?_some h1
  simp only [decide_eq_true_eq] at h2
  subst h2
  exact List.mem_of_find?_eq_some h1

theorem textKeys_none : TextKeys env .none := .atom (fun kvs hk => by cases hk) (fun xs hk => by cases hk)

theorem TextKeys.getD {kvs : List (String × Val)} (h : TextKeys env (.dict kvs)) (k : String) : TextKeys env (getD kvs k) := by
  cases h with
  | atom h _ => exact absurd rfl (h kvs)
  | dict _ h =>
    unfold JC.getD
    cases hk : dictGet kvs k with
    | none => exact textKeys_none
    | some v => exact h _ (dictGet_mem hk)

theorem TextKeys.field {kvs : List (String × Val)} (h : TextKeys env (.dict kvs)) (f : Field) : TextKeys env (getFieldValue f kvs) := by
  unfold getFieldValue
  split
  · exact h.getD _
  · exact h.getD _

theorem TextKeys.key {kvs : List (String × Val)} (h : TextKeys env (.dict kvs)) {c n : String} (hp : (env.cls c).primary = some n) :
    JC.getD kvs n = .none ∨ ∃ s, JC.getD kvs n = .str s := by
  cases h with
  | atom h _ => exact absurd rfl (h kvs)
  | dict h _ => exact h c n hp

/-- assigning to a field that is not the primary key -/
theorem m_assign (R : Relations env) (K : KeyReady env) {w0 w w' : World} (hw : BInv env w0 w) (hi : MInv env w) {dest : Nat} {cls : String}
    (hd : (w.heap dest).cls = cls) {f : Field} (hf : f ∈ (env.cls cls).fields) (hn : (env.cls cls).primary ≠ some f.name) {v : Val}
    (hv : ∀ og, Paired env f og → Fits env w f og v) (h : setAttr env dest f.name v w = (.ok (), w')) : MStep env w w' := by
  have hcd : w.cdef env dest = env.cls cls := congrArg env.cls hd
  refine m_setAttr R K hw hi (hcd ▸ hn) (fun g og hg hp => ?_) h
  rw [hcd, R.uniq cls f hf] at hg
  cases hg
  exact hv og hp

theorem m_fillDefault (R : Relations env) (K : KeyReady env) {w0 : World} {vis : Visitor} (hv : VisTr env w0 vis) (hm : VisM env w0 vis)
    (he : Enclosed env w0) (D : InputReady env) {c : Ctx} {dest : Nat} {cls : String} {f : Field} (hf : f ∈ (env.cls cls).fields)
    (hn : (env.cls cls).primary ≠ some f.name) {w w' : World} (hw : BInv env w0 w) (hi : MInv env w) (hdn : dest < w.next)
    (hd : (w.heap dest).cls = cls) (h : fillDefault env (Field.ops env vis) c dest f w = (.ok (), w')) : MStep env w w' := by
  unfold fillDefault at h
  cases hdf : f.default with
  | some v =>
    rw [hdf] at h
    exact m_assign R K hw hi hd hf hn (fun og hp => by rw [D.default f og hp] at hdf; cases hdf) h
  | none =>
    rw [hdf] at h
    have h := get_bind_ok h
    obtain ⟨ek, w1, h1, h⟩ := bind_ok h
    obtain ⟨rfl, -⟩ := readW_ok h1
    obtain ⟨t, w2, h2, h⟩ := bind_ok h
    obtain ⟨b1, b2⟩ := step_value R hv he D hf rfl hw (fun _ => .atom (fun kvs hk => by cases hk) (fun xs hk => by cases hk))
      (fun og _ => .inl rfl) h2
    have m1 := m_value hv hm D hf rfl hw hi (fun _ => .atom (fun kvs hk => by cases hk) (fun xs hk => by cases hk)) textKeys_none h2
    exact m1.trans b1.ext (m_assign R K b1.inv m1.inv ((b1.ext.cls dest hdn).trans hd) hf hn b2 h)

theorem m_field (R : Relations env) (K : KeyReady env) {w0 : World} {vis : Visitor} (hv : VisTr env w0 vis) (hm : VisM env w0 vis)
    (he : Enclosed env w0) (D : InputReady env) {c : Ctx} {dest : Nat} {soft : Bool} {cls : String} {kvs : List (String × Val)} {f : Field}
    (hf : f ∈ (env.cls cls).fields) (hn : (env.cls cls).primary ≠ some f.name)
    (ht : Takes env w0 cls kvs) (hk : TextKeys env (.dict kvs)) {w w' : World} (hw : BInv env w0 w) (hi : MInv env w) (hdn : dest < w.next)
    (hd : (w.heap dest).cls = cls)
    (h : transformField env (Field.ops env vis) c dest soft kvs f w = (.ok (), w')) : MStep env w w' := by
  unfold transformField at h
  split at h
  · rename_i hp
    unfold presentField at h
    obtain ⟨cur, w1, h1, ha⟩ := bind_ok h
    clear h
    obtain ⟨rfl, -⟩ := readW_ok h1
    split at ha
    · obtain ⟨ek, w2, h2, hb⟩ := bind_ok (get_bind_ok ha)
      clear ha
      obtain ⟨rfl, -⟩ := readW_ok h2
      obtain ⟨t, w3, h3, h⟩ := bind_ok hb
      obtain ⟨b1, b2⟩ := step_value R hv he D hf rfl hw (fun hob => ht.1 f hf hp hob) (fun og hpr => ht.2.1 f hf hp og hpr) h3
      have m1 := m_value hv hm D hf rfl hw hi (fun hob => ht.1 f hf hp hob) (hk.field f) h3
      unfold pyWhen at h
      split at h
      · exact m1.trans b1.ext (m_assign R K b1.inv m1.inv ((b1.ext.cls dest hdn).trans hd) hf hn b2 h)
      · cases h; exact m1
    · split at ha
      · exact m_fillDefault R K hv hm he D hf hn hw hi hdn hd ha
      · cases ha; exact MStep.refl hi
  · unfold absentField at h
    split at h
    · rename_i hr
      split at h
      · rename_i hst
        have hkey : ∀ k, KeysApart (JC.getD kvs k) → ∀ {u u' : World}, BInv env w0 u → MInv env u → (u.heap dest).cls = cls →
            setRefKey env dest f.refName kvs k u = (.ok (), u') → BStep env w0 u u' ∧ MStep env u u' := by
          intro k hka u u' hu hiu hdu h
          have hcd : u.cdef env dest = env.cls cls := congrArg env.cls hdu
          have hno : ∀ g, (u.cdef env dest).field? f.refName ≠ some g := by
            intro g hg
            rw [hcd] at hg
            exact R.keys cls _ _ _ (R.keyUniq cls f hf hst) hg
          unfold setRefKey at h
          split at h
          · cases h; exact ⟨BStep.refl hu, MStep.refl hiu⟩
          · refine ⟨step_setAttr R hu (fun g og hg _ => (hno g hg).elim) (fun _ _ => hka) h,
              m_setAttr R K hu hiu (fun hp => ?_) (fun g og hg _ => (hno g hg).elim) h⟩
            rw [hcd] at hp
            have := R.prim cls _ hp
            rw [R.keyUniq cls f hf hst] at this
            cases this
        obtain ⟨_, w1, h1, h2⟩ := bind_ok h
        obtain ⟨b1, m1⟩ := hkey _ (ht.2.2 f hf).1 hw hi hd h1
        exact m1.trans b1.ext (hkey _ (ht.2.2 f hf).2 b1.inv m1.inv ((b1.ext.cls dest hdn).trans hd) h2).2
      · cases h; exact MStep.refl hi
    · split at h
      · exact m_fillDefault R K hv hm he D hf hn hw hi hdn hd h
      · cases h; exact MStep.refl hi

theorem m_fields (R : Relations env) (K : KeyReady env) {w0 : World} {vis : Visitor} (hv : VisTr env w0 vis) (hm : VisM env w0 vis)
    (he : Enclosed env w0) (D : InputReady env) {c : Ctx} {dest : Nat} {soft : Bool} {cls : String} {kvs : List (String × Val)}
    (ht : Takes env w0 cls kvs) (hk : TextKeys env (.dict kvs)) (fs : List Field)
    (hfs : ∀ f ∈ fs, f ∈ (env.cls cls).fields ∧ (env.cls cls).primary ≠ some f.name) : ∀ {w w' : World}, BInv env w0 w → MInv env w →
      dest < w.next → (w.heap dest).cls = cls →
      transformFields env (Field.ops env vis) c dest soft kvs fs w = (.ok (), w') → MStep env w w' := by
  induction fs with
  | nil => intro w w' _ hi _ _ h; cases h; exact MStep.refl hi
  | cons f fs ih =>
    intro w w' hw hi hdn hd h
    obtain ⟨_, w1, h1, h2⟩ := bind_ok h
    have b1 := step_field R hv he D (hfs f (by simp)).1 ht hw hdn hd h1
    have m1 := m_field R K hv hm he D (hfs f (by simp)).1 (hfs f (by simp)).2 ht hk hw hi hdn hd h1
    exact m1.trans b1.ext (ih (fun f' h' => hfs f' (by simp [h'])) b1.inv m1.inv (Nat.lt_of_lt_of_le hdn b1.ext.next)
      ((b1.ext.cls dest hdn).trans hd) h2)

theorem m_lists (R : Relations env) (K : KeyReady env) {w0 : World} {dest : Nat} {cls : String} (fs : List Field)
    (hfs : ∀ f ∈ fs, f ∈ (env.cls cls).fields ∧ f.ftype = .list ∧ f.isRef = true) : ∀ {w w' : World}, BInv env w0 w → MInv env w → dest < w.next →
      (w.heap dest).cls = cls → fillRefLists env dest (fs.map Field.name) w = (.ok (), w') → MStep env w w' := by
  induction fs with
  | nil => intro w w' _ hm _ _ h; cases h; exact MStep.refl hm
  | cons f fs ih =>
    intro w w' hb hm hdn hd h
    obtain ⟨v, w1, h1, h2⟩ := bind_ok h
    obtain ⟨rfl, hval⟩ := readW_ok h1
    obtain ⟨_, w2, h3, h4⟩ := bind_ok h2
    obtain ⟨hfm, hfl, hfr⟩ := hfs f (by simp)
    have h5 : BStep env w0 w1 w2 ∧ MStep env w1 w2 := by
      unfold pyWhen at h3
      split at h3
      · refine ⟨step_assign R hb hd hfm (fun og hp => fits_list (bs := []) hfl List.nodup_nil (fun b hb => by cases hb)) h3,
          m_assign R K hb hm hd hfm (fun hp => ?_) (fun og hp => fits_list (bs := []) hfl List.nodup_nil (fun b hb => by cases hb)) h3⟩
        have := (K.other R hp hfm rfl).2.2.2.2.2
        rw [this] at hfr; cases hfr
      · cases h3; exact ⟨BStep.refl hb, MStep.refl hm⟩
    exact h5.2.trans h5.1.ext (ih (fun f' h' => hfs f' (by simp [h'])) h5.1.inv h5.2.inv (Nat.lt_of_lt_of_le hdn h5.1.ext.next)
      ((h5.1.ext.cls dest hdn).trans hd) h4)

/-! ### The primary key comes first -/

/-- the object written to: one nobody knows, or one keeping its primary key -/
def DestOk (env : Env) (w : World) (dest : Nat) (kvs : List (String × Val)) (fill : Bool) : Bool → Prop
  | true => Unknown env w dest
  | false => ∀ n, (w.cdef env dest).primary = some n →
      (dictGet kvs n = none ∧ fill = false) ∨ (dictGet kvs n = some (w.id env dest))

theorem m_first (R : Relations env) (K : KeyReady env) {w0 : World} {vis : Visitor} (hv : VisTr env w0 vis)
    {c : Ctx} {dest : Nat} {soft : Bool} {cls : String} {kvs : List (String × Val)} {f : Field} (hf : f ∈ (env.cls cls).fields)
    (hp : (env.cls cls).primary = some f.name) (hk : TextKeys env (.dict kvs)) {fresh : Bool} {w w' : World} (hw : BInv env w0 w)
    (hi : Mirrors env w) (hd : (w.heap dest).cls = cls)
    (hmk : ∀ C s o, ((C, MarkKey.pk s), o) ∈ w.marks → w.id env o = .str s ∨ (o = dest ∧ JC.getD kvs f.name = .str s))
    (hdest : DestOk env w dest kvs (c.cfg.fillBlanks && !soft) fresh)
    (h : transformField env (Field.ops env vis) c dest soft kvs f w = (.ok (), w')) :
    MInv env w' ∧ (∀ j, (fresh = true → j ≠ dest) → w'.id env j = w.id env j) ∧ (fresh = true → w'.id env dest = JC.getD kvs f.name) := by
  have hcd : w.cdef env dest = env.cls cls := congrArg env.cls hd
  have hhas : HasField env w dest f := by unfold HasField; rw [hcd]; exact R.uniq cls f hf
  obtain ⟨hj, hkeep, hdf, hwr, hst, hr⟩ := K.other R hp hf rfl
  have hpr : (w.cdef env dest).primary = some f.name := hcd ▸ hp
  have hid := id_of_primary hpr
  -- the new value, when there is one
  have hset : ∀ v, (v = .none ∨ ∃ s, v = .str s) → JC.getD kvs f.name = v → (dictGet kvs f.name = none → fresh = true) →
      setAttr env dest f.name v w = (.ok (), w') →
      MInv env w' ∧ (∀ j, (fresh = true → j ≠ dest) → w'.id env j = w.id env j) ∧ (fresh = true → w'.id env dest = JC.getD kvs f.name) := by
    intro v hvs hg habs h
    have hmarks : w'.marks = w.marks := by
      have := (setAttr_rest (env := env) dest f.name v w).2
      rw [h] at this; exact this
    cases fresh with
    | true =>
      obtain ⟨q1, q2, q3⟩ := m_primary R K hw hi hdest.1 hhas hr hst hpr hdest.2 h
      refine ⟨⟨q1, fun C s o hmem => ?_⟩, fun j hj => q2 j (hj rfl), fun _ => q3.trans hg.symm⟩
      rw [hmarks] at hmem
      rcases hmk C s o hmem with h1 | ⟨rfl, h1⟩
      · by_cases ho : o = dest
        · subst ho; rw [hdest.2] at h1; cases h1
        · rw [q2 o ho]; exact h1
      · rw [q3, ← hg]; exact h1
    | false =>
      rcases hdest f.name hpr with ⟨h1, -⟩ | h1
      · have := habs h1; cases this
      · have hv : v = w.id env dest := by rw [← hg]; unfold JC.getD; rw [h1]; rfl
        have : w' = w := assign_same R hhas (by
          rw [← hid, ← hv]
          rcases hvs with rfl | ⟨s, rfl⟩ <;> simp [pyEq]) h
        subst this
        refine ⟨⟨hi, fun C s o hmem => ?_⟩, fun _ _ => rfl, fun h => by cases h⟩
        rcases hmk C s o hmem with h2 | ⟨rfl, h2⟩
        · exact h2
        · rw [← hv, ← hg]; exact h2
  have hstay : w' = w → JC.getD kvs f.name = .none → MInv env w' ∧ (∀ j, (fresh = true → j ≠ dest) → w'.id env j = w.id env j) ∧ (fresh = true → w'.id env dest = JC.getD kvs f.name) := by
    rintro rfl hg
    refine ⟨⟨hi, fun C s o hmem => ?_⟩, fun _ _ => rfl, fun h => by subst h; rw [hg]; exact hdest.2⟩
    rcases hmk C s o hmem with h2 | ⟨rfl, h2⟩
    · exact h2
    · rw [hg] at h2; cases h2
  unfold transformField at h
  have hhv : hasFieldValue f kvs = (dictGet kvs f.name).isSome := by
    unfold hasFieldValue; rw [hj, Bool.or_self]
  have hgv : getFieldValue f kvs = JC.getD kvs f.name := by
    unfold getFieldValue; rw [hj, ite_self]
  rw [hhv] at h
  split at h
  · rename_i hsome
    unfold presentField at h
    obtain ⟨cur, w1, h1, ha⟩ := bind_ok h
    clear h
    obtain ⟨rfl, -⟩ := readW_ok h1
    rw [if_pos (by simp [allowWrite, hwr])] at ha
    obtain ⟨ek, w2, h2, hb⟩ := bind_ok (get_bind_ok ha)
    clear ha
    obtain ⟨rfl, -⟩ := readW_ok h2
    obtain ⟨t, w3, h3, h⟩ := bind_ok hb
    unfold Field.ops at h3
    rw [keeps_chain hv.noMarks hkeep] at h3
    have e1 := (Prod.mk.inj h3).2
    have e2 := Except.ok.inj (Prod.mk.inj h3).1
    subst e1
    have e2 : JC.getD kvs f.name = t := hgv ▸ e2
    unfold pyWhen at h
    rw [if_pos (by simpa using hst)] at h
    exact hset t (by rw [← e2]; exact hk.key hp) e2 (fun hn => by rw [hn] at hsome; cases hsome) h
  · rename_i hnone
    have hn : dictGet kvs f.name = none := by simpa using hnone
    have hg : JC.getD kvs f.name = .none := by unfold JC.getD; rw [hn]; rfl
    unfold absentField at h
    rw [if_neg (by simp [hr])] at h
    split at h
    · rename_i hfill
      unfold fillDefault at h
      rw [hdf] at h
      have h := get_bind_ok h
      obtain ⟨ek, w1, h1, h⟩ := bind_ok h
      obtain ⟨rfl, -⟩ := readW_ok h1
      obtain ⟨t, w2, h2, h⟩ := bind_ok h
      unfold Field.ops at h2
      rw [keeps_chain hv.noMarks hkeep] at h2
      have e1 := (Prod.mk.inj h2).2
      have e2 := Except.ok.inj (Prod.mk.inj h2).1
      subst e1
      have e2 : Val.none = t := e2
      subst e2
      refine hset .none (.inl rfl) hg (fun _ => ?_) h
      cases fresh with
      | true => rfl
      | false =>
        simp only [Bool.and_eq_true, decide_eq_true_eq] at hfill
        rcases hdest f.name hpr with ⟨-, h1⟩ | h1
        · rw [hfill.1.1, hfill.1.2] at h1; cases h1
        · rw [hn] at h1; cases h1
    · cases h; exact hstay rfl hg

theorem m_applyDict (R : Relations env) (K : KeyReady env) {w0 : World} {vis : Visitor} (hv : VisTr env w0 vis) (hm : VisM env w0 vis)
    (he : Enclosed env w0) (D : InputReady env) {c : Ctx} {dest : Nat} {soft : Bool} {cls : String} {st : Option Bool} {kvs : List (String × Val)}
    (ht : Takes env w0 cls kvs) (hk : TextKeys env (.dict kvs)) {fresh : Bool}
    {w w' : World} (hw : BInv env w0 w) (hi : Mirrors env w) (hdn : dest < w.next) (hd : (w.heap dest).cls = cls)
    (hmk : ∀ C s o, ((C, MarkKey.pk s), o) ∈ w.marks → w.id env o = .str s ∨ (o = dest ∧ inputPk env cls kvs = .str s))
    (hdest : DestOk env w dest kvs (c.cfg.fillBlanks && !soft) fresh)
    (h : applyDict env (Field.ops env vis) cls st c dest soft kvs w = (.ok (), w')) :
    MInv env w' ∧ (∀ j, j < w.next → (fresh = true → j ≠ dest) → w'.id env j = w.id env j) ∧
      (fresh = true → w'.id env dest = inputPk env cls kvs) := by
  unfold applyDict at h
  have h := get_bind_ok h
  simp only [World.cdef, hd] at h
  obtain ⟨_, w1, h1, h2⟩ := bind_ok h
  have hw1 : w1 = w := by
    unfold pyWhen at h1
    split at h1
    · exact (readW_ok h1).1
    · cases h1; rfl
  subst hw1
  obtain ⟨_, w2, h3, h4⟩ := bind_ok h2
  have bf := step_fields R hv he D ht _ (fun _ h => h) hw hdn hd h3
  have hls := fun hmi => m_lists R K (w0 := w0) (dest := dest) (cls := cls)
    ((env.cls cls).fields.filter (fun f => !hasFieldValue f kvs && f.isRef && f.ftype = .list && f.collNonnull)) (fun f hf => by
      have := List.mem_filter.1 hf
      have h2 := this.2
      simp only [Bool.and_eq_true, decide_eq_true_eq] at h2
      exact ⟨this.1, h2.1.2, h2.1.1.2⟩) bf.inv hmi (Nat.lt_of_lt_of_le hdn bf.ext.next) ((bf.ext.cls dest hdn).trans hd) h4
  suffices hs : MInv env w2 ∧ (∀ j, j < w1.next → (fresh = true → j ≠ dest) → w2.id env j = w1.id env j) ∧
      (fresh = true → w2.id env dest = inputPk env cls kvs) from by
    have hl := hls hs.1
    exact ⟨hl.inv, fun j hj hjf => (hl.ids j (Nat.lt_of_lt_of_le hj bf.ext.next)).trans (hs.2.1 j hj hjf),
      fun hf => (hl.ids dest (Nat.lt_of_lt_of_le hdn bf.ext.next)).trans (hs.2.2 hf)⟩
  cases hpr : (env.cls cls).primary with
  | none =>
    have hpk : inputPk env cls kvs = .none := by unfold inputPk; rw [hpr]
    have := m_fields R K hv hm he D ht hk _ (fun f hf => ⟨hf, by rw [hpr]; simp⟩) hw ⟨hi, fun C s o hmem => by
      rcases hmk C s o hmem with h | ⟨-, h⟩
      · exact h
      · rw [hpk] at h; cases h⟩ hdn hd h3
    refine ⟨this.inv, fun j hj _ => this.ids j hj, fun hf => ?_⟩
    subst hf
    rw [this.ids dest hdn, hpk]
    exact hdest.2
  | some n =>
    obtain ⟨f, fs, hfs, rfl, -, hoth, -⟩ := K.first cls n hpr
    have hpk : inputPk env cls kvs = JC.getD kvs f.name := by unfold inputPk; rw [hpr]
    have hfm : f ∈ (env.cls cls).fields := by rw [hfs]; simp
    rw [hfs] at h3
    obtain ⟨_, w3, h5, h6⟩ := bind_ok h3
    have b1 := step_field R hv he D hfm ht hw hdn hd h5
    obtain ⟨q1, q2, q3⟩ := m_first R K hv hfm hpr hk hw hi hd (hpk ▸ hmk) hdest h5
    have m2 := m_fields R K hv hm he D ht hk fs (fun g hg => ⟨by rw [hfs]; simp [hg], by
      rw [hpr]; intro h; exact hoth g hg (Option.some.inj h).symm⟩) b1.inv q1 (Nat.lt_of_lt_of_le hdn b1.ext.next)
      ((b1.ext.cls dest hdn).trans hd) h6
    exact ⟨m2.inv, fun j hj hjf => (m2.ids j (Nat.lt_of_lt_of_le hj b1.ext.next)).trans (q2 j hjf),
      fun hf => (m2.ids dest (Nat.lt_of_lt_of_le hdn b1.ext.next)).trans ((q3 hf).trans hpk.symm)⟩

/-! ### Objects -/

theorem m_alloc (R : Relations env) (K : KeyReady env) {w0 w : World} (hb : BInv env w0 w) (hm : MInv env w) (cls : String) :
    MStep env w (alloc env cls w).2 ∧ Unknown env (alloc env cls w).2 w.next := by
  have hatt : ∀ j n, j ≠ w.next → (alloc env cls w).2.attr j n = w.attr j n := by
    intro j n hj
    simp only [alloc, World.attr, if_neg hj]
  have hcls : ∀ j, j ≠ w.next → (alloc env cls w).2.cdef env j = w.cdef env j := by
    intro j hj
    simp only [alloc, World.cdef, if_neg hj]
  have hnew : (alloc env cls w).2.cdef env w.next = env.cls cls := by
    simp only [alloc, World.cdef, if_true, freshObj]
  have hfresh : ∀ n, (env.cls cls).localKey? n = none → (alloc env cls w).2.attr w.next n = .none := by
    intro n hn
    simp only [alloc, World.attr, if_true, freshObj, hn]
  have hids : ∀ j, j < w.next → (alloc env cls w).2.id env j = w.id env j := by
    intro j hj
    have hne : j ≠ w.next := by omega
    unfold World.id
    rw [hcls j hne]
    cases (w.cdef env j).primary with
    | none => rfl
    | some n => exact hatt j n hne
  have hnk : ∀ g, HasField env (alloc env cls w).2 w.next g → (alloc env cls w).2.attr w.next g.name = .none := by
    intro g hg
    refine hfresh _ ?_
    have := R.noKey hg
    rwa [hnew] at this
  refine ⟨⟨⟨fun a k b hk hs hi hab => ?_, fun C s o hmem => ?_⟩, hids⟩, fun g og hg hp => ?_, ?_⟩
  · by_cases ha : a = w.next
    · subst ha
      rw [hnk k hk] at hab; cases hab
    · have hk' : HasField env w a k := by unfold HasField at hk ⊢; rwa [hcls a ha] at hk
      rw [hatt a _ ha] at hab ⊢
      obtain ⟨og, hp⟩ := K.linked _ k hk'.mem hs hi
      have hob : HasField env w b og := (hb.fits a k og hk' hp).2 b (by rw [hab, refsOf_inst hi]; simp)
      rw [hids b (hb.bound.lt hob)]
      exact hm.mir a k b hk' hs hi hab
  · rw [hids o (hb.marks _ hmem).1]
    exact hm.marked C s o hmem
  · rw [hnk g hg]; exact refsOf_none g
  · unfold World.id
    rw [hnew]
    cases hp : (env.cls cls).primary with
    | none => rfl
    | some n => exact hfresh n (R.prim cls n hp)

theorem MInv.sameHeap {w w' : World} (h : MInv env w) (hh : w'.heap = w.heap) (hm : ∀ e ∈ w'.marks, e ∈ w.marks) : MInv env w' := by
  have hid : ∀ o, w'.id env o = w.id env o := by
    intro o; unfold World.id World.cdef World.attr; rw [hh]
  refine ⟨fun a k b hk hs hi hab => ?_, fun C s o hmem => ?_⟩
  · rw [hid]
    unfold HasField World.cdef at hk
    unfold World.attr at hab ⊢
    rw [hh] at hk hab ⊢
    exact h.mir a k b hk hs hi hab
  · rw [hid]; exact h.marked C s o (hm _ hmem)

theorem Unknown.sameHeap {w w' : World} {o : Nat} (h : Unknown env w o) (hh : w'.heap = w.heap) : Unknown env w' o := by
  refine ⟨fun g og hg hp => ?_, ?_⟩
  · unfold HasField World.cdef at hg
    unfold World.attr
    rw [hh] at hg ⊢
    exact h.1 g og hg hp
  · have := h.2
    unfold World.id World.cdef World.attr at this ⊢
    rw [hh]; exact this

theorem id_sameHeap {w w' : World} (hh : w'.heap = w.heap) (o : Nat) : w'.id env o = w.id env o := by
  unfold World.id World.cdef World.attr; rw [hh]

theorem graphPut_heap (i : Nat) (w : World) : (graphPutSelf env i w).2.heap = w.heap ∧ (graphPutSelf env i w).2.marks = w.marks ∧
    (graphPutSelf env i w).2.next = w.next := by
  simp only [graphPutSelf, Py.modify_run]
  cases graphKey env w i <;> exact ⟨rfl, rfl, rfl⟩

/-- the object made for a nested dict -/
theorem m_newBlank (R : Relations env) (K : KeyReady env) {w0 : World} {vis : Visitor} (hv : VisTr env w0 vis) (hm : VisM env w0 vis)
    {cls : String} {i : Nat} {w w' : World} (hw : BInv env w0 w) (hi : MInv env w)
    (h : newObj env vis cls [] w = (.ok i, w')) : MStep env w w' ∧ Unknown env w' i := by
  unfold newObj at h
  split at h
  · cases h
  · obtain ⟨b1, hc1, hn1, hm1⟩ := step_alloc R hw cls
    obtain ⟨m1, u1⟩ := m_alloc R K hw hi cls
    obtain ⟨j, w1, h1, h2⟩ := bind_ok h
    have hj : w.next = j := Except.ok.inj (Prod.mk.inj h1).1
    have hw1 : (alloc env cls w).2 = w1 := (Prod.mk.inj h1).2
    rw [hw1] at b1 hc1 hn1 hm1 m1 u1
    subst hj
    obtain ⟨_, w2, h3, h4⟩ := bind_ok h2
    obtain ⟨b2, hm2⟩ := step_setDict hv b1.inv (by omega) (takes_nil w0 _) h3
    have m2 : MStep env w1 w2 ∧ Unknown env w2 w.next := by
      unfold setDict at h3
      have h3 := get_bind_ok h3
      obtain ⟨r, w4, h5, h6⟩ := bind_ok h3
      cases h6
      unfold withFreshMarks at h5
      rcases hr : (vis (w1.heap w.next).cls none).transform (rootCtx w1 w.next { fillBlanks := true, allFields := some false } (.dict []))
        { w1 with marks := [] } with ⟨r', w5⟩
      rw [hr] at h5
      cases h5
      have hb0 : BInv env w0 { w1 with marks := [] } :=
        ⟨b1.inv.fits, b1.inv.sym, b1.inv.bound, b1.inv.old, b1.inv.oldCls, (fun e he => by cases he), List.nodup_nil⟩
      obtain ⟨m3, u3⟩ := hm.blank _ none _ w.next { w1 with marks := [] } _ _ rfl rfl rfl rfl (by show w.next < w1.next; omega) hb0
        (m1.inv.sameHeap rfl (fun e he => by cases he)) (u1.sameHeap rfl) hr
      refine ⟨⟨⟨m3.inv.mir, fun C s o hmem => ?_⟩, m3.ids⟩, u3.sameHeap rfl⟩
      have := m3.ids o (b1.inv.marks _ hmem).1
      exact Eq.trans this (m1.inv.marked C s o hmem)
    obtain ⟨_, w3, h5, h6⟩ := bind_ok h4
    have hw3 : (graphPutSelf env w.next w2).2 = w3 := congrArg Prod.snd h5
    obtain ⟨g1, g2, g3⟩ := graphPut_heap (env := env) w.next w2
    rw [hw3] at g1 g2 g3
    have e1 := (Prod.mk.inj h6).2
    have e2 := Except.ok.inj (Prod.mk.inj h6).1
    subst e1 e2
    have m12 := m1.trans b1.ext m2.1
    exact ⟨⟨m2.1.inv.sameHeap g1 (fun e he => g2 ▸ he), fun j hj => (id_sameHeap g1 j).trans (m12.ids j hj)⟩, m2.2.sameHeap g1⟩

theorem inputPk_text {kvs : List (String × Val)} (hk : TextKeys env (.dict kvs)) (cls : String) :
    inputPk env cls kvs = .none ∨ ∃ s, inputPk env cls kvs = .str s := by
  unfold inputPk
  cases hp : (env.cls cls).primary with
  | none => exact .inl rfl
  | some n => exact hk.key hp

/-- the object to write to -/
theorem m_findDest (R : Relations env) (K : KeyReady env) {w0 : World} {vis : Visitor} (hv : VisTr env w0 vis) (hm : VisM env w0 vis)
    {cls : String} {c : Ctx} {kvs : List (String × Val)} {d : Nat × Bool} {w w' : World} (ho : c.original = none) (hw : BInv env w0 w)
    (hi : MInv env w) (hk : TextKeys env (.dict kvs)) (h : findDest env vis cls c kvs w = (.ok d, w')) (fill : Bool) :
    Mirrors env w' ∧ (∀ j, j < w.next → w'.id env j = w.id env j) ∧
      (∀ C s o, ((C, MarkKey.pk s), o) ∈ w'.marks → w'.id env o = .str s ∨ (o = d.1 ∧ inputPk env cls kvs = .str s)) ∧
      ∃ fresh, DestOk env w' d.1 kvs (fill && !d.2) fresh ∧ (fresh = true → w.next ≤ d.1) := by
  unfold findDest at h
  rw [ho] at h
  simp only [] at h
  split at h
  · obtain ⟨i, w1, h1, h2⟩ := bind_ok h
    obtain ⟨_, w2, h3, h4⟩ := bind_ok h2
    cases h4
    obtain ⟨m1, u1⟩ := m_newBlank R K hv hm hw hi h1
    obtain ⟨-, hin, -⟩ := step_newObj R hv hw (takes_nil w0 cls) h1
    have hw2 : w1.markPut env i = w' := congrArg Prod.snd h3
    unfold World.markPut at hw2
    rw [u1.2] at hw2
    simp only at hw2
    subst hw2
    refine ⟨(m1.inv.sameHeap (w' := { w1 with marks := [] }) rfl (fun e he => by cases he)).mir, m1.ids, fun C s o hmem => ?_, true, u1.sameHeap rfl, fun _ => Nat.le_of_eq hin.symm⟩
    rcases List.mem_cons.1 hmem with he | he
    · cases he
    · exact .inl (m1.inv.marked C s o he)
  · rename_i hpk
    have hpk : inputPk env cls kvs ≠ .none := fun h => hpk ((Val.isNone_iff _).2 h)
    obtain ⟨s, hs⟩ := (inputPk_text hk cls).resolve_left hpk
    have h := get_bind_ok h
    cases hl : mLookup (cls, .pk (env.pystr (inputPk env cls kvs))) w.marks with
    | some o =>
      rw [hl] at h
      cases h
      have hme := lookup_mem hl
      refine ⟨hi.mir, fun _ _ => rfl, fun C s o hmem => .inl (hi.marked C s o hmem), false, fun n hn => .inr ?_, fun h => by cases h⟩
      have hid := hi.marked _ _ _ hme
      rw [hs, K.text] at hid
      have hcl : (w.heap o).cls = cls := (hw.marks _ hme).2
      unfold World.cdef at hn
      rw [hcl] at hn
      show dictGet kvs n = some (w.id env o)
      rw [hid, ← hs]
      unfold inputPk at hpk ⊢
      rw [hn] at hpk ⊢
      simp only at hpk ⊢
      unfold JC.getD at hpk ⊢
      cases hd : dictGet kvs n with
      | none => rw [hd] at hpk; exact absurd rfl hpk
      | some v => rfl
    | none =>
      rw [hl] at h
      obtain ⟨i, w1, h1, h2⟩ := bind_ok h
      obtain ⟨_, w2, h3, h4⟩ := bind_ok h2
      cases h4
      obtain ⟨m1, u1⟩ := m_newBlank R K hv hm hw hi h1
      obtain ⟨-, hin, -⟩ := step_newObj R hv hw (takes_nil w0 cls) h1
      have hw2 : w1.markPutp env (inputPk env cls kvs) i = w' := congrArg Prod.snd h3
      subst hw2
      refine ⟨(m1.inv.sameHeap (w' := { w1 with marks := [] }) rfl (fun e he => by cases he)).mir, m1.ids, fun C s' o hmem => ?_, true, u1.sameHeap rfl, fun _ => Nat.le_of_eq hin.symm⟩
      unfold World.markPutp at hmem
      rcases List.mem_cons.1 hmem with he | he
      · have h5 := MarkKey.pk.inj (Prod.mk.inj (Prod.mk.inj he).1).2
        rw [hs, K.text] at h5
        exact .inr ⟨(Prod.mk.inj he).2, by rw [h5]; exact hs⟩
      · exact .inl (m1.inv.marked C s' o he)

/-- a dict written to the object itself -/
theorem m_root (R : Relations env) (K : KeyReady env) {w0 : World} {vis : Visitor} (hv : VisTr env w0 vis) (hm : VisM env w0 vis)
    (he : Enclosed env w0) (D : InputReady env) {cls : String} {st : Option Bool} {c : Ctx} {i : Nat} {kvs : List (String × Val)} {fresh : Bool}
    {w w' : World} {r : Val} (ho : c.original = some i) (hval : c.val = .dict kvs) (hmk : w.marks = []) (hc : (w.heap i).cls = cls) (hi : i < w.next)
    (hw : BInv env w0 w) (hmi : Mirrors env w) (ht : Takes env w0 cls kvs) (hk : TextKeys env (.dict kvs))
    (hdest : DestOk env w i kvs c.cfg.fillBlanks fresh)
    (h : instTransform env vis (Field.ops env vis) cls st c w = (.ok r, w')) :
    MInv env w' ∧ (∀ j, j < w.next → (fresh = true → j ≠ i) → w'.id env j = w.id env j) ∧
      (fresh = true → w'.id env i = inputPk env cls kvs) := by
  simp only [instTransform, hval] at h
  obtain ⟨d, w1, h1, h2⟩ := bind_ok h
  obtain ⟨_, w2, h3, h4⟩ := bind_ok h2
  cases h4
  unfold findDest at h1
  rw [ho] at h1
  simp only [] at h1
  obtain ⟨_, w3, h5, h6⟩ := bind_ok h1
  cases h6
  unfold pyWhen at h5
  split at h5
  · rename_i hpk
    have hpk : inputPk env cls kvs ≠ .none := fun h => by rw [h] at hpk; cases hpk
    obtain ⟨s, hs⟩ := (inputPk_text hk cls).resolve_left hpk
    have hw1 : w.markPutp env (inputPk env cls kvs) i = w1 := congrArg Prod.snd h5
    subst hw1
    have b1 : BStep env w0 w (w.markPutp env (inputPk env cls kvs) i) := step_mark hw hi (fun e he => by rw [hmk] at he; cases he)
    refine (show _ from m_applyDict R K hv hm he D ht hk (fresh := fresh) (w := w.markPutp env (inputPk env cls kvs) i) b1.inv hmi hi hc
      (fun C s' o hmem => ?_) ?_ h3)
    · unfold World.markPutp at hmem
      rcases List.mem_cons.1 hmem with he | he
      · have h5 := MarkKey.pk.inj (Prod.mk.inj (Prod.mk.inj he).1).2
        rw [hs, K.text] at h5
        exact .inr ⟨(Prod.mk.inj he).2, by rw [h5]; exact hs⟩
      · rw [hmk] at he; cases he
    · simp only [Bool.not_false, Bool.and_true]
      cases fresh with
      | true => exact Unknown.sameHeap hdest rfl
      | false => exact hdest
  · cases h5
    refine m_applyDict R K hv hm he D ht hk (fresh := fresh) hw hmi hi hc (fun C s' o hmem => ?_) ?_ h3
    · rw [hmk] at hmem; cases hmem
    · simpa only [Bool.not_false, Bool.and_true] using hdest

theorem visM_instOps (R : Relations env) (K : KeyReady env) {w0 : World} (he : Enclosed env w0) (D : InputReady env) (n : Nat) :
    VisM env w0 (instOps env n) := by
  induction n with
  | zero =>
    exact ⟨noneStill_instOps 0, (fun _ _ _ _ _ _ _ _ _ _ _ h => by cases h), (fun _ _ _ _ _ _ _ _ _ _ _ _ _ _ _ h => by cases h)⟩
  | succ n ih =>
    have hv := visTr_instOps R he D n
    refine ⟨noneStill_instOps _, fun cls st c w r w' ho hw hi ht hk h => ?_, fun cls st c i w r w' ho hval hmk hc hlt hw hi hu h => ?_⟩
    · simp only [instOps, instTransform, ho] at h
      cases hval : c.val with
      | dict kvs =>
        rw [hval] at h hk
        obtain ⟨d, w1, h1, h2⟩ := bind_ok h
        obtain ⟨_, w2, h3, h4⟩ := bind_ok h2
        cases h4
        obtain ⟨b1, hlt, hc, -⟩ := step_findDest R hv ho hw h1
        obtain ⟨q1, q2, q3, fresh, q4, q5⟩ := m_findDest R K hv ih ho hw hi hk h1 c.cfg.fillBlanks
        obtain ⟨q6, q7, -⟩ := m_applyDict R K hv ih he D (ht kvs hval) hk b1.inv q1 hlt hc q3 q4 h3
        refine ⟨q6, fun j hj => (q7 j (Nat.lt_of_lt_of_le hj b1.ext.next) (fun hf => ?_)).trans (q2 j hj)⟩
        have := q5 hf
        omega
      | none => rw [hval] at h; cases h; exact MStep.refl hi
      | _ => rw [hval] at h; cases h; exact MStep.refl hi
    · simp only [instOps, instTransform, hval] at h
      obtain ⟨d, w1, h1, h2⟩ := bind_ok h
      obtain ⟨_, w2, h3, h4⟩ := bind_ok h2
      cases h4
      unfold findDest at h1
      rw [ho] at h1
      have hpk : inputPk env cls [] = .none := by unfold inputPk; split <;> rfl
      simp only [hpk] at h1
      cases h1
      unfold applyDict at h3
      have h3 := get_bind_ok h3
      simp only [World.cdef, hc] at h3
      obtain ⟨_, w3, h5, h6⟩ := bind_ok h3
      have hw3 : w3 = w := by
        unfold pyWhen at h5
        split at h5
        · exact (readW_ok h5).1
        · cases h5; rfl
      subst hw3
      obtain ⟨_, w4, h7, h8⟩ := bind_ok h6
      have b1 := step_fields R hv he D (takes_nil w0 cls) _ (fun _ h => h) hw hlt hc h7
      obtain ⟨m1, u1⟩ := unknown_fields R K D he hv ih.none _ (fun _ h => h) hw hi hlt hc hu h7
      obtain ⟨m2, u2⟩ := unknown_lists R K
        ((env.cls cls).fields.filter (fun f => !hasFieldValue f [] && f.isRef && f.ftype = .list && f.collNonnull)) (fun f hf => by
          have := List.mem_filter.1 hf
          have h2 := this.2
          simp only [Bool.and_eq_true, decide_eq_true_eq] at h2
          exact ⟨this.1, h2.1.2, h2.1.1.2⟩) b1.inv m1.inv (Nat.lt_of_lt_of_le hlt b1.ext.next) ((b1.ext.cls i hlt).trans hc) u1 h8
      exact ⟨m1.trans b1.ext m2, u2⟩

theorem m_setDict (R : Relations env) (K : KeyReady env) {w0 : World} (he : Enclosed env w0) (D : InputReady env) {n : Nat} {i : Nat}
    {kvs : List (String × Val)} {fill fresh : Bool} {w w' : World} (hw : BInv env w0 w) (hm : MInv env w) (hi : i < w.next)
    (ht : Takes env w0 (w.heap i).cls kvs) (hk : TextKeys env (.dict kvs)) (hd : DestOk env w i kvs fill fresh) (hmk : w.marks = [])
    (h : setDict (instOps env n) i kvs fill w = (.ok (), w')) :
    MInv env w' ∧ (∀ j, j < w.next → (fresh = true → j ≠ i) → w'.id env j = w.id env j) ∧
      (fresh = true → w'.id env i = inputPk env (w.heap i).cls kvs) := by
  unfold setDict at h
  have h := get_bind_ok h
  obtain ⟨r, w1, h1, h2⟩ := bind_ok h
  cases h2
  unfold withFreshMarks at h1
  rcases hr : (instOps env n (w.heap i).cls none).transform (rootCtx w i { fillBlanks := fill, allFields := some false } (.dict kvs)) { w with marks := [] }
    with ⟨r', w2⟩
  rw [hr] at h1
  cases h1
  have hw0 : ({ w with marks := [] } : World) = w := by rw [← hmk]
  rw [hw0] at hr
  cases n with
  | zero => cases hr
  | succ n =>
    obtain ⟨q1, q2⟩ := m_root R K (visTr_instOps R he D n) (visM_instOps R K he D n) he D (c := rootCtx w i { fillBlanks := fill, allFields := some false } (.dict kvs))
      (fresh := fresh) rfl rfl hmk rfl hi hw hm.mir ht hk hd hr
    exact ⟨q1.sameHeap rfl (fun e he => by rw [hmk] at he; cases he), q2⟩

/-! ### C39 -/

/-- **C39**, construction. After `cls(...)`, with any objects and nested dicts given for
relations, the stored reference id of every linked object is its primary key. Objects that
existed keep their primary keys; the new one has the primary key given. -/
theorem new_mirrors (R : Relations env) (D : InputReady env) (K : KeyReady env) {n : Nat} {cls : String} {kvs : List (String × Val)} {i : Nat}
    {w w' : World} (hw : Consistent env w) (hm : Mirrors env w) (ht : Takes env w cls kvs) (hk : TextKeys env (.dict kvs))
    (h : apiNew env n cls kvs w = (.ok i, w')) :
    Mirrors env w' ∧ (∀ j, j < w.next → w'.id env j = w.id env j) ∧
      w'.id env i = (match (env.cls cls).primary with | some k => (dictGet kvs k).getD .none | none => .none) := by
  have hb := hw.inv R
  have hmi : MInv env w := ⟨hm, fun C s o hmem => by rw [hw.idle] at hmem; cases hmem⟩
  unfold apiNew newObj at h
  split at h
  · cases h
  · obtain ⟨b1, hc1, hn1, hm1⟩ := step_alloc R hb cls
    obtain ⟨m1, u1⟩ := m_alloc R K hb hmi cls
    obtain ⟨j, w1, h1, h2⟩ := bind_ok h
    have hj : w.next = j := Except.ok.inj (Prod.mk.inj h1).1
    have hw1 : (alloc env cls w).2 = w1 := (Prod.mk.inj h1).2
    rw [hw1] at b1 hc1 hn1 hm1 m1 u1
    subst hj
    obtain ⟨_, w2, h3, h4⟩ := bind_ok h2
    obtain ⟨q1, q2, q3⟩ := m_setDict R K hw.enclosed D (fresh := true) b1.inv m1.inv (by omega) (hc1 ▸ ht) hk u1 (hm1.trans hw.idle) h3
    obtain ⟨_, w3, h5, h6⟩ := bind_ok h4
    have hw3 : (graphPutSelf env w.next w2).2 = w3 := congrArg Prod.snd h5
    obtain ⟨g1, g2, g3⟩ := graphPut_heap (env := env) w.next w2
    rw [hw3] at g1 g2 g3
    have e1 := (Prod.mk.inj h6).2
    have e2 := Except.ok.inj (Prod.mk.inj h6).1
    subst e1 e2
    refine ⟨(q1.sameHeap g1 (fun e he => g2 ▸ he)).mir, fun j hj => ?_, ?_⟩
    · rw [id_sameHeap g1, q2 j (by omega) (fun _ => by omega), m1.ids j hj]
    · rw [id_sameHeap g1, q3 rfl, hc1]; rfl

/-- **C39**, `set`. After `obj.set(...)` naming the object's own primary key or none, the
stored reference id of every linked object is its primary key; no primary key changes. -/
theorem set_mirrors (R : Relations env) (D : InputReady env) (K : KeyReady env) {n : Nat} {i : Nat} {kvs : List (String × Val)}
    {w w' : World} (hw : Consistent env w) (hm : Mirrors env w) (hi : i < w.next) (ht : Takes env w (w.heap i).cls kvs)
    (hk : TextKeys env (.dict kvs)) (hkeep : KeepsKey env w i kvs) (h : apiSet env n i kvs w = (.ok (), w')) :
    Mirrors env w' ∧ ∀ j, j < w.next → w'.id env j = w.id env j := by
  have hmi : MInv env w := ⟨hm, fun C s o hmem => by rw [hw.idle] at hmem; cases hmem⟩
  obtain ⟨q1, q2, -⟩ := m_setDict R K hw.enclosed D (fresh := false) (hw.inv R) hmi hi ht hk (fun n hn => (hkeep n hn).imp (fun h => ⟨h, rfl⟩) id) hw.idle h
  exact ⟨q1.mir, fun j hj => q2 j hj (fun h => by cases h)⟩

/-- every step of the history keeps to what reference ids need -/
def KeyedHistory (env : Env) (n : Nat) : List BOp → World → Prop
  | [], _ => True
  | .field i op :: ops, w => op.KeySuits env w i ∧ KeyedHistory env n ops (op.run env i w).2
  | .new cls kvs :: ops, w => TextKeys env (.dict kvs) ∧ KeyedHistory env n ops (apiNew env n cls kvs w).2
  | .set i kvs :: ops, w => TextKeys env (.dict kvs) ∧ KeepsKey env w i kvs ∧ KeyedHistory env n ops (apiSet env n i kvs w).2

/-- **C39** for whole programs: after any history of field operations, constructions and `set`
calls, the stored reference id of every linked object is its primary key, and primary keys
have not changed. -/
theorem build_mirrors_partial (R : Relations env) (D : InputReady env) (K : KeyReady env) {n : Nat} (ops : List BOp) {w w' : World}
    (hw : Consistent env w) (hm : Mirrors env w) (h : BuildHistory env n ops w w') (hk : KeyedHistory env n ops w) :
    Mirrors env w' ∧ ∀ j, j < w.next → w'.id env j = w.id env j := by
  induction ops generalizing w with
  | nil => cases h; exact ⟨hm, fun _ _ => rfl⟩
  | cons o ops ih =>
    cases o with
    | field i op =>
      obtain ⟨hsu, w1, h1, h2⟩ := h
      obtain ⟨hk1, hk2⟩ := hk
      have hc := build_symmetric_partial R D (n := n) [.field i op] hw ⟨hsu, w1, h1, rfl⟩
      obtain ⟨-, q2, q3⟩ := (lk_op (lo := fun _ _ => True) R K.plain (i := i) (op := op) hw.linked.typed hm hk1
        (fun _ => by rw [h1]) (fun _ _ h => absurd trivial h) (fun _ _ _ => trivial)).out
      have hr := fop_rest (env := env) i op w
      rw [h1] at q2 q3 hk2 hr
      obtain ⟨e1, e2⟩ := ih hc q2 h2 hk2
      exact ⟨e1, fun j hj => (e2 j (by rw [hr.1]; exact hj)).trans (q3 j)⟩
    | new cls kvs =>
      obtain ⟨ht, i, w1, h1, h2⟩ := h
      obtain ⟨hk1, hk2⟩ := hk
      obtain ⟨q1, q2, -⟩ := new_mirrors R D K hw hm ht hk1 h1
      rw [h1] at hk2
      obtain ⟨e1, e2⟩ := ih (new_symmetric R D hw ht h1).1 q1 h2 hk2
      have hnx := (step_newObj R (visTr_instOps R hw.enclosed D n) (hw.inv R) ht h1).1.ext.next
      exact ⟨e1, fun j hj => (e2 j (Nat.lt_of_lt_of_le hj hnx)).trans (q2 j hj)⟩
    | set i kvs =>
      obtain ⟨hi, ht, w1, h1, h2⟩ := h
      obtain ⟨hk1, hk2, hk3⟩ := hk
      obtain ⟨q1, q2⟩ := set_mirrors R D K hw hm hi ht hk1 hk2 h1
      rw [h1] at hk3
      obtain ⟨e1, e2⟩ := ih (set_symmetric R D hw hi ht h1).1 q1 h2 hk3
      have hnx := (step_setDict (visTr_instOps R hw.enclosed D n) (hw.inv R) hi ht h1).1.ext.next
      exact ⟨e1, fun j hj => (e2 j (Nat.lt_of_lt_of_le hj hnx)).trans (q2 j hj)⟩

end JC

namespace JC.SymDemo
open Demo

theorem keyReady : KeyReady Demo.env where
  plain := plainPrimary
  first := by
    intro c n hp
    have hkeep : ∀ m ∈ fId.chain, m.Keeps := by
      intro m hm
      cases List.mem_singleton.1 hm
      intro h c
      rfl
    rcases Demo.env_cases c with hc | hc | hc <;> rw [hc] at hp ⊢
    · cases hp
      exact ⟨fId, _, rfl, rfl, rfl, by decide, hkeep, rfl, rfl, by decide⟩
    · cases hp
      exact ⟨fId, _, rfl, rfl, rfl, by decide, hkeep, rfl, rfl, by decide⟩
    · cases hp
  linked := by
    intro c f hf hs hi
    rcases fields_cases hf with ⟨-, hm⟩ | ⟨-, hm⟩ <;>
      simp only [user, post, List.mem_cons, List.not_mem_nil, or_false] at hm
    · rcases hm with rfl | rfl | rfl | rfl | rfl | rfl <;> cases hs
    · rcases hm with rfl | rfl | rfl
      · cases hs
      · cases hs
      · exact ⟨fPosts, paired_author⟩
  text := fun _ => rfl

theorem keyed_consistent : Consistent Demo.env keyed :=
  ⟨keyed_linked, keyed_symmetric, fun j hj g hg => start_consistent.enclosed j hj g ((HasField.congr keyed_cls).1 hg), rfl⟩

theorem textKeys_atom {v : Val} (h : ∀ kvs, v ≠ .dict kvs) (h' : ∀ xs, v ≠ .list xs) : TextKeys Demo.env v := .atom h h'

theorem textKeys_dict {kvs : List (String × Val)} (h : getD kvs "id" = .none ∨ ∃ s, getD kvs "id" = .str s)
    (h' : ∀ kv ∈ kvs, TextKeys Demo.env kv.2) : TextKeys Demo.env (.dict kvs) := by
  refine .dict (fun c n hp => ?_) h'
  rcases Demo.env_cases c with hc | hc | hc <;> rw [hc] at hp <;> cases hp <;> exact h

theorem newUser_keys : TextKeys Demo.env (.dict newUser) := by
  have ha : ∀ s, TextKeys Demo.env (.str s) := fun s => .atom (fun _ h => by cases h) (fun _ h => by cases h)
  refine textKeys_dict (.inr ⟨_, rfl⟩) (fun kv hkv => ?_)
  simp only [newUser, List.mem_cons, List.not_mem_nil, or_false] at hkv
  rcases hkv with rfl | rfl | rfl
  · exact ha _
  · exact ha _
  · refine .list (fun x hx => ?_)
    simp only [List.mem_cons, List.not_mem_nil, or_false] at hx
    rcases hx with rfl | rfl
    · exact .atom (fun _ h => by cases h) (fun _ h => by cases h)
    · refine textKeys_dict (.inl rfl) (fun kv hkv => ?_)
      simp only [List.mem_cons, List.not_mem_nil, or_false] at hkv
      rcases hkv with rfl | rfl
      · exact ha _
      · refine textKeys_dict (.inr ⟨_, rfl⟩) (fun kv hkv => ?_)
        simp only [List.mem_cons, List.not_mem_nil, or_false] at hkv
        subst hkv
        exact ha _

def kbuilt : World := (apiNew Demo.env 5 "User" newUser keyed).2
theorem kbuilt_run : apiNew Demo.env 5 "User" newUser keyed = (.ok 5, kbuilt) := okNew_eq (by decide +kernel)

/-- The new user 5 has the primary key given, and the new post 6, whose author was named by
that key, stores it. -/
example : Mirrors Demo.env kbuilt ∧ text kbuilt 5 "id" = "u5" ∧ refs kbuilt 6 fAuthor = [5] ∧ text kbuilt 6 "author_id" = "u5" ∧
    refs kbuilt 3 fAuthor = [5] ∧ text kbuilt 3 "author_id" = "u5" :=
  ⟨(new_mirrors relations ready keyReady keyed_consistent keyed_mirrors (takes_newUser_at rfl) newUser_keys kbuilt_run).1, by decide +kernel,
    by decide +kernel, by decide +kernel, by decide +kernel, by decide +kernel⟩

def kmoved : World := (apiSet Demo.env 5 6 given kbuilt).2
theorem kmoved_run : apiSet Demo.env 5 6 given kbuilt = (.ok (), kmoved) := okRun_eq (by decide +kernel)
theorem kbuilt_cls : (kbuilt.heap 6).cls = "Post" := by decide +kernel

theorem given_keeps : KeepsKey Demo.env kbuilt 6 given := by
  intro n hn
  unfold World.cdef at hn
  rw [kbuilt_cls] at hn
  cases hn
  exact .inl rfl

theorem given_keys : TextKeys Demo.env (.dict given) := by
  refine textKeys_dict (.inl rfl) (fun kv hkv => ?_)
  cases List.mem_singleton.1 hkv
  exact .atom (fun _ h => by cases h) (fun _ h => by cases h)

/-- Giving post 6 to user 0 writes user 0's primary key. -/
example : Mirrors Demo.env kmoved ∧ refs kmoved 6 fAuthor = [0] ∧ text kmoved 6 "author_id" = "u0" :=
  ⟨(set_mirrors relations ready keyReady
    (new_symmetric relations ready keyed_consistent (takes_newUser_at rfl) kbuilt_run).1
    (new_mirrors relations ready keyReady keyed_consistent keyed_mirrors (takes_newUser_at rfl) newUser_keys kbuilt_run).1
    (by decide +kernel) (by rw [kbuilt_cls]; exact takes_given_at (by decide +kernel)) given_keys given_keeps kmoved_run).1, by decide +kernel, by decide +kernel⟩

theorem kbuild_hist : BuildHistory Demo.env 5
    [.new "User" newUser, .set 6 given, .field 5 (.lst "posts" (.pop none))] keyed (step 5 (.lst "posts" (.pop none)) kmoved) :=
  ⟨takes_newUser_at rfl, 5, kbuilt, kbuilt_run, (by decide +kernel), (by rw [kbuilt_cls]; exact takes_given_at (by decide +kernel)), kmoved, kmoved_run,
    suits_lst (g := fPosts) (og := fAuthor) (has_of (c := "User") (by decide +kernel) rfl) paired_posts
      ⟨trivial, id, fun h => h.elim, [], rfl, List.nodup_nil, fun b hb => (by cases hb)⟩, _,
    okRun_eq (by decide +kernel), rfl⟩

theorem kmoved_cls : (kmoved.heap 5).cls = "User" := by decide +kernel

theorem kbuild_keyed : KeyedHistory Demo.env 5 [.new "User" newUser, .set 6 given, .field 5 (.lst "posts" (.pop none))] keyed := by
  refine ⟨newUser_keys, given_keys, given_keeps, ⟨?_, trivial, fun g hg => ?_, fun g og hg hp b hb => ?_⟩, trivial⟩
  · show ((kmoved.cdef Demo.env 5).primary ≠ some "posts")
    unfold World.cdef; rw [kmoved_cls]; decide
  · have hg : (kmoved.cdef Demo.env 5).localKey? "posts" = some g ∨ (kmoved.cdef Demo.env 5).field? "posts" = some g ∧ g.store = .localKey := hg
    unfold World.cdef at hg
    rw [kmoved_cls] at hg
    rcases hg with hg | ⟨hg, hs⟩
    · cases hg
    · have hg : some fPosts = some g := hg
      cases hg; cases hs
  · simp [LOp.newItems] at hb

example : Mirrors Demo.env (step 5 (.lst "posts" (.pop none)) kmoved) ∧ text (step 5 (.lst "posts" (.pop none)) kmoved) 3 "author_id" = "" :=
  ⟨(build_mirrors_partial relations ready keyReady _ keyed_consistent keyed_mirrors kbuild_hist kbuild_keyed).1, by decide +kernel⟩

end JC.SymDemo

/-! ### Why the primary key has to come first -/

namespace JC.LateKey

def fId : Field := { name := "id", jsonName := "id", chain := [.leaf Demo.optStr] }
def fPost : Field := { name := "post", jsonName := "post", store := .localKey, ftype := .inst, isInst := true, refName := "post_id",
                       jrefName := "postId", foreign := some ("Post", "author"), chain := [.instOf "Post" none] }
def fAuthor : Field := { name := "author", jsonName := "author", store := .foreignKey, ftype := .inst, isInst := true,
                         foreign := some ("User", "post"), chain := [.instOf "User" none] }

/-- `User.post` keeps the reference id; `Post` declares `author` before its primary key. -/
def env : Env where
  cls := fun n => if n = "User" then { name := "User", primary := some "id", fields := [fId, fPost] }
    else if n = "Post" then { name := "Post", primary := some "id", fields := [fAuthor, fId] } else {}
  pystr := fun v => match v with
    | .str s => s
    | _ => ""

def empty : World := { heap := fun _ => {} }

/-- `Post(author={'id': 'u'}, id='p')` -/
def made : World := (apiNew env 5 "Post" [("author", .dict [("id", .str "u")]), ("id", .str "p")] empty).2

end JC.LateKey

namespace JC
open JC.SymDemo (okNew okNew_eq text text_eq refs)

/-- **C39** is violated when a class declares a relation before its primary key: constructing
a post with an author and a primary key links the author, whose reference id stays empty. -/
theorem new_late_key_stale : ∃ (env : Env) (w w' : World) (kvs : List (String × Val)) (a : Nat) (f : Field),
    Mirrors env w ∧ apiNew env 5 "Post" kvs w = (.ok 0, w') ∧ HasField env w' a f ∧ f.store = .localKey ∧ f.ftype = .inst ∧
    w'.attr a f.name = .obj 0 ∧ w'.id env 0 = .str "p" ∧ w'.attr a f.refName = .none := by
  have h1 : okNew (apiNew LateKey.env 5 "Post" [("author", .dict [("id", .str "u")]), ("id", .str "p")] LateKey.empty) 0 = true := by
    decide +kernel
  have hc1 : (LateKey.made.heap 1).cls = "User" := by decide +kernel
  have hc0 : (LateKey.made.heap 0).cls = "Post" := by decide +kernel
  refine ⟨LateKey.env, LateKey.empty, LateKey.made, _, 1, LateKey.fPost, fun a g b hg _ _ _ => ?_, okNew_eq h1, ?_, rfl, rfl, ?_, ?_, ?_⟩
  · cases hg
  · unfold HasField World.cdef; rw [hc1]; rfl
  · have : refs LateKey.made 1 LateKey.fPost = [0] := by decide +kernel
    unfold refs at this
    cases h : LateKey.made.attr 1 LateKey.fPost.name <;> rw [h] at this <;> first | (cases this; rfl) | cases this
  · unfold World.id World.cdef
    rw [hc0]
    exact text_eq (by decide +kernel) (by decide)
  · have : (LateKey.made.attr 1 "post_id").isNone = true := by decide +kernel
    exact (Val.isNone_iff _).1 this

end JC
