import Verif.Props.Symmetry
import Verif.Model.Methods
import Verif.Props.Demo

/-
C38, the linking half: assignments and list operations keep linked relations symmetric.
-/
namespace JC
variable {env : Env}

/-! ### Symmetry up to a set of references -/

/-- Every reference outside `B` has its opposite. -/
def SymBut (env : Env) (B : Tri) (w : World) : Prop :=
  ∀ a g og b, HasField env w a g → Paired env g og → Refers w a g b → Refers w b og a ∨ B a g b

theorem Paired.opp_eq {f of og : Field} (h : Paired env f of) (h' : Paired env f og) : og = of :=
  Option.some.inj (h'.2.2.symm.trans h.2.2)

theorem SymBut.drop {B B' : Tri} {w : World} (h : SymBut env B w)
    (hd : ∀ a g og b, HasField env w a g → Paired env g og → B a g b → Refers w a g b → Refers w b og a ∨ B' a g b) :
    SymBut env B' w := by
  intro a g og b hg hp hr
  rcases h a g og b hg hp hr with h | h
  · exact .inl h
  · exact hd a g og b hg hp h hr

theorem SymBut.mono {B B' : Tri} {w : World} (h : SymBut env B w) (hd : ∀ a g b, B a g b → B' a g b) :
    SymBut env B' w := h.drop (fun a g _ b _ _ hb _ => .inr (hd a g b hb))

theorem SymBut.rem (R : Relations env) {B E : Tri} {w w' : World} (hw : WellLinked env w) (h : SymBut env B w)
    (hr : Rem env E w w') : SymBut env (fun a g b => B a g b ∨ E a g b) w' := by
  intro a g og b hg hp hre
  have hg0 : HasField env w a g := (HasField.congr hr.cls).1 hg
  have hr0 := hr.sub a g og b hg0 hp hre
  rcases h a g og b hg0 hp hr0 with ho | hb
  · by_cases ho' : Refers w' b og a
    · exact .inl ho'
    · exact .inr (.inr (hr.clean b og g a ((hw a g og hg0 hp).2 b hr0) (R.opp g og hp).1 ho ho' hre))
  · exact .inr (.inl hb)

theorem SymBut.rem0 (R : Relations env) {B : Tri} {w w' : World} (hw : WellLinked env w) (h : SymBut env B w)
    (hr : Rem env noTri w w') : SymBut env B w' :=
  (h.rem R hw hr).mono (fun _ _ _ h => h.elim id (fun h => h.elim))

theorem SymBut.qr (R : Relations env) {B : Tri} {w w' : World} (hw : WellLinked env w) (h : SymBut env B w)
    (hq : QR env w w') : SymBut env B w' := h.rem0 R hw (Rem.ofQR hq hw)

theorem refers_rawRel {i : Nat} {f : Field} {v : Val} {w : World} (hf : HasField env w i f) {a : Nat} {g : Field}
    (hg : HasField env w a g) (hne : ¬ (a = i ∧ g = f)) {b : Nat} :
    Refers (rawSet i f.name v w).2 a g b ↔ Refers w a g b := by
  unfold Refers
  rcases attr_rawRel (v := v) hf hg with ⟨h1, h2, -⟩ | ⟨-, h⟩
  · exact absurd ⟨h1, h2⟩ hne
  · rw [h]

theorem refers_rawSelf {i : Nat} {f : Field} {v : Val} {w : World} {b : Nat} :
    Refers (rawSet i f.name v w).2 i f b ↔ b ∈ refsOf f v := by
  unfold Refers; rw [attr_rawSet, if_pos ⟨rfl, rfl⟩]

/-- writing a relation field -/
theorem SymBut.rawRel (R : Relations env) {B : Tri} {i : Nat} {f of : Field} {v : Val} {w : World} (hw : WellLinked env w)
    (h : SymBut env B w) (hf : HasField env w i f) (hp : Paired env f of) :
    SymBut env (fun a g c => B a g c ∨ (a = i ∧ g = f ∧ c ∈ refsOf f v ∧ ¬ Refers w i f c) ∨
      (g = of ∧ c = i ∧ Refers w i f a ∧ a ∉ refsOf f v)) (rawSet i f.name v w).2 := by
  intro a g og c hg hpg hr
  have hg0 : HasField env w a g := (HasField.congr (cls_rawSet i f.name v w)).1 hg
  have hpo := (R.opp g og hpg).1
  by_cases hag : a = i ∧ g = f
  · obtain ⟨rfl, rfl⟩ := hag
    have := hp.opp_eq hpg
    subst this
    have hc := refers_rawSelf.1 hr
    by_cases hold : Refers w a g c
    · rcases h a g og c hg0 hpg hold with ho | hb
      · by_cases hco : c = a ∧ og = g
        · obtain ⟨rfl, rfl⟩ := hco
          exact .inl hr
        · exact .inl ((refers_rawRel hf ((hw a g og hg0 hpg).2 c hold) hco).2 ho)
      · exact .inr (.inl hb)
    · exact .inr (.inr (.inl ⟨rfl, rfl, hc, hold⟩))
  · have hr0 := (refers_rawRel hf hg0 hag).1 hr
    rcases h a g og c hg0 hpg hr0 with ho | hb
    · by_cases hco : c = i ∧ og = f
      · obtain ⟨rfl, rfl⟩ := hco
        by_cases ha : a ∈ refsOf og v
        · exact .inl (refers_rawSelf.2 ha)
        · exact .inr (.inr (.inr ⟨hp.opp_eq hpo, rfl, ho, ha⟩))
      · exact .inl ((refers_rawRel hf ((hw a g og hg0 hpg).2 c hr0) hco).2 ho)
    · exact .inr (.inl hb)

/-! ### Linking one item -/

/-- linking back to an object that already refers to this one -/
theorem qr_linkOther_back (R : Relations env) {run : LCmd → Py World Unit} {i b : Nat} {f of : Field} {w w' : World}
    (hw : WellLinked env w) (hf : HasField env w i f) (hp : Paired env f of) (hr : Refers w i f b)
    (h : linkOther env run b f (.obj i) w = (.ok (), w')) : QR env w w' := by
  unfold linkOther at h
  obtain ⟨u, w1, h1, h2⟩ := bind_ok h
  have q2 := (calm_linkGraph (env := env) b i).ok h2
  unfold linkSide at h1
  have h1 := get_bind_ok h1
  have hfit := hw i f of hf hp
  unfold Refers at hr
  rcases hfit.1 with h0 | ⟨ht, c, h0⟩ | ⟨ht, bs, h0, hnd⟩
  · rw [h0, refsOf_none] at hr; cases hr
  · rw [h0, refsOf_inst ht] at hr
    cases List.mem_singleton.1 hr
    simp only [ht, h0] at h1
    rw [if_pos (pyEq_obj_iff.2 rfl)] at h1
    cases h1; exact q2
  · rw [h0, refsOf_list ht] at hr
    simp only [ht, h0] at h1
    rw [if_pos (pyIn_obj.2 hr)] at h1
    cases h1; exact q2

theorem qr_link_back (R : Relations env) {n : Nat} {i b : Nat} {f of : Field} {v : Val} {w w' : World}
    (hw : WellLinked env w) (hf : HasField env w i f) (hp : Paired env f of) (hr : Refers w i f b)
    (hv : linkItems of v = [.obj i])
    (h : runL env n (.link b of v) w = (.ok (), w')) : QR env w w' := by
  cases n with
  | zero => cases h
  | succ n =>
    simp only [runL, linkBody, (R.opp f of hp).1.2.2, hv, forItems] at h
    obtain ⟨u, w1, h1, h2⟩ := bind_ok h
    cases h2
    obtain ⟨u3, w3, h3, h4⟩ := bind_ok h1
    have q := (calm_delUnlinked (env := env) b of.name (.obj i)).ok h3
    exact q.trans (qr_linkOther_back R (q.wellLinked hw) ((HasField.congr q.1).2 hf) hp ((q.refers hf hp).2 hr) h4)

theorem qr_syncKey (R : Relations env) {i : Nat} {f : Field} {v : Val} {w w' : World} (hf : HasField env w i f)
    (h : syncKey env i f v w = (.ok (), w')) : QR env w w' := by
  unfold syncKey at h
  split at h
  · cases h; exact QR.refl _
  · rename_i hst
    have hst : f.store = .localKey := by simpa using hst
    have hlk := R.keyUniq _ f hf.mem hst
    have hraw : ∀ x w', rawSet i f.refName x w = (.ok (), w') → QR env w w' := by
      intro x w' hx
      have : w' = (rawSet i f.refName x w).2 := by rw [hx]
      rw [this]; exact qr_rawKey R hlk
    have hq : ∀ w', w' = w → QR env w w' := fun _ h => h ▸ QR.refl _
    cases ht : f.ftype <;> cases v <;> simp only [ht] at h <;>
      first
        | exact hraw _ _ h
        | exact hraw _ _ (get_bind_ok h)
        | (cases h; done)
        | (cases h; exact QR.refl _)
        | (obtain ⟨ks, w1, h1, h2⟩ := bind_ok h
           have := (readW_ok h1).1
           subst this
           exact hraw _ _ h2)

/-- the key part of adding -/
theorem qr_addKey (R : Relations env) {n : Nat} {i : Nat} {f : Field} {path : String} {idx : Int} {v : Val} {w w' : World}
    (hf : HasField env w i f) (h : addKey env (runL env n) i f path idx v w = (.ok (), w')) : QR env w w' := by
  unfold addKey at h
  split at h
  · rename_i hst
    have hlk := R.keyUniq _ f hf.mem hst
    have h := get_bind_ok h
    cases ha : w.attr i f.refName with
    | list ks =>
      rw [ha] at h
      simp only at h
      obtain ⟨m, w1, h1, h2⟩ := bind_ok h
      have := (readW_ok h1).1
      subst this
      split at h2
      · obtain ⟨k, w3, h3, h4⟩ := bind_ok h2
        have := (readW_ok h3).1
        subst this
        split at h4
        · cases h4
        · obtain ⟨u5, w5, h5, h6⟩ := bind_ok h4
          have hw5 : w5 = (rawSet i f.refName (.list (pyInsert ks idx k)) w3).2 := by rw [h5]
          have q5 : QR env w3 w5 := by rw [hw5]; exact qr_rawKey R hlk
          refine q5.trans ?_
          cases n with
          | zero => cases h6
          | succ n =>
            simp only [runL] at h6
            unfold addBody at h6
            have h6 := get_bind_ok h6
            have hlk5 : (w5.cdef env i).localKey? f.refName = some f := by rw [cdef_congr q5.1]; exact hlk
            rw [hlk5] at h6
            exact (calm_markLocalKey (env := env) i f).ok h6
      · cases h2; exact QR.refl _
    | _ => rw [ha] at h; cases h
  · cases h; exact QR.refl _

/-- the result of linking: the reference `(i, f, b)` now has its opposite, and field `f` of
`i` is as before -/
structure Linked (env : Env) (B : Tri) (i : Nat) (f : Field) (w w' : World) : Prop where
  cls : ∀ j, (w'.heap j).cls = (w.heap j).cls
  fits : WellLinked env w'
  sym : SymBut env B w'
  same : w'.attr i f.name = w.attr i f.name

theorem Linked.ofQR (R : Relations env) {B : Tri} {i : Nat} {f of : Field} {w w' : World} (hw : WellLinked env w)
    (hs : SymBut env B w) (hf : HasField env w i f) (hp : Paired env f of) (hq : QR env w w') :
    Linked env B i f w w' :=
  ⟨hq.1, hq.wellLinked hw, hs.qr R hw hq, hq.2 i f of hf hp⟩

theorem Linked.trans {B B' : Tri} {i : Nat} {f : Field} {w w1 w2 : World} (h : Linked env B i f w w1)
    (h' : Linked env B' i f w1 w2) : Linked env B' i f w w2 :=
  ⟨fun j => (h'.cls j).trans (h.cls j), h'.fits, h'.sym, h'.same.trans h.same⟩

theorem Linked.refers {B : Tri} {i : Nat} {f : Field} {w w1 : World} (h : Linked env B i f w w1) {b : Nat} :
    Refers w1 i f b ↔ Refers w i f b := by unfold Refers; rw [h.same]

/-- all references but one -/
def Tri.minus (B : Tri) (i : Nat) (f : Field) (b : Nat) : Tri := fun a g c => B a g c ∧ ¬ (a = i ∧ g = f ∧ c = b)

/-- the reference has its opposite already -/
theorem SymBut.minus {B : Tri} {i b : Nat} {f of : Field} {w : World} (hs : SymBut env B w) (hp : Paired env f of)
    (hr : Refers w b of i) : SymBut env (B.minus i f b) w := by
  refine hs.drop (fun a g og c hg hpg hb _ => ?_)
  by_cases h : a = i ∧ g = f ∧ c = b
  · obtain ⟨rfl, rfl, rfl⟩ := h
    have := hp.opp_eq hpg
    subst this
    exact .inl hr
  · exact .inr ⟨hb, h⟩

theorem linkItems_none (f : Field) : linkItems f .none = [] := by
  cases h : f.ftype <;> simp only [linkItems, h]

/-- the items of a suitable value are the objects it refers to -/
theorem Fits.items {w : World} {g og : Field} {v : Val} (h : Fits env w g og v) :
    linkItems g v = (refsOf g v).map .obj := by
  rcases h.1 with h0 | ⟨ht, c, h0⟩ | ⟨ht, bs, h0, -⟩
  · rw [h0, refsOf_none, linkItems_none]; rfl
  · rw [h0, refsOf_inst ht]; simp [linkItems, ht]
  · rw [h0, refsOf_list ht]; simp [linkItems, ht]

theorem Fits.itemsOk {w w' : World} {g og : Field} {v : Val} (h : Fits env w g og v)
    (hc : ∀ j, (w'.heap j).cls = (w.heap j).cls) :
    ∀ x ∈ linkItems g v, ∃ j, x = .obj j ∧ HasField env w' j og := by
  rw [h.items]
  intro x hx
  obtain ⟨j, hj, rfl⟩ := List.mem_map.1 hx
  exact ⟨j, rfl, (HasField.congr hc).2 (h.2 j hj)⟩

theorem Fits.mem_items {w : World} {g og : Field} {v : Val} (h : Fits env w g og v) {j : Nat} :
    .obj j ∈ linkItems g v ↔ j ∈ refsOf g v := by
  rw [h.items]; simp

/-- a one-object field being cleared touches the opposite field of the old object only -/
theorem sameBut_unlink (R : Relations env) {n : Nat} {b k : Nat} {f of : Field} {w w' : World} (hw : WellLinked env w)
    (hp : Paired env f of) (ht : of.ftype = .inst) (hk : HasField env w k f)
    (h : runU env n (.unlink b of (.obj k)) w = (.ok (), w')) : SameBut env k f w w' := by
  cases n with
  | zero => cases h
  | succ n =>
    have hpo := (R.opp f of hp).1
    have hli : linkItems of (.obj k) = [.obj k] := by simp only [linkItems, ht]
    simp only [runU, unlinkBody, hpo.2.2, hli, forItems] at h
    obtain ⟨u, w1, h1, h2⟩ := bind_ok h
    cases h2
    obtain ⟨u3, w3, h3, h4⟩ := bind_ok h1
    have q := (calm_addUnlinked (env := env) b of.name (.obj k)).ok h3
    refine (q.sameBut hp k).trans ?_
    have hw3 := q.wellLinked hw
    have hk3 : HasField env w3 k f := (HasField.congr q.1).2 hk
    unfold unlinkOther at h4
    have h4 := get_bind_ok h4
    rcases (R.opp f of hp).2 with hft | hft
    · simp only [hft] at h4
      split at h4
      · obtain ⟨u5, w5, h5, h6⟩ := bind_ok h4
        obtain ⟨u7, w7, h7, h8⟩ := bind_ok h6
        have hw5 : w5 = (rawSet k f.name .none w3).2 := by rw [h5]
        have s5 : SameBut env k f w3 w5 := by rw [hw5]; exact sameBut_rawSet k f _ _ w3
        have q7 := qr_unlinkKey R ((HasField.congr s5.1).2 hk3) h7
        have q8 := (calm_addUnlinked (env := env) k f.name (.obj b)).ok h8
        exact s5.trans ((q7.trans q8).sameBut hp k)
      · cases h4; exact (QR.refl _).sameBut hp k
    · simp only [hft] at h4
      cases ha : w3.attr k f.name with
      | list xs =>
        rw [ha] at h4
        simp only at h4
        split at h4
        · obtain ⟨u5, w5, h5, h6⟩ := bind_ok h4
          have q6 := (calm_addUnlinked (env := env) k f.name (.obj b)).ok h6
          obtain ⟨w8, s8, hw8, hb8, hn8, h8⟩ := listRemoveAttr_split hw3 hk3 hp h5
          have s := (fspec R hp hft ht n).del k b w8 w5 hw8 ((HasField.congr s8.1).2 hk3) hb8 hn8 h8
          exact (s8.trans s).trans (q6.sameBut hp k)
        · cases h4; exact (QR.refl _).sameBut hp k
      | _ => rw [ha] at h4; cases h4; exact (QR.refl _).sameBut hp k

theorem unlink_nothing (R : Relations env) {n : Nat} {b : Nat} {of : Field} {v : Val} {w w' : World}
    (hv : linkItems of v = []) (h : runU env n (.unlink b of v) w = (.ok (), w')) : QR env w w' := by
  cases n with
  | zero => cases h
  | succ n =>
    simp only [runU, unlinkBody, hv, forItems] at h
    cases hf : env.foreignField of <;> rw [hf] at h <;> cases h <;> exact QR.refl _

/-- A new value of the opposite field `of` of `b`: only the reference to `i` is new, and
the references that go have lost their opposite already. -/
theorem linked_raw (R : Relations env) {B B1 : Tri} {i b : Nat} {f of : Field} {v : Val} {w : World}
    (hw : WellLinked env w) (hs : SymBut env B1 w) (hf : HasField env w i f) (hp : Paired env f of)
    (hb : HasField env w b of) (hr : Refers w i f b) (hne : ¬ (i = b ∧ f = of)) (hv : Fits env w of f v) (hi : i ∈ refsOf of v)
    (hB : ∀ a g c, B1 a g c → B a g c ∨ (a = b ∧ g = of ∧ (c ∈ refsOf of v → c = i)))
    (hnw : ∀ k ∈ refsOf of v, k = i ∨ Refers w b of k)
    (hk : ∀ k, Refers w b of k → k ∉ refsOf of v → ¬ Refers w k f b) :
    Linked env (B.minus i f b) i f w (rawSet b of.name v w).2 := by
  have hpo := (R.opp f of hp).1
  have hrb : Refers (rawSet b of.name v w).2 b of i := refers_rawSelf.2 hi
  have hri : Refers (rawSet b of.name v w).2 i f b := (refers_rawRel hb hf hne).2 hr
  refine ⟨cls_rawSet _ _ _ w, wellLinked_rawRel hw hb hpo hv, ?_, ?_⟩
  · refine (SymBut.drop (B' := B) (hs.rawRel R (v := v) hw hb hpo) ?_).minus hp hrb
    intro a g og c hg hpg hc hre
    rcases hc with hc | ⟨rfl, rfl, hc, hnc⟩ | ⟨rfl, rfl, hc, hnc⟩
    · rcases hB a g c hc with hc | ⟨rfl, rfl, hc⟩
      · exact .inr hc
      · have := hc (refers_rawSelf.1 hre)
        subst this
        have := hpo.opp_eq hpg
        subst this
        exact .inl hri
    · left
      have := hpo.opp_eq hpg
      subst this
      rcases hnw c hc with rfl | hc'
      · exact hri
      · exact absurd hc' hnc
    · exfalso
      have hg1 : HasField env w a g := (HasField.congr (cls_rawSet _ _ _ w)).1 hg
      by_cases hag : a = c ∧ g = of
      · obtain ⟨rfl, rfl⟩ := hag
        exact hnc (refers_rawSelf.1 hre)
      · exact hk a hc hnc ((refers_rawRel hb hg1 hag).1 hre)
  · rcases attr_rawRel (v := v) hb hf with ⟨h1, h2, -⟩ | ⟨-, h⟩
    · exact absurd ⟨h1, h2⟩ hne
    · exact h

/-- assigning a value with the one object `i` to the opposite field of `b` -/
theorem linked_set (R : Relations env) {n : Nat} {B : Tri} {i b : Nat} {f of : Field} {v : Val} {w w' : World}
    (hw : WellLinked env w) (hs : SymBut env B w) (hf : HasField env w i f) (hp : Paired env f of)
    (hb : HasField env w b of) (hr : Refers w i f b) (hpe : pyEq v (w.attr b of.name) = false) (hnr : ¬ Refers w b of i)
    (hold : w.attr b of.name = .none ∨ of.ftype = .inst) (hv : Fits env w of f v) (hrv : refsOf of v = [i])
    (h : runL env n (.set b of.name v) w = (.ok (), w')) : Linked env (B.minus i f b) i f w w' := by
  have hpo := (R.opp f of hp).1
  have hfitb := hw b of f hb hpo
  cases n with
  | zero => cases h
  | succ n =>
    simp only [runL] at h
    unfold setBody at h
    have h := get_bind_ok h
    have hbf : (w.cdef env b).field? of.name = some of := hb
    rw [hbf] at h
    simp only [hpe] at h
    split at h
    · cases h
    · simp only [Bool.false_eq_true, if_false] at h
      obtain ⟨u1, w1, h1, h2⟩ := bind_ok h
      have q1 := (calm_track (env := env) b of).ok h1
      simp only [hpo.2.1, if_true] at h2
      obtain ⟨u3, w3, h3, h4⟩ := bind_ok h2
      obtain ⟨u5, w5, h5, h6⟩ := bind_ok h4
      obtain ⟨u7, w7, h7, h8⟩ := bind_ok h6
      have hw1 := q1.wellLinked hw
      have hb1 : HasField env w1 b of := (HasField.congr q1.1).2 hb
      have hf1 : HasField env w1 i f := (HasField.congr q1.1).2 hf
      obtain ⟨r3, hn3⟩ := (uspec R env.fuel).unlink b of f _ w1 w3 hw1 hb1 hpo (hfitb.itemsOk q1.1) h3
      have hf3 : HasField env w3 i f := (HasField.congr r3.cls).2 hf1
      have hb3 : HasField env w3 b of := (HasField.congr r3.cls).2 hb1
      have hs3 := (hs.qr R hw q1).rem R hw1 r3
      have hsame : w3.attr i f.name = w1.attr i f.name := by
        rcases hold with h0 | ht
        · rw [h0] at h3
          exact (unlink_nothing R (linkItems_none of) h3).2 i f of hf1 hp
        · rcases hfitb.1 with h0 | ⟨-, k, h0⟩ | ⟨ht', -⟩
          · rw [h0] at h3
            exact (unlink_nothing R (linkItems_none of) h3).2 i f of hf1 hp
          · have hik : i ≠ k := by
              rintro rfl
              exact hnr (by unfold Refers; rw [h0, refsOf_inst ht]; simp)
            have hk1 : HasField env w1 k f := (HasField.congr q1.1).2 (hfitb.2 k (by rw [h0, refsOf_inst ht]; simp))
            rw [h0] at h3
            exact (sameBut_unlink R hw1 hp ht hk1 h3).2 i hik hf1
          · rw [ht] at ht'; cases ht'
      have hsame0 : w3.attr i f.name = w.attr i f.name := hsame.trans (q1.2 i f of hf hp)
      have hr3 : Refers w3 i f b := by unfold Refers; rw [hsame0]; exact hr
      have hsub : ∀ k, Refers w3 b of k → Refers w b of k := fun k hk =>
        (q1.refers hb hpo).1 (r3.sub b of f k hb1 hpo hk)
      have hne : ¬ (i = b ∧ f = of) := by rintro ⟨rfl, rfl⟩; exact hnr hr
      have hl5 : Linked env (B.minus i f b) i f w3 w5 := by
        have hw5 : w5 = (rawSet b of.name v w3).2 := by rw [h5]
        rw [hw5]
        refine linked_raw R r3.fits hs3 hf3 hp hb3 hr3 hne (hv.congr (fun j => (r3.cls j).trans (q1.1 j))) (by rw [hrv]; simp) ?_ ?_ ?_
        · rintro a g c (hc | ⟨rfl, rfl, -⟩)
          · exact .inl hc
          · exact .inr ⟨rfl, rfl, fun hc => by rw [hrv] at hc; exact List.mem_singleton.1 hc⟩
        · intro k hk
          rw [hrv] at hk
          exact .inl (List.mem_singleton.1 hk)
        · intro k hk _
          exact hn3 k (hfitb.mem_items.2 (hsub k hk))
      have hl : Linked env (B.minus i f b) i f w w5 :=
        ⟨fun j => (hl5.cls j).trans ((r3.cls j).trans (q1.1 j)), hl5.fits, hl5.sym, hl5.same.trans hsame0⟩
      have hf5 : HasField env w5 i f := (HasField.congr hl.cls).2 hf
      have q7 := qr_syncKey R ((HasField.congr hl.cls).2 hb) h7
      have hl7 := hl.trans (Linked.ofQR R hl.fits hl.sym hf5 hp q7)
      have hf7 : HasField env w7 i f := (HasField.congr hl7.cls).2 hf
      have hli : linkItems of v = [.obj i] := by rw [hv.items, hrv]; rfl
      exact hl7.trans (Linked.ofQR R hl7.fits hl7.sym hf7 hp
        (qr_link_back R hl7.fits hf7 hp (hl7.refers.2 hr) hli h8))

/-- the other side of linking one item -/
theorem linked_side (R : Relations env) {n : Nat} {B : Tri} {i b : Nat} {f of : Field} {w w' : World}
    (hw : WellLinked env w) (hs : SymBut env B w) (hf : HasField env w i f) (hp : Paired env f of)
    (hb : HasField env w b of) (hr : Refers w i f b)
    (h : linkSide env (runL env n) i of b w = (.ok (), w')) : Linked env (B.minus i f b) i f w w' := by
  have hpo := (R.opp f of hp).1
  have hfitb := hw b of f hb hpo
  have hquiet : ∀ (B : Tri) (w1 w2 : World), Linked env B i f w w1 → QR env w1 w2 → Linked env B i f w w2 :=
    fun B w1 w2 hl hq => hl.trans (Linked.ofQR R hl.fits hl.sym ((HasField.congr hl.cls).2 hf) hp hq)
  have hthere : Refers w b of i → Linked env (B.minus i f b) i f w w := fun hc =>
    Linked.ofQR R hw (hs.minus hp hc) hf hp (QR.refl w)
  unfold linkSide at h
  have h := get_bind_ok h
  rcases (R.opp of f hpo).2 with ht | ht
  · simp only [ht] at h
    have hri : Refers w b of i ↔ w.attr b of.name = .obj i := by
      unfold Refers
      rcases hfitb.1 with h0 | ⟨-, k, h0⟩ | ⟨ht', -⟩
      · rw [h0, refsOf_none]; simp
      · rw [h0, refsOf_inst ht]; simp [eq_comm]
      · rw [ht] at ht'; cases ht'
    by_cases he : pyEq (w.attr b of.name) (.obj i) = true
    · rw [if_pos he] at h
      cases h
      exact hthere (hri.2 (pyEq_obj_iff.1 he))
    · rw [if_neg he] at h
      obtain ⟨u1, w1, h1, h2⟩ := bind_ok h
      have q2 := (calm_delUnlinked (env := env) b of.name (.obj i)).ok h2
      have hnr : ¬ Refers w b of i := fun hc => he (pyEq_obj_iff.2 (hri.1 hc))
      have hpe : pyEq (.obj i) (w.attr b of.name) = false := by
        rcases hfitb.1 with h0 | ⟨-, k, h0⟩ | ⟨ht', -⟩
        · rw [h0]; rfl
        · rw [h0]
          have : i ≠ k := fun hik => hnr (hri.2 (by rw [h0, hik]))
          simp [pyEq, this]
        · rw [ht] at ht'; cases ht'
      exact hquiet _ _ _ (linked_set R hw hs hf hp hb hr hpe hnr (.inr ht) (fits_inst ht hf) (refsOf_inst ht i) h1) q2
  · simp only [ht] at h
    rcases hfitb.1 with h0 | ⟨ht', -⟩ | ⟨-, bs, h0, hnd⟩
    · rw [h0] at h
      simp only at h
      obtain ⟨u1, w1, h1, h2⟩ := bind_ok h
      have q2 := (calm_delUnlinked (env := env) b of.name (.obj i)).ok h2
      have hnr : ¬ Refers w b of i := by unfold Refers; rw [h0, refsOf_none]; simp
      have hv : Fits env w of f (.list [.obj i]) := fits_list (bs := [i]) ht (by simp) (by
        intro c hc; cases List.mem_singleton.1 hc; exact hf)
      exact hquiet _ _ _ (linked_set R hw hs hf hp hb hr (by rw [h0]; rfl) hnr (.inl h0) hv (refsOf_list ht [i]) h1) q2
    · rw [ht] at ht'; cases ht'
    · rw [h0] at h
      simp only at h
      have hri : Refers w b of i ↔ i ∈ bs := by unfold Refers; rw [h0, refsOf_list ht]
      by_cases he : pyIn (.obj i) (bs.map .obj) = true
      · rw [if_pos he] at h
        cases h
        exact hthere (hri.2 (pyIn_obj.1 he))
      · rw [if_neg he] at h
        obtain ⟨u1, w1, h1, h2⟩ := bind_ok h
        have q2 := (calm_delUnlinked (env := env) b of.name (.obj i)).ok h2
        refine hquiet _ _ _ ?_ q2
        have hib : i ∉ bs := fun hc => he (pyIn_obj.2 hc)
        unfold listAppendAttr at h1
        have h1 := get_bind_ok h1
        rw [h0] at h1
        simp only at h1
        obtain ⟨u3, w3, h3, h4⟩ := bind_ok h1
        obtain ⟨u5, w5, h5, h6⟩ := bind_ok h4
        have q3 := (calm_willChange (env := env) false b of.name).ok h3
        have hf3 : HasField env w3 i f := (HasField.congr q3.1).2 hf
        have hb3 : HasField env w3 b of := (HasField.congr q3.1).2 hb
        have hbs : (bs.map Val.obj ++ [.obj i]) = (bs ++ [i]).map .obj := by simp
        have hr3 : ∀ k, Refers w3 b of k ↔ k ∈ bs := fun k => by
          rw [q3.refers hb hpo]; unfold Refers; rw [h0, refsOf_list ht]
        have hl5 : Linked env (B.minus i f b) i f w3 w5 := by
          have hw5 : w5 = (rawSet b of.name (.list ((bs ++ [i]).map .obj)) w3).2 := by rw [← hbs, h5]
          rw [hw5]
          refine linked_raw R (q3.wellLinked hw) (hs.qr R hw q3) hf3 hp hb3 ((q3.refers hf hp).2 hr) ?_ ?_ ?_
            (fun a g c hc => .inl hc) ?_ ?_
          · rintro ⟨rfl, rfl⟩; exact hib (hri.1 hr)
          · refine fits_list ht (List.nodup_append.2 ⟨hnd, by simp, ?_⟩) ?_
            · intro x hx y hy hxy
              cases List.mem_singleton.1 hy
              exact hib (hxy ▸ hx)
            · intro c hc
              rcases List.mem_append.1 hc with hc | hc
              · exact (HasField.congr q3.1).2 (hfitb.2 c (by rw [h0, refsOf_list ht]; exact hc))
              · cases List.mem_singleton.1 hc; exact hf3
          · rw [refsOf_list ht]; simp
          · intro k hk
            rw [refsOf_list ht] at hk
            rcases List.mem_append.1 hk with hk | hk
            · exact .inr ((hr3 k).2 hk)
            · exact .inl (List.mem_singleton.1 hk)
          · intro k hk hn
            rw [refsOf_list ht] at hn
            exact absurd (List.mem_append_left _ ((hr3 k).1 hk)) hn
        have hl : Linked env (B.minus i f b) i f w w5 :=
          (Linked.ofQR R hw hs hf hp q3).trans hl5
        have hf5 : HasField env w5 i f := (HasField.congr hl.cls).2 hf
        have hb5 : HasField env w5 b of := (HasField.congr hl.cls).2 hb
        cases n with
        | zero => cases h6
        | succ n =>
          simp only [runL] at h6
          unfold addBody at h6
          have h6 := get_bind_ok h6
          rw [R.noKey hb5] at h6
          simp only at h6
          obtain ⟨u7, w7, h7, h8⟩ := bind_ok h6
          have q8 := (calm_markModified (env := env) b of.name).ok h8
          refine hquiet _ _ _ ?_ q8
          unfold addRef at h7
          have hbf : (w5.cdef env b).field? of.name = some of := hb5
          rw [hbf] at h7
          simp only [hpo.2.1, if_true] at h7
          obtain ⟨u9, w9, h9, h10⟩ := bind_ok h7
          have q9 := qr_link_back R hl.fits hf5 hp (hl.refers.2 hr)
            (by simp only [linkItems, ht]) h9
          have hl9 := hquiet _ _ _ hl q9
          exact hquiet _ _ _ hl9 (qr_addKey R ((HasField.congr hl9.cls).2 hb) h10)

/-- linking one item -/
theorem linked_other (R : Relations env) {n : Nat} {B : Tri} {i b : Nat} {f of : Field} {w w' : World}
    (hw : WellLinked env w) (hs : SymBut env B w) (hf : HasField env w i f) (hp : Paired env f of)
    (hb : HasField env w b of) (hr : Refers w i f b)
    (h : linkOther env (runL env n) i of (.obj b) w = (.ok (), w')) : Linked env (B.minus i f b) i f w w' := by
  unfold linkOther at h
  obtain ⟨u, w1, h1, h2⟩ := bind_ok h
  have hl := linked_side R hw hs hf hp hb hr h1
  exact hl.trans (Linked.ofQR R hl.fits hl.sym ((HasField.congr hl.cls).2 hf) hp
    ((calm_linkGraph (env := env) i b).ok h2))

/-- linking a value -/
theorem linked_link (R : Relations env) {n : Nat} {B : Tri} {i : Nat} {f of : Field} {v : Val} {bs : List Nat} {w w' : World}
    (hw : WellLinked env w) (hs : SymBut env B w) (hf : HasField env w i f) (hp : Paired env f of)
    (hv : linkItems f v = bs.map .obj) (hb : ∀ b ∈ bs, HasField env w b of ∧ Refers w i f b)
    (h : runL env n (.link i f v) w = (.ok (), w')) :
    Linked env (fun a g c => B a g c ∧ ¬ (a = i ∧ g = f ∧ c ∈ bs)) i f w w' := by
  cases n with
  | zero => cases h
  | succ n =>
    simp only [runL, linkBody, hp.2.2, hv] at h
    clear hv
    induction bs generalizing w B with
    | nil => cases h; exact Linked.ofQR R hw (hs.mono (fun a g c hc => ⟨hc, by simp⟩)) hf hp (QR.refl _)
    | cons b bs ih =>
      simp only [List.map_cons] at h
      unfold forItems at h
      obtain ⟨u2, w2, h2, h3⟩ := bind_ok h
      obtain ⟨u1, w1, h1, h4⟩ := bind_ok h2
      have q1 := (calm_delUnlinked (env := env) i f.name (.obj b)).ok h1
      have hl1 := Linked.ofQR R hw hs hf hp q1
      have hl := hl1.trans (linked_other R hl1.fits hl1.sym ((HasField.congr q1.1).2 hf) hp
        ((HasField.congr q1.1).2 (hb b (by simp)).1) (hl1.refers.2 (hb b (by simp)).2) h4)
      have := hl.trans (ih hl.fits hl.sym ((HasField.congr hl.cls).2 hf) (fun c hc =>
        ⟨(HasField.congr hl.cls).2 (hb c (by simp [hc])).1, hl.refers.2 (hb c (by simp [hc])).2⟩) h3)
      refine ⟨this.cls, this.fits, this.sym.mono ?_, this.same⟩
      rintro a g c ⟨⟨hc, hn⟩, hn'⟩
      refine ⟨hc, ?_⟩
      rintro ⟨rfl, rfl, hm⟩
      rcases List.mem_cons.1 hm with rfl | hm
      · exact hn ⟨rfl, rfl, rfl⟩
      · exact hn' ⟨rfl, rfl, hm⟩

/-! ### Assignment -/

/-- well linked and symmetric -/
structure Good (env : Env) (w w' : World) : Prop where
  cls : ∀ j, (w'.heap j).cls = (w.heap j).cls
  fits : WellLinked env w'
  sym : SymBut env noTri w'

theorem Good.ofQR (R : Relations env) {w w' : World} (hw : WellLinked env w) (hs : SymBut env noTri w) (h : QR env w w') :
    Good env w w' := ⟨h.1, h.wellLinked hw, hs.qr R hw h⟩

theorem Good.trans {w w1 w2 : World} (h : Good env w w1) (h' : Good env w1 w2) : Good env w w2 :=
  ⟨fun j => (h'.cls j).trans (h.cls j), h'.fits, h'.sym⟩

theorem qr_link_other {n : Nat} {i : Nat} {f : Field} {v : Val} {w w' : World} (hof : env.foreignField f = none)
    (h : runL env n (.link i f v) w = (.ok (), w')) : QR env w w' := by
  cases n with
  | zero => cases h
  | succ n =>
    simp only [runL, linkBody, hof] at h
    cases hl : linkItems f v with
    | nil => rw [hl] at h; cases h; exact QR.refl _
    | cons x xs => rw [hl] at h; exact (calm_delUnlinked (env := env) i f.name x).ok h

/-- assigning to an attribute that is not a reference key -/
theorem good_setField (R : Relations env) {n : Nat} {i : Nat} {nm : String} {v : Val} {w w' : World}
    (hw : WellLinked env w) (hs : SymBut env noTri w)
    (hv : ∀ g og, (w.cdef env i).field? nm = some g → Paired env g og → Fits env w g og v)
    (h : runL env n (.set i nm v) w = (.ok (), w')) : Good env w w' ∧
      ((∃ f of, (w.cdef env i).field? nm = some f ∧ Paired env f of) → pyEq v (w.attr i nm) = false → w'.attr i nm = v) := by
  cases n with
  | zero => cases h
  | succ n =>
    simp only [runL] at h
    unfold setBody at h
    have h := get_bind_ok h
    cases hf : (w.cdef env i).field? nm with
    | none =>
      rw [hf] at h
      simp only at h
      have : w' = (rawSet i nm v w).2 := by rw [h]
      rw [this]
      exact ⟨Good.ofQR R hw hs (qr_rawSet (fun g og hg => by rw [hf] at hg; cases hg)), fun ⟨_, _, h', _⟩ => by cases h'⟩
    | some f =>
      rw [hf] at h
      simp only at h
      have hfi := field?_self hf
      have hnm : f.name = nm := (field_mem hf).2
      subst hnm
      split at h
      · cases h
      · split at h
        · rename_i hpe
          cases h
          exact ⟨Good.ofQR R hw hs (QR.refl _), fun _ hn => by rw [hn] at hpe; cases hpe⟩
        · obtain ⟨u1, w1, h1, h2⟩ := bind_ok h
          have q1 := (calm_track (env := env) i f).ok h1
          have hf1 : HasField env w1 i f := (HasField.congr q1.1).2 hfi
          have hraw : (∀ og, ¬ Paired env f og) → ∀ w2 w3, QR env w w2 → rawSet i f.name v w2 = (.ok (), w3) → QR env w2 w3 := by
            intro hnp w2 w3 q hx
            have : w3 = (rawSet i f.name v w2).2 := by rw [hx]
            rw [this]
            refine qr_rawSet (fun g og hg hpg => ?_)
            rw [cdef_congr q.1, hf] at hg
            cases hg
            exact hnp og hpg
          split at h2
          · rename_i href
            obtain ⟨u3, w3, h3, h4⟩ := bind_ok h2
            obtain ⟨u5, w5, h5, h6⟩ := bind_ok h4
            obtain ⟨u7, w7, h7, h8⟩ := bind_ok h6
            cases hof : env.foreignField f with
            | none =>
              have q3 := q1.trans ((uspec R env.fuel).other _ _ _ _ _ hof h3)
              have q5 := q3.trans (hraw (fun og hp => by rw [hp.2.2] at hof; cases hof) w3 w5 q3 h5)
              have q7 := q5.trans (qr_syncKey R ((HasField.congr q5.1).2 hfi) h7)
              refine ⟨Good.ofQR R hw hs (q7.trans (qr_link_other hof h8)), fun ⟨f', of, h', hp⟩ => ?_⟩
              cases h'
              rw [hp.2.2] at hof; cases hof
            | some of =>
              have hp : Paired env f of := ⟨⟨_, hfi.mem⟩, href, hof⟩
              have hpo := (R.opp f of hp).1
              have hfit := hw i f of hfi hp
              have hvf := hv f of hf hp
              have hw1 := q1.wellLinked hw
              obtain ⟨r3, hn3⟩ := (uspec R env.fuel).unlink i f of _ w1 w3 hw1 hf1 hp (hfit.itemsOk q1.1) h3
              have hf3 : HasField env w3 i f := (HasField.congr r3.cls).2 hf1
              have hc3 : ∀ j, (w3.heap j).cls = (w.heap j).cls := fun j => (r3.cls j).trans (q1.1 j)
              have hs3 := (hs.qr R hw q1).rem R hw1 r3
              have hw5 : w5 = (rawSet i f.name v w3).2 := by rw [h5]
              have hc5 : ∀ j, (w5.heap j).cls = (w3.heap j).cls := fun j => by rw [hw5]; exact cls_rawSet _ _ _ w3 j
              have hs5 : SymBut env (fun a g c => a = i ∧ g = f ∧ c ∈ refsOf f v) w5 := by
                rw [hw5]
                refine (hs3.rawRel R (v := v) r3.fits hf3 hp).drop ?_
                rintro a g og c hg hpg ((hc | ⟨rfl, rfl, hc⟩) | ⟨rfl, rfl, hc, hnc⟩ | ⟨rfl, rfl, hc, hnc⟩) hre
                · exact hc.elim
                · exact .inr ⟨rfl, rfl, refers_rawSelf.1 hre⟩
                · exact .inr ⟨rfl, rfl, hc⟩
                · exfalso
                  have hg3 : HasField env w3 a g := (HasField.congr (cls_rawSet _ _ _ w3)).1 hg
                  by_cases hag : a = c ∧ g = f
                  · obtain ⟨rfl, rfl⟩ := hag
                    exact hnc (refers_rawSelf.1 hre)
                  · refine hn3 a ?_ ((refers_rawRel hf3 hg3 hag).1 hre)
                    exact hfit.mem_items.2 ((q1.refers hfi hp).1 (r3.sub c f g a hf1 hp hc))
              have hwl5 : WellLinked env w5 := by
                rw [hw5]; exact wellLinked_rawRel r3.fits hf3 hp (hvf.congr hc3)
              have q7 := qr_syncKey R ((HasField.congr hc5).2 hf3) h7
              have hf7 : HasField env w7 i f := (HasField.congr q7.1).2 ((HasField.congr hc5).2 hf3)
              have hc7 : ∀ j, (w7.heap j).cls = (w.heap j).cls := fun j => (q7.1 j).trans ((hc5 j).trans (hc3 j))
              have hl := linked_link R (bs := refsOf f v) (q7.wellLinked hwl5) (hs5.qr R hwl5 q7) hf7 hp hvf.items (by
                intro b hb
                refine ⟨(HasField.congr hc7).2 (hvf.2 b hb), ?_⟩
                rw [q7.refers ((HasField.congr hc5).2 hf3) hp, hw5]
                exact refers_rawSelf.2 hb) h8
              refine ⟨⟨fun j => (hl.cls j).trans (hc7 j), hl.fits, hl.sym.mono (fun a g c hc => hc.2 hc.1)⟩, fun _ _ => ?_⟩
              rw [hl.same, q7.2 i f of ((HasField.congr hc5).2 hf3) hp, hw5, attr_rawSet, if_pos ⟨rfl, rfl⟩]
          · rename_i href
            refine ⟨Good.ofQR R hw hs (q1.trans (hraw (fun og hp => href hp.2.1) w1 w' q1 h2)), fun ⟨f', of, h', hp⟩ => ?_⟩
            cases h'
            exact absurd hp.2.1 href

/-- Assigned keys name no object of the list twice. -/
def KeysOnce (env : Env) (w : World) (bs : List Nat) (ks : List Val) : Prop :=
  ks.Pairwise (fun k k' => ∀ b ∈ bs, ¬ (pyEq (w.id env b) k = true ∧ pyEq (w.id env b) k' = true))

theorem findById_id {w : World} {key x : Val} {xs : List Val} (h : findById env w key xs = .ok (some x)) :
    ∃ k, itemId env w x = .ok k ∧ pyEq k key = true := by
  induction xs with
  | nil => cases h
  | cons y ys ih =>
    unfold findById at h
    cases hk : itemId env w y with
    | error e => rw [hk] at h; cases h
    | ok k =>
      rw [hk] at h
      simp only at h
      split at h
      · rename_i hp
        cases h; exact ⟨k, hk, hp⟩
      · exact ih h

theorem itemsForKeys_spec {w : World} {bs : List Nat} {ks : List Val} {xs : List Val}
    (h : itemsForKeys env w (bs.map .obj) ks = .ok xs) :
    ∃ cs : List Nat, xs = cs.map .obj ∧ (∀ c ∈ cs, c ∈ bs ∧ ∃ k ∈ ks, pyEq (w.id env c) k = true) ∧
      (KeysOnce env w bs ks → cs.Nodup) := by
  induction ks generalizing xs with
  | nil => cases h; exact ⟨[], rfl, by simp, fun _ => by simp⟩
  | cons k ks ih =>
    unfold itemsForKeys at h
    cases hr : findById env w k (bs.map .obj) with
    | error e => rw [hr] at h; cases h
    | ok r =>
      rw [hr] at h
      simp only at h
      cases hi : itemsForKeys env w (bs.map .obj) ks with
      | error e => rw [hi] at h; cases h
      | ok ys =>
        rw [hi] at h
        obtain ⟨cs, rfl, h1, h2⟩ := ih hi
        cases r with
        | none =>
          cases h
          refine ⟨cs, rfl, fun c hc => ⟨(h1 c hc).1, ?_⟩, fun hk => h2 (List.Pairwise.of_cons hk)⟩
          obtain ⟨k', hk', hk''⟩ := (h1 c hc).2
          exact ⟨k', List.mem_cons_of_mem _ hk', hk''⟩
        | some x =>
          cases h
          obtain ⟨b, hb, rfl⟩ := List.mem_map.1 (findById_mem hr)
          obtain ⟨kb, hkb, hpe⟩ := findById_id hr
          have hkb' : w.id env b = kb := Except.ok.inj hkb
          subst hkb'
          refine ⟨b :: cs, rfl, ?_, fun hk => ?_⟩
          · intro c hc
            rcases List.mem_cons.1 hc with rfl | hc
            · exact ⟨hb, k, by simp, hpe⟩
            · obtain ⟨k', hk', hk''⟩ := (h1 c hc).2
              exact ⟨(h1 c hc).1, k', List.mem_cons_of_mem _ hk', hk''⟩
          · refine List.nodup_cons.2 ⟨fun hc => ?_, h2 (List.Pairwise.of_cons hk)⟩
            obtain ⟨k', hk', hk''⟩ := (h1 b hc).2
            exact (List.pairwise_cons.1 hk).1 k' hk' b hb ⟨hpe, hk''⟩

/-- `obj.n = v` -/
theorem good_setAttr (R : Relations env) {i : Nat} {nm : String} {v : Val} {w w' : World}
    (hw : WellLinked env w) (hs : SymBut env noTri w)
    (hv : ∀ g og, (w.cdef env i).field? nm = some g → Paired env g og → Fits env w g og v)
    (hk : ∀ g og ks, (w.cdef env i).localKey? nm = some g → Paired env g og → v = .list ks →
      KeysOnce env w (refsOf g (w.attr i g.name)) ks)
    (h : setAttr env i nm v w = (.ok (), w')) : Good env w w' := by
  unfold setAttr at h
  have h := get_bind_ok h
  cases hl : (w.cdef env i).localKey? nm with
  | none =>
    rw [hl] at h
    exact (good_setField R hw hs hv h).1
  | some f =>
    rw [hl] at h
    simp only at h
    unfold setLocalKey at h
    have h' := get_bind_ok h
    obtain ⟨hm, hst, rfl⟩ := localKey_mem hl
    have hf : HasField env w i f := R.uniq _ f hm
    split at h'
    · cases h'; exact Good.ofQR R hw hs (QR.refl _)
    · obtain ⟨u1, w1, h1, h2⟩ := bind_ok h'
      obtain ⟨u3, w3, h3, h4⟩ := bind_ok h2
      suffices hg : Good env w w1 by
        have q3 := (calm_markModified (env := env) i f.name).ok h3
        have hl3 : (w3.cdef env i).localKey? f.refName = some f := by
          rw [cdef_congr (fun j => (q3.1 j).trans (hg.cls j))]; exact hl
        have q4 : QR env w3 w' := by
          have : w' = (rawSet i f.refName v w3).2 := by rw [h4]
          rw [this]; exact qr_rawKey R hl3
        exact hg.trans (Good.ofQR R hg.fits hg.sym (q3.trans q4))
      have hraw : ∀ x w2, rawSet i f.refName x w = (.ok (), w2) → QR env w w2 := by
        intro x w2 hx
        have : w2 = (rawSet i f.refName x w).2 := by rw [hx]
        rw [this]; exact qr_rawKey R hl
      have hfield : ∀ x w2, QR env w w2 → (∀ og, Paired env f og → Fits env w f og x) →
          setField env i f.name x w2 = (.ok (), w1) → Good env w w1 := by
        intro x w2 q hx hrun
        refine (Good.ofQR R hw hs q).trans (good_setField R (q.wellLinked hw) (hs.qr R hw q) ?_ hrun).1
        intro g og hg hpg
        have : f = g := by
          rw [cdef_congr q.1] at hg
          exact Option.some.inj (hf.symm.trans hg)
        subst this
        exact (hx og hpg).congr q.1
      unfold setLocalKeyField at h1
      cases ht : f.ftype with
      | inst =>
        simp only [ht] at h1
        obtain ⟨u5, w5, h5, h6⟩ := bind_ok h1
        exact hfield _ _ (hraw _ _ h5) (fun og _ => fits_none w f og) h6
      | list =>
        simp only [ht] at h1
        cases v with
        | none =>
          simp only at h1
          obtain ⟨u5, w5, h5, h6⟩ := bind_ok h1
          exact hfield _ _ (hraw _ _ h5) (fun og _ => fits_list (bs := []) ht (by simp) (by simp)) h6
        | list ks =>
          simp only at h1
          obtain ⟨u5, w5, h5, h6⟩ := bind_ok h1
          obtain ⟨xs, w7, h7, h8⟩ := bind_ok h6
          have q5 := hraw _ _ h5
          have hw7 := (readW_ok h7).1
          have hxs := (readW_ok h7).2
          subst hw7
          refine hfield _ _ q5 (fun og hp => ?_) h8
          have hfit := hw i f og hf hp
          rw [q5.2 i f og hf hp] at hxs
          have hcur : ∃ bs : List Nat, refsOf f (w.attr i f.name) = bs ∧
              itemsForKeys env w7 (bs.map .obj) ks = .ok xs ∧ ∀ b ∈ bs, HasField env w b og := by
            rcases hfit.1 with h0 | ⟨ht', -⟩ | ⟨-, bs, h0, -⟩
            · rw [h0] at hxs ⊢; exact ⟨[], refsOf_none f, hxs, by simp⟩
            · rw [ht] at ht'; cases ht'
            · refine ⟨bs, by rw [h0, refsOf_list ht], by rw [h0] at hxs; exact hxs, fun b hb => hfit.2 b ?_⟩
              rw [h0, refsOf_list ht]; exact hb
          obtain ⟨bs, hbs, hit, hbf⟩ := hcur
          obtain ⟨cs, rfl, hc1, hc2⟩ := itemsForKeys_spec hit
          have hko := hk f og ks hl hp rfl
          rw [hbs] at hko
          have hid : ∀ b, w7.id env b = w.id env b := by
            intro b
            have hw7 : w7 = (rawSet i f.refName (.list ks) w).2 := by rw [h5]
            simp only [World.id, cdef_congr q5.1]
            cases hpr : (w.cdef env b).primary with
            | none => rfl
            | some n =>
              simp only
              rw [hw7, attr_rawSet, if_neg]
              rintro ⟨rfl, rfl⟩
              exact absurd (hl.symm.trans (R.prim _ _ hpr)) (by simp)
          refine fits_list ht (hc2 ?_) (fun c hc => hbf c (hc1 c hc).1)
          unfold KeysOnce at hko ⊢
          simpa only [hid] using hko
        | _ => cases h1
      | _ => simp only [ht] at h1; cases h1; exact Good.ofQR R hw hs (QR.refl _)

/-! ### Unlinking keeps references without an opposite -/

/-- Unlinking commands keep the reference of `i` to `x` when `x` does not refer back
(the reference being its own opposite aside), unless it is the one to be removed. -/
structure KSpec (env : Env) (i : Nat) (f of : Field) (x : Nat) (run : UCmd → Py World Unit) : Prop where
  unlink : ∀ k g og v w w', WellLinked env w → HasField env w k g → Paired env g og →
    (∀ y ∈ linkItems g v, ∃ j, y = .obj j ∧ HasField env w j og) → HasField env w i f → Refers w i f x →
    (Refers w x of i → x = i ∧ of = f) → ¬ (k = x ∧ g = of ∧ .obj i ∈ linkItems g v) → run (.unlink k g v) w = (.ok (), w') →
    Refers w' i f x
  del : ∀ k path v w w', WellLinked env w →
    (∀ g og, (w.cdef env k).field? path = some g → Paired env g og →
      g.ftype = .list ∧ ∃ j, v = .obj j ∧ HasField env w j og ∧ ¬ Refers w k g j) → HasField env w i f → Refers w i f x →
    (Refers w x of i → x = i ∧ of = f) → ¬ (k = x ∧ (w.cdef env k).field? path = some of ∧ v = .obj i) →
    run (.del k path v) w = (.ok (), w') → Refers w' i f x

theorem listRemoveAttr_split2 {run : UCmd → Py World Unit} {i j : Nat} {f of : Field} {w w' : World}
    (hw : WellLinked env w) (hf : HasField env w i f) (hp : Paired env f of)
    (h : listRemoveAttr env run i f.name (.obj j) w = (.ok (), w')) :
    ∃ w2, (∀ j, (w2.heap j).cls = (w.heap j).cls) ∧ WellLinked env w2 ∧ f.ftype = .list ∧ HasField env w2 j of ∧
      ¬ Refers w2 i f j ∧ Refers w i f j ∧
      (∀ a g og b, HasField env w a g → Paired env g og → ¬ (a = i ∧ g = f ∧ b = j) → (Refers w2 a g b ↔ Refers w a g b)) ∧
      run (.del i f.name (.obj j)) w2 = (.ok (), w') := by
  unfold listRemoveAttr at h
  have h := get_bind_ok h
  cases ha : w.attr i f.name with
  | list xs =>
    rw [ha] at h
    simp only at h
    obtain ⟨hl, bs, rfl, hnd, hb⟩ := (ha ▸ hw i f of hf hp).list
    obtain ⟨u, w1, h1, h⟩ := bind_ok h
    have q1 := (calm_willChange (env := env) false i f.name).ok h1
    cases hr : listRemove (.obj j) (bs.map .obj) with
    | none => rw [hr] at h; cases h
    | some ys =>
      rw [hr] at h
      simp only at h
      obtain ⟨hj, rfl⟩ := listRemove_objs hr
      obtain ⟨u2, w2, h2, h⟩ := bind_ok h
      have h2' : w2 = (rawSet i f.name (.list ((bs.erase j).map .obj)) w1).2 := by rw [h2]
      have hf1 : HasField env w1 i f := (HasField.congr q1.1).2 hf
      have hfit : Fits env w1 f of (.list ((bs.erase j).map .obj)) :=
        fits_list hl (hnd.erase j) (fun b hb' => (HasField.congr q1.1).2 (hb b (List.mem_of_mem_erase hb')))
      have hc : ∀ j, (w2.heap j).cls = (w.heap j).cls := fun k => by
        rw [h2', cls_rawSet]; exact q1.1 k
      have hri : ∀ b, Refers w i f b ↔ b ∈ bs := fun b => by unfold Refers; rw [ha, refsOf_list hl]
      refine ⟨w2, hc, ?_, hl, (HasField.congr hc).2 (hb j hj), ?_, (hri j).2 hj, ?_, h⟩
      · rw [h2']
        exact wellLinked_rawRel (q1.wellLinked hw) hf1 hp hfit
      · rw [h2', refers_rawSelf, refsOf_list hl]
        intro hm
        exact ((List.Nodup.mem_erase_iff hnd).1 hm).1 rfl
      · intro a g og b hg hpg hne
        rw [← q1.refers hg hpg, h2']
        by_cases hag : a = i ∧ g = f
        · obtain ⟨rfl, rfl⟩ := hag
          have hbj : b ≠ j := fun h => hne ⟨rfl, rfl, h⟩
          rw [refers_rawSelf, refsOf_list hl, q1.refers hf hpg, hri, List.mem_erase_of_ne hbj]
        · exact refers_rawRel hf1 ((HasField.congr q1.1).2 hg) hag
  | _ => rw [ha] at h; cases h

/-- removing an item from a relation list -/
theorem keep_listRemoveAttr (R : Relations env) {i x : Nat} {f of : Field} {run : UCmd → Py World Unit}
    (ih : KSpec env i f of x run) (hp : Paired env f of) {k j : Nat} {g og : Field} {w w' : World}
    (hw : WellLinked env w) (hk : HasField env w k g) (hpg : Paired env g og) (hf : HasField env w i f)
    (hr : Refers w i f x) (hn : (Refers w x of i → x = i ∧ of = f)) (hne : ¬ (k = i ∧ g = f ∧ j = x))
    (h : listRemoveAttr env run k g.name (.obj j) w = (.ok (), w')) : Refers w' i f x := by
  have hpo := (R.opp f of hp).1
  obtain ⟨w2, hc, hw2, hl, hj2, hn2, hkj, hiff, h2⟩ := listRemoveAttr_split2 hw hk hpg h
  have hx : HasField env w x of := (hw i f of hf hp).2 x hr
  have hr2 : Refers w2 i f x := (hiff i f of x hf hp (fun ⟨a, b, c⟩ => hne ⟨a.symm, b.symm, c.symm⟩)).2 hr
  have hnx : ¬ (x = k ∧ of = g ∧ i = j) := by
    rintro ⟨rfl, rfl, rfl⟩
    obtain ⟨h1, h2⟩ := hn hkj
    exact hne ⟨h1, h2, h1.symm⟩
  refine ih.del k g.name (.obj j) w2 w' hw2 ?_ ((HasField.congr hc).2 hf) hr2 ?_ ?_ h2
  · intro g' og' hg' hpg'
    have : g = g' := by
      rw [cdef_congr hc] at hg'; exact Option.some.inj (hk.symm.trans hg')
    subst this
    have := hpg.opp_eq hpg'
    subst this
    exact ⟨hl, j, rfl, hj2, hn2⟩
  · rw [hiff x of f i hx hpo hnx]; exact hn
  · rintro ⟨rfl, hg', hv⟩
    have : g = of := by
      rw [cdef_congr hc] at hg'; exact Option.some.inj (hk.symm.trans hg')
    cases hv
    exact hnx ⟨rfl, this.symm, rfl⟩

/-- removing an item from any other list -/
theorem keep_listRemoveAttr' {i x : Nat} {f of : Field} {run : UCmd → Py World Unit} (R : Relations env)
    (ih : KSpec env i f of x run) (hp : Paired env f of) {k : Nat} {n : String} {v : Val} {w w' : World} (hw : WellLinked env w)
    (hnp : ∀ g og, (w.cdef env k).field? n = some g → ¬ Paired env g og) (hf : HasField env w i f)
    (hr : Refers w i f x) (hn : (Refers w x of i → x = i ∧ of = f))
    (h : listRemoveAttr env run k n v w = (.ok (), w')) : Refers w' i f x := by
  have hpo := (R.opp f of hp).1
  have hx : HasField env w x of := (hw i f of hf hp).2 x hr
  unfold listRemoveAttr at h
  have h := get_bind_ok h
  cases ha : w.attr k n with
  | list xs =>
    rw [ha] at h
    simp only at h
    obtain ⟨u, w1, h1, h⟩ := bind_ok h
    have q1 := (calm_willChange (env := env) false k n).ok h1
    cases hrm : listRemove v xs with
    | none => rw [hrm] at h; cases h
    | some ys =>
      rw [hrm] at h
      simp only at h
      obtain ⟨u2, w2, h2, h⟩ := bind_ok h
      have q2 : QR env w1 w2 := by
        have : w2 = (rawSet k n (.list ys) w1).2 := by rw [h2]
        rw [this]
        exact qr_rawSet (fun g og hg => hnp g og (by rw [← cdef_congr q1.1]; exact hg))
      have q := q1.trans q2
      refine ih.del k n v w2 w' (q.wellLinked hw) (fun g og hg hpg =>
        absurd hpg (hnp g og (by rw [← cdef_congr q.1]; exact hg))) ((HasField.congr q.1).2 hf)
        ((q.refers hf hp).2 hr) (fun hc => hn ((q.refers hx hpo).1 hc)) ?_ h
      rintro ⟨rfl, hg, -⟩
      exact hnp of f (by rw [← cdef_congr q.1]; exact hg) hpo
  | _ => rw [ha] at h; cases h

theorem kspec (R : Relations env) {i x : Nat} {f of : Field} (hp : Paired env f of) (hst : f.store ≠ .localKey) (n : Nat) :
    KSpec env i f of x (runU env n) := by
  have hpo := (R.opp f of hp).1
  induction n with
  | zero => exact ⟨fun _ _ _ _ _ _ _ _ _ _ _ _ _ _ h => (by cases h), fun _ _ _ _ _ _ _ _ _ _ _ h => (by cases h)⟩
  | succ n ih =>
    refine ⟨?_, ?_⟩
    · intro k g og v w w' hw hk hpg hi hf hr hn hne h
      simp only [runU, unlinkBody, hpg.2.2] at h
      generalize linkItems g v = items at hi hne h
      induction items generalizing w with
      | nil => cases h; exact hr
      | cons y ys ihy =>
        unfold forItems at h
        obtain ⟨u, w2, h12, h3⟩ := bind_ok h
        obtain ⟨u1, w1, h1, h2⟩ := bind_ok h12
        obtain ⟨j, rfl, hj⟩ := hi y (by simp)
        have q := (calm_addUnlinked (env := env) k g.name (.obj j)).ok h1
        have hw1 := q.wellLinked hw
        have hj1 : HasField env w1 j og := (HasField.congr q.1).2 hj
        have hf1 : HasField env w1 i f := (HasField.congr q.1).2 hf
        have hx : HasField env w x of := (hw i f of hf hp).2 x hr
        have hr1 := (q.refers hf hp).2 hr
        have hn1 : (Refers w1 x of i → x = i ∧ of = f) := fun hc => hn ((q.refers hx hpo).1 hc)
        obtain ⟨r, -⟩ := rem_unlinkOther R (uspec R n) hw1 hpg hj1 h2
        have hpgo := (R.opp g og hpg).1
        have hjk : ¬ (j = i ∧ og = f ∧ k = x) := by
          rintro ⟨rfl, rfl, rfl⟩
          exact hne ⟨rfl, hp.opp_eq hpgo, by simp⟩
        have hr2 : Refers w2 i f x := by
          unfold unlinkOther at h2
          have h2 := get_bind_ok h2
          rcases (R.opp og g hpgo).2 with ht | ht
          · simp only [ht] at h2
            split at h2
            · rename_i he
              have he := pyEq_obj_iff.1 he
              obtain ⟨u4, w4, h4, h5⟩ := bind_ok h2
              obtain ⟨u6, w6, h6, h7⟩ := bind_ok h5
              have hw4 : w4 = (rawSet j og.name .none w1).2 := by rw [h4]
              have hc4 : ∀ j, (w4.heap j).cls = (w1.heap j).cls := fun l => by rw [hw4]; exact cls_rawSet _ _ _ w1 l
              have q6 := (qr_unlinkKey R ((HasField.congr hc4).2 hj1) h6).trans
                ((calm_addUnlinked (env := env) j og.name (.obj k)).ok h7)
              rw [q6.refers ((HasField.congr hc4).2 hf1) hp, hw4]
              refine (refers_rawRel hj1 hf1 ?_).2 hr1
              rintro ⟨rfl, rfl⟩
              have : x = k := by
                have hr1' := hr1
                unfold Refers at hr1'
                rw [he, refsOf_inst ht] at hr1'
                exact List.mem_singleton.1 hr1'
              exact hjk ⟨rfl, rfl, this.symm⟩
            · cases h2; exact hr1
          · simp only [ht] at h2
            cases ha : w1.attr j og.name with
            | list xs =>
              rw [ha] at h2
              simp only at h2
              split at h2
              · obtain ⟨u4, w4, h4, h5⟩ := bind_ok h2
                have hr4 := keep_listRemoveAttr R ih hp hw1 hj1 hpgo hf1 hr1 hn1 hjk h4
                have q5 := (calm_addUnlinked (env := env) j og.name (.obj k)).ok h5
                have r4 := (rem_listRemoveAttr R (uspec R n) hw1 hj1 hpgo h4).1
                exact (q5.refers ((HasField.congr r4.cls).2 hf1) hp).2 hr4
              · cases h2; exact hr1
            | _ => rw [ha] at h2; cases h2; exact hr1
        have hc2 : ∀ j, (w2.heap j).cls = (w.heap j).cls := fun l => (r.cls l).trans (q.1 l)
        refine ihy w2 r.fits ((HasField.congr hc2).2 hk) ((HasField.congr hc2).2 hf) hr2
          (fun hc => hn1 (r.sub x of f i ((HasField.congr q.1).2 hx) hpo hc)) (fun y hy => ?_)
          (fun hc => hne ⟨hc.1, hc.2.1, by simp [hc.2.2]⟩) h3
        obtain ⟨l, hl, hl'⟩ := hi y (by simp [hy])
        exact ⟨l, hl, (HasField.congr hc2).2 hl'⟩
    · intro k path v w w' hw hpre hf hr hn hne h
      have hx : HasField env w x of := (hw i f of hf hp).2 x hr
      simp only [runU] at h
      unfold delBody at h
      have h := get_bind_ok h
      cases hl : (w.cdef env k).localKey? path with
      | some g =>
        rw [hl] at h
        simp only at h
        obtain ⟨hm, hgst, -⟩ := localKey_mem hl
        unfold delLocal at h
        obtain ⟨u, w1, h1, h⟩ := bind_ok h
        have q := (calm_markLocalKey (env := env) k g).ok h1
        have hw1 := q.wellLinked hw
        have hf1 : HasField env w1 i f := (HasField.congr q.1).2 hf
        have hr1 := (q.refers hf hp).2 hr
        have hn1 : (Refers w1 x of i → x = i ∧ of = f) := fun hc => hn ((q.refers hx hpo).1 hc)
        have hg1 : HasField env w1 k g := by
          unfold HasField; rw [cdef_congr q.1]; exact R.uniq _ g hm
        have h' := get_bind_ok h
        cases ha : w1.attr k g.name with
        | list xs =>
          rw [ha] at h'
          simp only at h'
          obtain ⟨m, w2, h2, h3⟩ := bind_ok h'
          have : w2 = w1 := (readW_ok h2).1
          subst this
          split at h3
          · obtain ⟨m', w3, h4, h5⟩ := bind_ok h3
            have hm' := (readW_ok h4).2
            have hw3 : w3 = w2 := (readW_ok h4).1
            subst hw3
            cases m' with
            | none => cases h5; exact hr1
            | some y =>
              simp only at h5
              by_cases hpg : ∃ og, Paired env g og
              · obtain ⟨og, hpg⟩ := hpg
                obtain ⟨-, bs, rfl, -, -⟩ := (ha ▸ hw1 k g og hg1 hpg).list
                obtain ⟨j, -, rfl⟩ := List.mem_map.1 (findById_mem hm')
                exact keep_listRemoveAttr R ih hp hw1 hg1 hpg hf1 hr1 hn1
                  (fun hc => hst (hc.2.1 ▸ hgst)) h5
              · refine keep_listRemoveAttr' R ih hp hw1 (fun g' og hg hpg' => hpg ⟨og, ?_⟩) hf1 hr1 hn1 h5
                rw [show g = g' from Option.some.inj (hg1.symm.trans hg)]; exact hpg'
          · cases h3; exact hr1
        | _ => rw [ha] at h'; cases h'; exact hr1
      | none =>
        rw [hl] at h
        simp only at h
        obtain ⟨u, w1, h1, h2⟩ := bind_ok h
        have q2 := (calm_markModified (env := env) k path).ok h2
        suffices hs : (∀ j, (w1.heap j).cls = (w.heap j).cls) ∧ Refers w1 i f x from
          (q2.refers ((HasField.congr hs.1).2 hf) hp).2 hs.2
        unfold delRef at h1
        cases hg : (w.cdef env k).field? path with
        | none => rw [hg] at h1; cases h1; exact ⟨fun _ => rfl, hr⟩
        | some g =>
          rw [hg] at h1
          simp only at h1
          have hgk := field?_self hg
          split at h1
          · rename_i href
            obtain ⟨u1, w2, h3, h4⟩ := bind_ok h1
            -- the key part
            have hkey : ∀ (hw2 : WellLinked env w2) (hc2 : ∀ j, (w2.heap j).cls = (w.heap j).cls),
                Refers w2 i f x → (Refers w2 x of i → x = i ∧ of = f) → (∀ j, (w1.heap j).cls = (w.heap j).cls) ∧ Refers w1 i f x := by
              intro hw2 hc2 hr2 hn2
              have r := rem_delKey R (uspec R n) hw2 ((HasField.congr hc2).2 hgk) h4
              refine ⟨fun j => (r.cls j).trans (hc2 j), ?_⟩
              unfold delKey at h4
              split at h4
              · rename_i hgs
                have h4 := get_bind_ok h4
                cases ha : w2.attr k g.refName with
                | list ks =>
                  rw [ha] at h4
                  simp only at h4
                  obtain ⟨m, w5, h5, h6⟩ := bind_ok h4
                  have hw5 : w5 = w2 := (readW_ok h5).1
                  subst hw5
                  split at h6
                  · obtain ⟨key, w7, h7, h8⟩ := bind_ok h6
                    have hw7 : w7 = w5 := (readW_ok h7).1
                    subst hw7
                    split at h8
                    · obtain ⟨g', hg'⟩ := refName_localKey (w := w7) (a := k) ((HasField.congr hc2).2 hgk).mem hgs
                      exact keep_listRemoveAttr' R ih hp hw2 (fun g'' og hg'' _ => R.keys _ _ _ _ hg' hg'')
                        ((HasField.congr hc2).2 hf) hr2 hn2 h8
                    · cases h8; exact hr2
                  · cases h6; exact hr2
                | _ => rw [ha] at h4; cases h4
              · cases h4; exact hr2
            cases hof : env.foreignField g with
            | none =>
              have q := (uspec R n).other _ _ _ _ _ hof h3
              exact hkey (q.wellLinked hw) q.1 ((q.refers hf hp).2 hr) (fun hc => hn ((q.refers hx hpo).1 hc))
            | some og =>
              have hpg : Paired env g og := ⟨⟨_, hgk.mem⟩, href, hof⟩
              obtain ⟨hl', j, rfl, hj, hnr⟩ := hpre g og hg hpg
              have hli : linkItems g (.list [.obj j]) = [.obj j] := by simp only [linkItems, hl']
              have hit : ∀ y ∈ linkItems g (.list [.obj j]), ∃ j', y = .obj j' ∧ HasField env w j' og := by
                rw [hli]; intro y hy; exact ⟨j, List.mem_singleton.1 hy, hj⟩
              obtain ⟨r, -⟩ := (uspec R n).unlink k g og _ w w2 hw hgk hpg hit h3
              have hr2 := ih.unlink k g og _ w w2 hw hgk hpg hit hf hr hn (by
                rw [hli]
                rintro ⟨rfl, rfl, hm⟩
                have hij : i = j := by simpa using hm
                subst hij
                exact hne ⟨rfl, hg, rfl⟩) h3
              exact hkey r.fits r.cls hr2 (fun hc => hn (r.sub x of f i hx hpo hc))
          · cases h1; exact ⟨fun _ => rfl, hr⟩

/-! ### List operations -/

/-- the items an operation puts into a list -/
def LOp.newItems : LOp Val → List Val
  | .append v => [v]
  | .extend (.seq vs) => vs
  | .insert _ v => [v]
  | .iadd (.seq vs) => vs
  | .setIdx _ v => [v]
  | .setSlice _ (.seq vs) => vs
  | _ => []

/-- item and slice assignment -/
def LOp.Replaces : LOp Val → Prop
  | .setIdx _ _ => True
  | .setSlice _ _ => True
  | _ => False

/-- `l *= n` for `n > 1` -/
def LOp.Repeats : LOp Val → Prop
  | .imul n => 1 < n
  | _ => False

/-- the reports other than announcements -/
def told (l : List (LEv Val)) : List (LEv Val) := l.filter (fun e => !e.isWill)

@[simp] theorem told_nil : told [] = [] := rfl
@[simp] theorem told_will (l : List (LEv Val)) : told (.will :: l) = told l := rfl
@[simp] theorem told_append (a b : List (LEv Val)) : told (a ++ b) = told a ++ told b := List.filter_append ..
@[simp] theorem told_if (P : Prop) [Decidable P] : told (if P then [LEv.will] else []) = [] := by split <;> rfl
@[simp] theorem told_dels (ds : List Val) : told (dels ds) = dels ds := by
  induction ds with
  | nil => rfl
  | cons d ds ih => exact congrArg (LEv.del d :: ·) ih
@[simp] theorem told_addsFrom (s k : Int) (vs : List Val) : told (addsFrom s k vs) = addsFrom s k vs := by
  induction vs generalizing k with
  | nil => rfl
  | cons v vs ih => exact congrArg (LEv.add k v :: ·) (ih _)

/-- what a list reports after a change: removals, then additions -/
def Shape (op : LOp Val) (xs : List Val) (r : LRes Val) : Prop :=
  ∃ ds es, told r.log = dels ds ++ es ∧
    (∀ e ∈ es, (∃ k v, e = .add k v) ∨ e = .sor) ∧ removed r.log = ds ∧ added r.log = added es ∧
    (∀ d ∈ ds, d ∈ xs) ∧ (r.exc = none → ¬ op.Repeats → added es = op.newItems) ∧
    (ds ≠ [] → op.newItems ≠ [] → op.Replaces)

theorem addsFrom_only (s k : Int) (vs : List Val) : ∀ e ∈ addsFrom s k vs, (∃ k v, e = .add k v) ∨ e = .sor := by
  induction vs generalizing k with
  | nil => simp [addsFrom]
  | cons v vs ih =>
    intro e he
    simp only [addsFrom, List.mem_cons] at he
    rcases he with rfl | he
    · exact .inl ⟨_, _, rfl⟩
    · exact ih _ e he

theorem getIdxs_mem {xs : List Val} {is : List Nat} {d : Val} (h : d ∈ getIdxs xs is) : d ∈ xs := by
  unfold getIdxs at h
  obtain ⟨k, -, hk⟩ := List.mem_filterMap.1 h
  exact List.mem_of_getElem? hk

theorem shape_of {op : LOp Val} {xs : List Val} {r : LRes Val} (ds : List Val) (es : List (LEv Val))
    (hl : told r.log = dels ds ++ es)
    (he : ∀ e ∈ es, (∃ k v, e = .add k v) ∨ e = .sor) (hr : removed r.log = ds) (ha : added r.log = added es)
    (hd : ∀ d ∈ ds, d ∈ xs) (hn : r.exc = none → ¬ op.Repeats → added es = op.newItems)
    (hm : ds ≠ [] → op.newItems ≠ [] → op.Replaces) : Shape op xs r :=
  ⟨ds, es, hl, he, hr, ha, hd, hn, hm⟩

theorem shape_extend (vs xs : List Val) {op : LOp Val} (hop : op.newItems = vs) : Shape op xs (ownedExtend (.seq vs) xs) := by
  refine shape_of [] (addsFrom 1 xs.length vs) ?_ (addsFrom_only _ _ _) ?_ ?_ (by simp) (fun _ _ => by simp [hop]) (by simp)
  · simp [ownedExtend, ItArg.items, ItArg.again, dels]
  · simp [ownedExtend, ItArg.items, ItArg.again]
  · simp [ownedExtend, ItArg.items, ItArg.again]

theorem pyRemove_mem {eqv : Val → Val → Bool} (hE : ∀ a b, eqv a b = true → a = b) {v : Val} {xs ys : List Val}
    (h : pyRemove eqv v xs = some ys) : v ∈ xs := by
  induction xs generalizing ys with
  | nil => cases h
  | cons x xs ih =>
    unfold pyRemove at h
    split at h
    · rename_i he
      rw [hE x v he]; simp
    · cases hr : pyRemove eqv v xs with
      | none => rw [hr] at h; cases h
      | some zs => exact List.mem_cons_of_mem _ (ih hr)

theorem shape_notified {op : LOp Val} {xs : List Val} (r : Except Exc (List Val)) (ds : List Val) (es : List (LEv Val))
    (evs : List Val → List (LEv Val)) (hev : ∀ ys, r = .ok ys → evs ys = dels ds ++ es)
    (hes : told es = es)
    (he : ∀ e ∈ es, (∃ k v, e = .add k v) ∨ e = .sor)
    (hre : removed es = [])
    (hd : (∃ ys, r = .ok ys) → ∀ d ∈ ds, d ∈ xs) (hn : added es = op.newItems)
    (hm : ds ≠ [] → op.newItems ≠ [] → op.Replaces) : Shape op xs (notified xs r evs) := by
  cases r with
  | error e =>
    refine shape_of [] [] rfl (by simp) rfl rfl (by simp) (fun h => ?_) (by simp)
    cases h
  | ok ys =>
    have := hev ys rfl
    refine shape_of ds es ?_ he ?_ ?_ (hd ⟨ys, rfl⟩) (fun _ _ => hn) hm
    · simp [notified, this, hes]
    · simp only [notified, this, removed_will, removed_append, removed_dels, hre, List.append_nil]
    · simp only [notified, this, added_will, added_append, added_dels, List.nil_append]

theorem op_shape {eqv : Val → Val → Bool} (hE : ∀ a b, eqv a b = true → a = b) (op : LOp Val) (hp : op.Plain)
    (xs : List Val) : Shape op xs (ownedOp eqv op xs) := by
  have hsor : ∀ e ∈ [LEv.sor (α := Val)], (∃ k v, e = .add k v) ∨ e = .sor := by
    intro e he; exact .inr (List.mem_singleton.1 he)
  have hadd : ∀ k v, ∀ e ∈ [LEv.add (α := Val) k v], (∃ k v, e = .add k v) ∨ e = .sor := by
    intro k v e he; exact .inl ⟨k, v, List.mem_singleton.1 he⟩
  cases op with
  | append v => exact shape_of [] [.add xs.length v] rfl (hadd _ _) rfl rfl (by simp) (fun _ _ => rfl) (by simp)
  | extend a =>
    cases a with
    | seq vs => exact shape_extend vs xs rfl
    | _ => exact hp.elim
  | insert k v => exact shape_of [] [.add (min xs.length k) v] rfl (hadd _ _) rfl rfl (by simp) (fun _ _ => rfl) (by simp)
  | remove v =>
    refine shape_notified _ [v] [] _ (fun _ _ => rfl) rfl (by simp) rfl ?_ rfl (by simp [LOp.newItems])
    rintro ⟨ys, hy⟩ d hd
    cases List.mem_singleton.1 hd
    cases hr : pyRemove eqv v xs with
    | none => rw [hr] at hy; cases hy
    | some zs => exact pyRemove_mem hE hr
  | sort f e =>
    cases e with
    | none => exact shape_of [] [.sor] rfl hsor rfl rfl (by simp) (fun _ _ => rfl) (by simp)
    | some e => exact shape_of [] [] rfl (by simp) rfl rfl (by simp) (fun h => by cases h) (by simp)
  | clear =>
    refine shape_of xs [] ?_ (by simp) ?_ ?_ (fun _ h => h) (fun _ _ => rfl) (by simp [LOp.newItems])
    · simp [ownedOp]
    · simp [ownedOp]
    · simp [ownedOp]
  | pop k =>
    exact shape_notified _ _ [] _ (fun _ _ => (List.append_nil _).symm) rfl (by simp) rfl
      (fun _ d hd => getIdxs_mem hd) rfl (by simp [LOp.newItems])
  | reverse => exact shape_of [] [.sor] rfl hsor rfl rfl (by simp) (fun _ _ => rfl) (by simp)
  | iadd a =>
    cases a with
    | seq vs => exact shape_extend vs xs rfl
    | _ => exact hp.elim
  | imul n =>
    refine shape_of (if n ≤ 0 then xs else [])
      (addsFrom 1 (if n ≤ 1 then 0 else xs.length) (if n ≤ 1 then [] else pyTimes xs (n - 1))) ?_ (addsFrom_only _ _ _) ?_ ?_ ?_ ?_ ?_
    · simp [ownedOp]
    · simp [ownedOp]
    · simp [ownedOp]
    · intro d hd
      split at hd
      · exact hd
      · cases hd
    · intro _ hr
      have : n ≤ 1 := by simpa [LOp.Repeats] using hr
      simp [this, LOp.newItems]
    · simp [LOp.newItems]
  | setIdx k v =>
    exact shape_notified _ _ [_] _ (fun _ _ => rfl) rfl (hadd _ _) rfl
      (fun _ d hd => getIdxs_mem hd) rfl (fun _ _ => trivial)
  | setSlice sl a =>
    cases a with
    | seq vs =>
      simp only [ownedOp]
      split
      · exact shape_of [] [] rfl (by simp) rfl rfl (by simp) (fun h => by cases h) (by simp)
      · exact shape_notified _ _ _ _ (fun _ _ => rfl) (told_addsFrom _ _ _) (addsFrom_only _ _ _) (by simp)
          (fun _ d hd => getIdxs_mem hd) (by simp [LOp.newItems]) (fun _ _ => trivial)
    | _ => exact hp.elim
  | delIdx k =>
    exact shape_notified _ _ [] _ (fun _ _ => (List.append_nil _).symm) rfl (by simp) rfl
      (fun _ d hd => getIdxs_mem hd) rfl (by simp [LOp.newItems])
  | delSlice sl =>
    simp only [ownedOp]
    split
    · exact shape_of [] [] rfl (by simp) rfl rfl (by simp) (fun h => by cases h) (by simp)
    · exact shape_notified _ _ [] _ (fun _ _ => (List.append_nil _).symm) rfl (by simp) rfl
        (fun _ d hd => getIdxs_mem hd) rfl (by simp [LOp.newItems])

theorem forEvs_append {ε : Type} (f : ε → Py World Unit) (a b : List ε) {w w' : World}
    (h : forEvs f (a ++ b) w = (.ok (), w')) :
    ∃ w1, forEvs f a w = (.ok (), w1) ∧ forEvs f b w1 = (.ok (), w') := by
  induction a generalizing w with
  | nil => exact ⟨w, rfl, h⟩
  | cons x xs ih =>
    simp only [List.cons_append, forEvs] at h
    obtain ⟨u, w1, h1, h2⟩ := bind_ok h
    obtain ⟨w2, h3, h4⟩ := ih h2
    refine ⟨w2, ?_, h4⟩
    simp only [forEvs]
    rw [Py.bind_run, h1]
    exact h3

theorem qr_evs {ε : Type} {f : ε → Py World Unit} {es : List ε} (hf : ∀ e ∈ es, Calm env (f e)) {w w' : World}
    (h : forEvs f es w = (.ok (), w')) : QR env w w' := by
  induction es generalizing w with
  | nil => cases h; exact QR.refl _
  | cons e es ih =>
    simp only [forEvs] at h
    obtain ⟨u, w1, h1, h2⟩ := bind_ok h
    exact ((hf e (by simp)).ok h1).trans (ih (fun e he => hf e (by simp [he])) h2)

theorem good_evs {ε : Type} {f : ε → Py World Unit} {es : List ε} (C : World → Prop)
    (hC : ∀ w w', C w → Good env w w' → C w')
    (hf : ∀ e ∈ es, ∀ w w', C w → WellLinked env w → SymBut env noTri w → f e w = (.ok (), w') → Good env w w')
    {w w' : World} (hc : C w) (hw : WellLinked env w) (hs : SymBut env noTri w) (h : forEvs f es w = (.ok (), w')) :
    Good env w w' := by
  induction es generalizing w with
  | nil => cases h; exact ⟨fun _ => rfl, hw, hs⟩
  | cons e es ih =>
    simp only [forEvs] at h
    obtain ⟨u, w1, h1, h2⟩ := bind_ok h
    have g := hf e (by simp) w w1 hc hw hs h1
    exact g.trans (ih (fun e he => hf e (by simp [he])) (hC w w1 hc g) g.fits g.sym h2)

/-- removals reported by a relation list -/
theorem del_phase (R : Relations env) {i : Nat} {f of : Field} (hp : Paired env f of) (hl : f.ftype = .list)
    {B : Tri} {S : List Nat} {ds : List Val} {w w' : World} (hw : WellLinked env w) (hf : HasField env w i f)
    (hs : SymBut env (fun a g c => B a g c ∨ (g = of ∧ c = i ∧ .obj a ∈ ds)) w)
    (hd : ∀ d ∈ ds, ∃ j, d = .obj j ∧ HasField env w j of ∧ ¬ Refers w i f j)
    (hS : ∀ x ∈ S, Refers w i f x ∧ (Refers w x of i → x = i ∧ of = f)) (hst : ds ≠ [] → S ≠ [] → f.store ≠ .localKey)
    (h : forEvs (ownerLEv env i f.name) (dels ds) w = (.ok (), w')) :
    (∀ j, (w'.heap j).cls = (w.heap j).cls) ∧ WellLinked env w' ∧ SymBut env B w' ∧ ∀ x ∈ S, Refers w' i f x := by
  have hpo := (R.opp f of hp).1
  induction ds generalizing w with
  | nil =>
    cases h
    exact ⟨fun _ => rfl, hw, hs.mono (fun a g c hc => hc.elim id (fun h => by cases h.2.2)), fun x hx => (hS x hx).1⟩
  | cons d ds ih =>
    simp only [dels, List.map_cons, forEvs] at h
    obtain ⟨u, w1, h1, h2⟩ := bind_ok h
    obtain ⟨j, rfl, hj, hnj⟩ := hd d (by simp)
    have h1 : runU env env.fuel (.del i f.name (.obj j)) w = (.ok (), w1) := h1
    have hpre : ∀ g og, (w.cdef env i).field? f.name = some g → Paired env g og →
        g.ftype = .list ∧ ∃ k, Val.obj j = .obj k ∧ HasField env w k og ∧ ¬ Refers w i g k := by
      intro g og hg hpg
      have : f = g := Option.some.inj (hf.symm.trans hg)
      subst this
      have := hp.opp_eq hpg
      subst this
      exact ⟨hl, j, rfl, hj, hnj⟩
    obtain ⟨r, hn⟩ := (uspec R env.fuel).del i f.name (.obj j) w w1 hw hpre h1
    have hnj1 := hn f of j hf hp rfl
    have hs1 : SymBut env (fun a g c => B a g c ∨ (g = of ∧ c = i ∧ .obj a ∈ ds)) w1 := by
      refine (hs.rem0 R hw r).drop ?_
      rintro a g og c - - (hc | ⟨rfl, rfl, hc⟩) hre
      · exact .inr (.inl hc)
      · rcases List.mem_cons.1 hc with hc | hc
        · cases hc; exact absurd hre hnj1
        · exact .inr (.inr ⟨rfl, rfl, hc⟩)
    obtain ⟨c2, a2, b2, d2⟩ := ih r.fits ((HasField.congr r.cls).2 hf) hs1 (fun d hd' => by
        obtain ⟨k, hk, hk1, hk2⟩ := hd d (by simp [hd'])
        exact ⟨k, hk, (HasField.congr r.cls).2 hk1, fun hc => hk2 (r.sub i f of k hf hp hc)⟩)
      (fun x hx => by
        obtain ⟨hx1, hx2⟩ := hS x hx
        refine ⟨?_, fun hc => hx2 (r.sub x of f i ((hw i f of hf hp).2 x hx1) hpo hc)⟩
        refine (kspec R hp (hst (by simp) (by rintro rfl; cases hx)) env.fuel).del i f.name (.obj j) w w1 hw hpre hf hx1 hx2 ?_ h1
        rintro ⟨rfl, hfo, hv⟩
        cases hv
        exact hnj hx1)
      (fun _ hne => hst (by simp) hne) h2
    exact ⟨fun k => (c2 k).trans (r.cls k), a2, b2, d2⟩

/-- additions reported by a relation list -/
theorem add_phase (R : Relations env) {i : Nat} {f of : Field} (hp : Paired env f of) (hl : f.ftype = .list)
    {es : List (LEv Val)} (he : ∀ e ∈ es, (∃ k v, e = .add k v) ∨ e = .sor) {w w' : World} (hw : WellLinked env w)
    (hf : HasField env w i f) (hs : SymBut env (fun a g c => a = i ∧ g = f ∧ .obj c ∈ added es) w)
    (hd : ∀ d ∈ added es, ∃ b, d = .obj b ∧ HasField env w b of ∧ Refers w i f b)
    (h : forEvs (ownerLEv env i f.name) es w = (.ok (), w')) : Good env w w' := by
  induction es generalizing w with
  | nil => cases h; exact ⟨fun _ => rfl, hw, hs.mono (fun a g c hc => by cases hc.2.2)⟩
  | cons e es ih =>
    simp only [forEvs] at h
    obtain ⟨u, w1, h1, h2⟩ := bind_ok h
    rcases he e (by simp) with ⟨k, v, rfl⟩ | rfl
    · obtain ⟨b, rfl, hb, hr⟩ := hd v (by simp)
      have hL : Linked env (fun a g c => a = i ∧ g = f ∧ .obj c ∈ added es) i f w w1 := by
        have h1 : runL env env.fuel (.add i f.name k (.obj b)) w = (.ok (), w1) := h1
        cases hfu : env.fuel with
        | zero => rw [hfu] at h1; cases h1
        | succ n =>
          rw [hfu] at h1
          simp only [runL] at h1
          unfold addBody at h1
          have h1 := get_bind_ok h1
          rw [R.noKey hf] at h1
          simp only at h1
          obtain ⟨u7, w7, h7, h8⟩ := bind_ok h1
          have q8 := (calm_markModified (env := env) i f.name).ok h8
          unfold addRef at h7
          have hff : (w.cdef env i).field? f.name = some f := hf
          rw [hff] at h7
          simp only [hp.2.1, if_true] at h7
          obtain ⟨u9, w9, h9, h10⟩ := bind_ok h7
          have hl9 := linked_link R (bs := [b]) hw hs hf hp (by simp only [linkItems, hl]; rfl) (by
            intro c hc; cases List.mem_singleton.1 hc; exact ⟨hb, hr⟩) h9
          have hl9' : Linked env (fun a g c => a = i ∧ g = f ∧ .obj c ∈ added es) i f w w9 := by
            refine ⟨hl9.cls, hl9.fits, hl9.sym.mono ?_, hl9.same⟩
            rintro a g c ⟨⟨rfl, rfl, hc⟩, hn⟩
            rw [added_add] at hc
            rcases List.mem_cons.1 hc with hc | hc
            · cases hc; exact absurd ⟨rfl, rfl, by simp⟩ hn
            · exact ⟨rfl, rfl, hc⟩
          have hf9 : HasField env w9 i f := (HasField.congr hl9.cls).2 hf
          have q10 := qr_addKey R hf9 h10
          exact hl9'.trans (Linked.ofQR R hl9'.fits hl9'.sym hf9 hp (q10.trans q8))
      have g := ih (fun e h' => he e (by simp [h'])) hL.fits ((HasField.congr hL.cls).2 hf) hL.sym (fun d hd' => by
        obtain ⟨c, hc, hc1, hc2⟩ := hd d (by simp [hd'])
        exact ⟨c, hc, (HasField.congr hL.cls).2 hc1, hL.refers.2 hc2⟩) h2
      exact ⟨fun j => (g.cls j).trans (hL.cls j), g.fits, g.sym⟩
    · have q := (calm_markModified (env := env) i f.name).ok h1
      have g := ih (fun e h' => he e (by simp [h'])) (q.wellLinked hw) ((HasField.congr q.1).2 hf) (hs.qr R hw q) (fun d hd' => by
        obtain ⟨c, hc, hc1, hc2⟩ := hd d (by simpa using hd')
        exact ⟨c, hc, (HasField.congr q.1).2 hc1, (q.refers hf hp).2 hc2⟩) h2
      exact ⟨fun j => (g.cls j).trans (q.1 j), g.fits, g.sym⟩

/-- additions to any other list -/
theorem good_add_other (R : Relations env) {n : Nat} {i : Nat} {path : String} {k : Int} {v : Val} {w w' : World}
    (hnp : ∀ g og, (w.cdef env i).field? path = some g → ¬ Paired env g og) (hw : WellLinked env w) (hs : SymBut env noTri w)
    (h : runL env n (.add i path k v) w = (.ok (), w')) : Good env w w' := by
  induction n generalizing w with
  | zero => cases h
  | succ n ih =>
    simp only [runL] at h
    unfold addBody at h
    have h := get_bind_ok h
    cases hlk : (w.cdef env i).localKey? path with
    | some f =>
      rw [hlk] at h
      exact Good.ofQR R hw hs ((calm_markLocalKey (env := env) i f).ok h)
    | none =>
      rw [hlk] at h
      simp only at h
      obtain ⟨u1, w1, h1, h2⟩ := bind_ok h
      have q1 : QR env w w1 := by
        unfold addRef at h1
        cases hf : (w.cdef env i).field? path with
        | none => rw [hf] at h1; cases h1; exact QR.refl _
        | some f =>
          rw [hf] at h1
          simp only at h1
          split at h1
          · rename_i href
            obtain ⟨u3, w3, h3, h4⟩ := bind_ok h1
            have hfi := field?_self hf
            have hof : env.foreignField f = none := by
              cases hof : env.foreignField f with
              | none => rfl
              | some of => exact absurd ⟨⟨_, hfi.mem⟩, href, hof⟩ (hnp f of hf)
            have q3 := qr_link_other hof h3
            exact q3.trans (qr_addKey R ((HasField.congr q3.1).2 hfi) h4)
          · cases h1; exact QR.refl _
      have g1 := Good.ofQR R hw hs q1
      have hrec : ∀ x, (do olistDel env i path x; runL env n (.add i path k x) : Py World Unit) w1 = (.ok (), w') → v = x → Good env w w' := by
        intro x hx hvx
        subst hvx
        obtain ⟨u3, w3, h3, h4⟩ := bind_ok hx
        have hnp1 : ∀ g og, (w1.cdef env i).field? path = some g → ¬ Paired env g og := fun g og hg =>
          hnp g og (by rw [← cdef_congr q1.1]; exact hg)
        have r := ((uspec R env.fuel).del i path v w1 w3 g1.fits (fun g og hg hpg => absurd hpg (hnp1 g og hg)) h3).1
        have g3 : Good env w w3 := g1.trans ⟨r.cls, r.fits, g1.sym.rem0 R g1.fits r⟩
        refine g3.trans (ih ?_ g3.fits g3.sym h4)
        intro g og hg
        exact hnp g og (by rw [← cdef_congr g3.cls]; exact hg)
      cases v with
      | list xs => exact hrec _ h2 rfl
      | dict xs => exact hrec _ h2 rfl
      | _ => exact g1.trans (Good.ofQR R g1.fits g1.sym ((calm_markModified (env := env) i path).ok h2))

/-- The operation suits the relation list `f` of `i`: new items are distinct objects with
the opposite field that are not in the list; `l *= n` does not repeat items; items of a list
with reference keys are not replaced in place. -/
def ListSuits (env : Env) (w : World) (i : Nat) (f of : Field) (op : LOp Val) : Prop :=
  op.Plain ∧ ¬ op.Repeats ∧ (op.Replaces → f.store ≠ .localKey) ∧
  ∃ bs : List Nat, op.newItems = bs.map .obj ∧ bs.Nodup ∧ ∀ b ∈ bs, HasField env w b of ∧ ¬ Refers w i f b

/-- equality of values, decided classically -/
noncomputable def same (a b : Val) : Bool := @decide (a = b) (Classical.propDecidable _)

theorem same_iff {a b : Val} : same a b = true ↔ a = b := by simp [same]

theorem pyEq_obj_left {x : Val} {i : Nat} : pyEq (.obj i) x = true ↔ x = .obj i := by
  cases x with
  | obj j =>
    simp only [pyEq, beq_iff_eq, Val.obj.injEq]
    exact eq_comm
  | _ => simp [pyEq]

theorem pyRemove_same (v : Val) (bs : List Nat) : pyRemove pyEq v (bs.map .obj) = pyRemove same v (bs.map .obj) := by
  induction bs with
  | nil => rfl
  | cons b bs ih =>
    simp only [List.map_cons, pyRemove, ih]
    have : pyEq (.obj b) v = same (.obj b) v := by
      rw [Bool.eq_iff_iff, pyEq_obj_left, same_iff, eq_comm]
    rw [this]

theorem ownedOp_same (op : LOp Val) (bs : List Nat) : ownedOp pyEq op (bs.map .obj) = ownedOp same op (bs.map .obj) := by
  cases op with
  | remove v => simp only [ownedOp, pyRemove_same]
  | _ => rfl

theorem will_events {i : Nat} {n : String} {l : List (LEv Val)} : ∀ e ∈ l.filter LEv.isWill, Calm env (ownerLEv env i n e) := by
  intro e he
  have := (List.mem_filter.1 he).2
  cases e with
  | will => exact calm_willChange false i n
  | _ => cases this

/-- an operation on a list -/
theorem good_listOp (R : Relations env) {i : Nat} {n : String} {op : LOp Val} {w w' : World} (hw : WellLinked env w)
    (hs : SymBut env noTri w)
    (hsu : ∀ f of, (w.cdef env i).field? n = some f → Paired env f of → ListSuits env w i f of op)
    (h : listOp env i n op w = (.ok (), w')) : Good env w w' := by
  unfold listOp at h
  have h := get_bind_ok h
  cases ha : w.attr i n with
  | list xs =>
    rw [ha] at h
    simp only at h
    obtain ⟨u1, w1, h1, h2⟩ := bind_ok h
    obtain ⟨u3, w3, h3, h4⟩ := bind_ok h2
    obtain ⟨u5, w5, h5, h6⟩ := bind_ok h4
    have q1 := qr_evs (env := env) will_events h1
    have hw3 : w3 = (rawSet i n (.list (ownedOp pyEq op xs).items) w1).2 := by rw [h3]
    have hexc : (ownedOp pyEq op xs).exc = none ∧ w5 = w' := by
      cases hx : (ownedOp pyEq op xs).exc with
      | none => rw [hx] at h6; cases h6; exact ⟨rfl, rfl⟩
      | some e => rw [hx] at h6; cases h6
    obtain ⟨hexc, rfl⟩ := hexc
    by_cases hpd : ∃ f of, (w.cdef env i).field? n = some f ∧ Paired env f of
    · obtain ⟨f, of, hfn, hp⟩ := hpd
      have hpo := (R.opp f of hp).1
      have hf := field?_self hfn
      have hnm : f.name = n := (field_mem hfn).2
      subst hnm
      obtain ⟨hpl, hrep, hrpl, bs', hbs', hnd', hnew⟩ := hsu f of hfn hp
      have hfit := hw i f of hf hp
      rw [ha] at hfit
      obtain ⟨hl, bs, rfl, hnd, hb⟩ := hfit.list
      rw [ownedOp_same] at h1 hw3 h5 hexc
      have hri : ∀ b, Refers w i f b ↔ b ∈ bs := fun b => by unfold Refers; rw [ha, refsOf_list hl]
      have hacc := olist_accounts (eqv := same) (fun a b => same_iff.1) op hpl (bs.map .obj)
      obtain ⟨ds, es, hlog, hes, hrem, hadd, hds, hni, hmix⟩ :=
        op_shape (eqv := same) (fun a b => same_iff.1) op hpl (bs.map .obj)
      generalize ownedOp same op (bs.map .obj) = r at h1 hw3 h5 hexc hacc hlog hrem hadd hni
      have hni := (hni hexc hrep).trans hbs'
      have hlog' : r.log.filter (fun e => !e.isWill) = dels ds ++ es := hlog
      rw [hlog'] at h5
      clear hlog hlog'
      unfold Accounts at hacc
      rw [hrem, hadd, hni] at hacc
      -- the new contents
      have hdobj : ∃ ds' : List Nat, ds = ds'.map .obj ∧ ∀ d ∈ ds', d ∈ bs := by
        clear hrem hmix h5 hacc
        induction ds with
        | nil => exact ⟨[], rfl, by simp⟩
        | cons d ds ih =>
          obtain ⟨ds', rfl, h'⟩ := ih (fun d hd => hds d (by simp [hd]))
          obtain ⟨j, hj, rfl⟩ := List.mem_map.1 (hds d (by simp))
          exact ⟨j :: ds', rfl, by simpa using ⟨hj, h'⟩⟩
      obtain ⟨ds', rfl, hds'⟩ := hdobj
      have hyobj : ∃ ys : List Nat, r.items = ys.map .obj := by
        have : ∀ y ∈ r.items, ∃ j, y = Val.obj j := by
          intro y hy
          have := hacc.subset (List.mem_append_left _ hy)
          rw [← List.map_append] at this
          obtain ⟨j, -, rfl⟩ := List.mem_map.1 this
          exact ⟨j, rfl⟩
        clear hacc hw3
        generalize r.items = l at this
        induction l with
        | nil => exact ⟨[], rfl⟩
        | cons y l ih =>
          obtain ⟨j, rfl⟩ := this y (by simp)
          obtain ⟨ys, rfl⟩ := ih (fun y hy => this y (by simp [hy]))
          exact ⟨j :: ys, rfl⟩
      obtain ⟨ys, hys⟩ := hyobj
      rw [hys] at hacc hw3
      have hperm : (ys ++ ds').Perm (bs ++ bs') := by
        rw [← List.map_append, ← List.map_append] at hacc
        have := hacc.filterMap Val.idx?
        rwa [filterMap_obj, filterMap_obj] at this
      have hndx : (bs ++ bs').Nodup := by
        refine List.nodup_append.2 ⟨hnd, hnd', ?_⟩
        intro a ha' b hb' hab
        subst hab
        exact (hnew a hb').2 ((hri a).2 ha')
      have hndy := (hperm.nodup_iff).2 hndx
      obtain ⟨hyn, -, hdis⟩ := List.nodup_append.1 hndy
      have hc1 : ∀ j, (w1.heap j).cls = (w.heap j).cls := q1.1
      have hf1 : HasField env w1 i f := (HasField.congr hc1).2 hf
      have hyf : ∀ y ∈ ys, HasField env w y of := by
        intro y hy
        rcases List.mem_append.1 (hperm.subset (List.mem_append_left _ hy)) with h' | h'
        · exact hb y h'
        · exact (hnew y h').1
      have hv : Fits env w1 f of (.list (ys.map .obj)) :=
        fits_list hl hyn (fun y hy => (HasField.congr hc1).2 (hyf y hy))
      have hw1 := q1.wellLinked hw
      have hwl3 : WellLinked env w3 := by rw [hw3]; exact wellLinked_rawRel hw1 hf1 hp hv
      have hc3 : ∀ j, (w3.heap j).cls = (w.heap j).cls := fun j => by rw [hw3, cls_rawSet]; exact hc1 j
      have hf3 : HasField env w3 i f := (HasField.congr hc3).2 hf
      have hr3 : ∀ b, Refers w3 i f b ↔ b ∈ ys := fun b => by rw [hw3, refers_rawSelf, refsOf_list hl]
      have hri1 : ∀ b, Refers w1 i f b ↔ b ∈ bs := fun b => by rw [q1.refers hf hp]; exact hri b
      have hs3 : SymBut env (fun a g c => (a = i ∧ g = f ∧ .obj c ∈ added es) ∨
          (g = of ∧ c = i ∧ .obj a ∈ ds'.map Val.obj)) w3 := by
        have := (hs.qr R hw q1).rawRel R (v := .list (ys.map .obj)) hw1 hf1 hp
        rw [← hw3] at this
        refine this.mono ?_
        rintro a g c (hc | ⟨rfl, rfl, hc, hnc⟩ | ⟨rfl, rfl, hc, hnc⟩)
        · exact hc.elim
        · left
          rw [refsOf_list hl] at hc
          rw [hri1] at hnc
          refine ⟨rfl, rfl, ?_⟩
          rw [hni]
          rcases List.mem_append.1 (hperm.subset (List.mem_append_left _ hc)) with h' | h'
          · exact absurd h' hnc
          · exact List.mem_map.2 ⟨c, h', rfl⟩
        · right
          rw [refsOf_list hl] at hnc
          rw [hri1] at hc
          refine ⟨rfl, rfl, ?_⟩
          rcases List.mem_append.1 (hperm.symm.subset (List.mem_append_left _ hc)) with h' | h'
          · exact absurd h' hnc
          · exact List.mem_map.2 ⟨a, h', rfl⟩
      obtain ⟨w4, h51, h52⟩ := forEvs_append _ _ _ h5
      have hbsys : ∀ b ∈ bs', b ∈ ys := by
        intro b hb'
        rcases List.mem_append.1 (hperm.symm.subset (List.mem_append_right _ hb')) with h' | h'
        · exact h'
        · exact absurd ((hri b).2 (hds' b h')) (hnew b hb').2
      obtain ⟨c4, hw4, hs4, hS4⟩ := del_phase R hp hl (S := bs') hwl3 hf3 hs3 (by
          intro d hd
          obtain ⟨j, hj, rfl⟩ := List.mem_map.1 hd
          refine ⟨j, rfl, (HasField.congr hc3).2 (hb j (hds' j hj)), ?_⟩
          rw [hr3]
          exact fun hc => hdis j hc j hj rfl)
        (by
          intro x hx
          refine ⟨(hr3 x).2 (hbsys x hx), fun hc => ?_⟩
          have hxf := (hnew x hx).1
          rw [hw3] at hc
          by_cases hxi : x = i ∧ of = f
          · exact hxi
          · exfalso
            have hc := (refers_rawRel hf1 ((HasField.congr hc1).2 hxf) hxi).1 hc
            rw [q1.refers hxf hpo] at hc
            rcases hs x of f i hxf hpo hc with h' | h'
            · exact (hnew x hx).2 h'
            · exact h')
        (by
          intro hd hS
          refine hrpl (hmix hd ?_)
          rw [hbs']
          simpa using hS) h51
      have g := add_phase R hp hl hes hw4 ((HasField.congr c4).2 hf3) hs4 (by
        rw [hni]
        intro d hd
        obtain ⟨b, hb', rfl⟩ := List.mem_map.1 hd
        exact ⟨b, rfl, (HasField.congr (fun j => (c4 j).trans (hc3 j))).2 (hnew b hb').1, hS4 b hb'⟩) h52
      exact ⟨fun j => (g.cls j).trans ((c4 j).trans (hc3 j)), g.fits, g.sym⟩
    · have hnp : ∀ g og, (w.cdef env i).field? n = some g → ¬ Paired env g og := fun g og hg hpg => hpd ⟨g, og, hg, hpg⟩
      have q3 : QR env w1 w3 := by
        rw [hw3]; exact qr_rawSet (fun g og hg => hnp g og (by rw [← cdef_congr q1.1]; exact hg))
      have q := q1.trans q3
      have g3 := Good.ofQR R hw hs q
      refine g3.trans (good_evs (env := env) (C := fun w1 => ∀ g og, (w1.cdef env i).field? n = some g → ¬ Paired env g og)
        (fun w1 w2 hC hg g og hg' => hC g og (by rw [← cdef_congr hg.cls]; exact hg')) ?_
        (fun g og hg => hnp g og (by rw [← cdef_congr q.1]; exact hg)) g3.fits g3.sym h5)
      intro e he w1 w2 hC hw1 hs1 hrun
      have he := (List.mem_filter.1 he).2
      cases e with
      | will => cases he
      | add k v => exact good_add_other R hC hw1 hs1 hrun
      | del v =>
        have r := ((uspec R env.fuel).del i n v w1 w2 hw1 (fun g og hg hpg => absurd hpg (hC g og hg)) hrun).1
        exact ⟨r.cls, r.fits, hs1.rem0 R hw1 r⟩
      | sor => exact Good.ofQR R hw1 hs1 ((calm_markModified (env := env) i n).ok hrun)
  | _ => rw [ha] at h; cases h

theorem calm_odictAdd (i : Nat) (n : String) (m : Nat) (v : Val) {w w' : World}
    (h : odictAdd i n m v w = (.ok (), w')) : QR env w w' := by
  induction m generalizing w with
  | zero => cases h
  | succ m ih =>
    unfold odictAdd at h
    cases v with
    | list xs =>
      obtain ⟨u, w1, h1, h2⟩ := bind_ok h
      exact ((calm_markModified (env := env) i n).ok h1).trans (ih h2)
    | dict xs =>
      obtain ⟨u, w1, h1, h2⟩ := bind_ok h
      exact ((calm_markModified (env := env) i n).ok h1).trans (ih h2)
    | _ => exact (calm_markModified (env := env) i n).ok h

theorem qr_evs' {ε : Type} {f : ε → Py World Unit} {es : List ε}
    (hf : ∀ e ∈ es, ∀ w w', f e w = (.ok (), w') → QR env w w') {w w' : World}
    (h : forEvs f es w = (.ok (), w')) : QR env w w' := by
  induction es generalizing w with
  | nil => cases h; exact QR.refl _
  | cons e es ih =>
    simp only [forEvs] at h
    obtain ⟨u, w1, h1, h2⟩ := bind_ok h
    exact (hf e (by simp) _ _ h1).trans (ih (fun e he => hf e (by simp [he])) h2)

/-- an operation on a dict -/
theorem good_dictOp (R : Relations env) {i : Nat} {n : String} {op : DOp Val} {w w' : World} (hw : WellLinked env w)
    (hs : SymBut env noTri w) (h : dictOp env i n op w = (.ok (), w')) : Good env w w' := by
  unfold dictOp at h
  have h := get_bind_ok h
  cases ha : w.attr i n with
  | dict kvs =>
    rw [ha] at h
    simp only at h
    obtain ⟨u1, w1, h1, h2⟩ := bind_ok h
    obtain ⟨u3, w3, h3, h4⟩ := bind_ok h2
    obtain ⟨u5, w5, h5, h6⟩ := bind_ok h4
    have hev : ∀ (l : List (DEv Val)), ∀ e ∈ l, ∀ w w', ownerDEv env i n e w = (.ok (), w') → QR env w w' := by
      intro l e _ w w' he
      cases e with
      | will => exact (calm_willChange (env := env) true i n).ok he
      | add k v => exact calm_odictAdd i n _ v he
      | del v => exact (calm_markModified (env := env) i n).ok he
    have q1 := qr_evs' (hev _) h1
    have q3 : QR env w1 w3 := by
      have : w3 = (rawSet i n (.dict (ownedDOp Val.none op kvs).items) w1).2 := by rw [h3]
      rw [this]
      refine qr_rawSet (fun g og hg hpg => ?_)
      rw [cdef_congr q1.1] at hg
      have hfit := hw i g og (field?_self hg) hpg
      rw [(field_mem hg).2, ha] at hfit
      rcases hfit.1 with h' | ⟨-, b, h'⟩ | ⟨-, bs, h', -⟩ <;> cases h'
    have q5 := qr_evs' (hev _) h5
    have : w5 = w' := by
      cases hx : (ownedDOp Val.none op kvs).exc with
      | none => rw [hx] at h6; cases h6; rfl
      | some e => rw [hx] at h6; cases h6
    subst this
    exact Good.ofQR R hw hs ((q1.trans q3).trans q5)
  | _ => rw [ha] at h; cases h

/-! ### C38 -/

/-- The operation's argument suits the relation it is about, if it is about one: an assigned
value is nothing, an object or a list of distinct objects having the opposite field
(`Fits`); assigned reference keys name no object twice; items put into a list are distinct,
new there, and have the opposite field (`ListSuits`). -/
def FOp.Suits (env : Env) (w : World) (i : Nat) : FOp → Prop
  | .set n v =>
    (∀ g og, (w.cdef env i).field? n = some g → Paired env g og → Fits env w g og v) ∧
    (∀ g og ks, (w.cdef env i).localKey? n = some g → Paired env g og → v = .list ks →
      KeysOnce env w (refsOf g (w.attr i g.name)) ks)
  | .lst n op => ∀ g og, (w.cdef env i).field? n = some g → Paired env g og → ListSuits env w i g og op
  | .dct _ _ => True

/-- A history: each operation, on whatever object, has a suitable argument and completes. -/
def History (env : Env) : List (Nat × FOp) → World → World → Prop
  | [], w, w' => w' = w
  | (i, op) :: ops, w, w' => op.Suits env w i ∧ ∃ w1, op.run env i w = (.ok (), w1) ∧ History env ops w1 w'

theorem symmetric_iff (R : Relations env) {w : World} (hw : WellLinked env w) :
    Symmetric env w ↔ SymBut env noTri w := by
  constructor
  · intro h a g og b hg hp hr
    exact .inl ((h a b g og hg ((hw a g og hg hp).2 b hr) hp).1 hr)
  · intro h a b g og hg hb hp
    constructor
    · intro hr
      rcases h a g og b hg hp hr with h' | h'
      · exact h'
      · exact h'.elim
    · intro hr
      rcases h b og g a hb (R.opp g og hp).1 hr with h' | h'
      · exact h'
      · exact h'.elim

theorem good_op (R : Relations env) {i : Nat} {op : FOp} {w w' : World} (hw : WellLinked env w) (hs : SymBut env noTri w)
    (hsu : op.Suits env w i) (h : op.run env i w = (.ok (), w')) : Good env w w' := by
  cases op with
  | set n v => exact good_setAttr R hw hs hsu.1 hsu.2 h
  | lst n op => exact good_listOp R hw hs hsu h
  | dct n op => exact good_dictOp R hw hs h

/-- **C38**. Starting from a symmetric state, after any history of assignments, list and
dict operations over any number of objects, `a` refers to `b` through a relation field
exactly when `b` refers to `a` through the opposite field. Partial: operations complete and
have suitable arguments (without that it is false, see `links_duplicates_break` and
`links_exception_breaks`), and construction of objects is not among the operations. -/
theorem links_symmetric_partial (R : Relations env) (ops : List (Nat × FOp)) {w w' : World} (hw : WellLinked env w)
    (hs : Symmetric env w) (h : History env ops w w') : WellLinked env w' ∧ Symmetric env w' := by
  induction ops generalizing w with
  | nil => cases h; exact ⟨hw, hs⟩
  | cons o ops ih =>
    obtain ⟨i, op⟩ := o
    obtain ⟨hsu, w1, h1, h2⟩ := h
    have g := good_op R hw ((symmetric_iff R hw).1 hs) hsu h1
    exact ih g.fits ((symmetric_iff R g.fits).2 g.sym) h2

/-- **C38**, effect: after a completed assignment `a.f = v` the value is there and exactly
the objects in `v` refer back to `a`. -/
theorem assign_links_partial (R : Relations env) {a : Nat} {f of : Field} {v : Val} {w w' : World} (hw : WellLinked env w)
    (hs : Symmetric env w) (hf : HasField env w a f) (hp : Paired env f of) (hv : Fits env w f of v)
    (hne : pyEq v (w.attr a f.name) = false) (h : setAttr env a f.name v w = (.ok (), w')) :
    w'.attr a f.name = v ∧ ∀ b, HasField env w b of → (Refers w' b of a ↔ b ∈ refsOf f v) := by
  have hsu : FOp.Suits env w a (.set f.name v) := by
    refine ⟨fun g og hg hpg => ?_, fun g og ks hl => ?_⟩
    · have : f = g := Option.some.inj (hf.symm.trans hg)
      subst this
      have := hp.opp_eq hpg
      subst this
      exact hv
    · rw [R.noKey hf] at hl; cases hl
  have g := good_op (op := .set f.name v) R hw ((symmetric_iff R hw).1 hs) hsu h
  have hrun : runL env env.fuel (.set a f.name v) w = (.ok (), w') := by
    unfold setAttr at h
    have h := get_bind_ok h
    rw [R.noKey hf] at h
    exact h
  have hat := (good_setField R hw ((symmetric_iff R hw).1 hs) hsu.1 hrun).2 ⟨f, of, hf, hp⟩ hne
  refine ⟨hat, fun b hb => ?_⟩
  have hsym := (symmetric_iff R g.fits).2 g.sym a b f of ((HasField.congr g.cls).2 hf) ((HasField.congr g.cls).2 hb) hp
  rw [← hsym]
  unfold Refers
  rw [hat]

end JC

/-! ### The demo program -/
namespace JC.SymDemo
open JC
open JC.Demo (user post fId fName fSecret fTmp fFriend fPosts fAuthor attrsOf)

theorem fields_cases {c : String} {g : Field} (h : g ∈ (Demo.env.cls c).fields) :
    (Demo.env.cls c = user ∧ g ∈ user.fields) ∨ (Demo.env.cls c = post ∧ g ∈ post.fields) := by
  rcases Demo.env_cases c with hc | hc | hc
  · rw [hc] at h; exact .inl ⟨hc, h⟩
  · rw [hc] at h; exact .inr ⟨hc, h⟩
  · rw [hc] at h; cases h

/-- the three relations of the demo program -/
theorem paired_cases {g og : Field} (h : Paired Demo.env g og) :
    (g = fFriend ∧ og = fFriend) ∨ (g = fPosts ∧ og = fAuthor) ∨ (g = fAuthor ∧ og = fPosts) := by
  obtain ⟨⟨c, hc⟩, hr, hf⟩ := h
  have hm : g ∈ user.fields ∨ g ∈ post.fields := by
    rcases fields_cases hc with h | h
    · exact .inl h.2
    · exact .inr h.2
  have hg : g = fFriend ∨ g = fPosts ∨ g = fAuthor := by
    rcases hm with hm | hm <;>
      simp only [user, post, List.mem_cons, List.not_mem_nil, or_false] at hm
    · rcases hm with rfl | rfl | rfl | rfl | rfl | rfl
      · cases hr
      · cases hr
      · cases hr
      · cases hr
      · exact .inl rfl
      · exact .inr (.inl rfl)
    · rcases hm with rfl | rfl | rfl
      · cases hr
      · cases hr
      · exact .inr (.inr rfl)
  rcases hg with rfl | rfl | rfl
  · exact .inl ⟨rfl, (Option.some.inj hf).symm⟩
  · exact .inr (.inl ⟨rfl, (Option.some.inj hf).symm⟩)
  · exact .inr (.inr ⟨rfl, (Option.some.inj hf).symm⟩)

theorem paired_friend : Paired Demo.env fFriend fFriend :=
  ⟨⟨"User", by simp [Demo.env, user]⟩, rfl, rfl⟩
theorem paired_posts : Paired Demo.env fPosts fAuthor :=
  ⟨⟨"User", by simp [Demo.env, user]⟩, rfl, rfl⟩
theorem paired_author : Paired Demo.env fAuthor fPosts :=
  ⟨⟨"Post", by simp [Demo.env, post]⟩, rfl, rfl⟩

theorem relations : Relations Demo.env where
  opp := by
    intro g og h
    rcases paired_cases h with ⟨rfl, rfl⟩ | ⟨rfl, rfl⟩ | ⟨rfl, rfl⟩
    · exact ⟨paired_friend, .inl rfl⟩
    · exact ⟨paired_author, .inr rfl⟩
    · exact ⟨paired_posts, .inl rfl⟩
  uniq := by
    intro c f hf
    rcases fields_cases hf with ⟨hc, hm⟩ | ⟨hc, hm⟩ <;> rw [hc] <;>
      simp only [user, post, List.mem_cons, List.not_mem_nil, or_false] at hm
    · rcases hm with rfl | rfl | rfl | rfl | rfl | rfl <;> rfl
    · rcases hm with rfl | rfl | rfl <;> rfl
  keys := by
    intro c n f g hl hf
    rcases Demo.env_cases c with hc | hc | hc <;> rw [hc] at hl hf
    · have := List.mem_of_find?_eq_some hl
      have h2 := List.find?_some hl
      simp only [user, List.mem_cons, List.not_mem_nil, or_false] at this
      rcases this with rfl | rfl | rfl | rfl | rfl | rfl <;> simp [fId, fName, fSecret, fTmp, fFriend, fPosts] at h2
    · have := List.mem_of_find?_eq_some hl
      have h2 := List.find?_some hl
      simp only [post, List.mem_cons, List.not_mem_nil, or_false] at this
      rcases this with rfl | rfl | rfl
      · simp [fId] at h2
      · simp [fName] at h2
      · simp only [fAuthor, decide_true, Bool.true_and] at h2
        have h3 := of_decide_eq_true h2
        subst h3
        cases hf
    · cases hl
  keyUniq := by
    intro c f hf hs
    rcases fields_cases hf with ⟨hc, hm⟩ | ⟨hc, hm⟩ <;> rw [hc] <;>
      simp only [user, post, List.mem_cons, List.not_mem_nil, or_false] at hm
    · rcases hm with rfl | rfl | rfl | rfl | rfl | rfl <;> cases hs
    · rcases hm with rfl | rfl | rfl
      · cases hs
      · cases hs
      · rfl
  prim := by
    intro c n hp
    rcases Demo.env_cases c with hc | hc | hc <;> rw [hc] at hp ⊢
    · cases hp; rfl
    · cases hp; rfl
    · cases hp

/-- A world of users 0 and 1 and posts 2, 3 and 4, by the relations between them. Posts 2
and 3 have the same primary key. -/
def mk (f0 f1 : Val) (p0 p1 : Val) (a2 a3 a4 : Val) : World where
  heap := fun i => match i with
    | 0 => { cls := "User", graph := 0, attrs := attrsOf [("id", .str "u0"), ("friend", f0), ("posts", p0)] }
    | 1 => { cls := "User", graph := 1, attrs := attrsOf [("id", .str "u1"), ("friend", f1), ("posts", p1)] }
    | 2 => { cls := "Post", graph := 2, attrs := attrsOf [("id", .str "p"), ("author", a2)] }
    | 3 => { cls := "Post", graph := 3, attrs := attrsOf [("id", .str "p"), ("author", a3)] }
    | 4 => { cls := "Post", graph := 4, attrs := attrsOf [("id", .str "q"), ("author", a4)] }
    | _ => {}
  next := 5
  nextg := 5

/-- the class of an object -/
theorem has_user {f0 f1 p0 p1 a2 a3 a4 : Val} {a : Nat} {g : Field} (hn : g.name = "friend" ∨ g.name = "posts")
    (h : HasField Demo.env (mk f0 f1 p0 p1 a2 a3 a4) a g) : a = 0 ∨ a = 1 := by
  unfold HasField at h
  match a with
  | 0 => exact .inl rfl
  | 1 => exact .inr rfl
  | 2 => rcases hn with hn | hn <;> rw [hn] at h <;> cases h
  | 3 => rcases hn with hn | hn <;> rw [hn] at h <;> cases h
  | 4 => rcases hn with hn | hn <;> rw [hn] at h <;> cases h
  | _ + 5 => rcases hn with hn | hn <;> rw [hn] at h <;> cases h

theorem has_post {f0 f1 p0 p1 a2 a3 a4 : Val} {a : Nat} {g : Field} (hn : g.name = "author")
    (h : HasField Demo.env (mk f0 f1 p0 p1 a2 a3 a4) a g) : a = 2 ∨ a = 3 ∨ a = 4 := by
  unfold HasField at h
  match a with
  | 0 => rw [hn] at h; cases h
  | 1 => rw [hn] at h; cases h
  | 2 => exact .inl rfl
  | 3 => exact .inr (.inl rfl)
  | 4 => exact .inr (.inr rfl)
  | _ + 5 => rw [hn] at h; cases h

/-- users 0 and 1 are friends, post 2 is by user 0 -/
def start : World := mk (.obj 1) (.obj 0) (.list [.obj 2]) (.list []) (.obj 0) .none .none

theorem start_linked : WellLinked Demo.env start := by
  intro a g og hg hp
  rcases paired_cases hp with ⟨rfl, rfl⟩ | ⟨rfl, rfl⟩ | ⟨rfl, rfl⟩
  · rcases has_user (.inl rfl) hg with rfl | rfl
    · exact fits_inst (b := 1) rfl rfl
    · exact fits_inst (b := 0) rfl rfl
  · rcases has_user (.inr rfl) hg with rfl | rfl
    · exact fits_list (bs := [2]) rfl (by simp) (fun b hb => by cases List.mem_singleton.1 hb; rfl)
    · exact fits_list (bs := []) rfl (by simp) (fun b hb => by cases hb)
  · rcases has_post rfl hg with rfl | rfl | rfl
    · exact fits_inst (b := 0) rfl rfl
    · exact fits_none _ _ _
    · exact fits_none _ _ _

theorem start_symmetric : Symmetric Demo.env start := by
  intro a b g og hg hb hp
  rcases paired_cases hp with ⟨rfl, rfl⟩ | ⟨rfl, rfl⟩ | ⟨rfl, rfl⟩
  · rcases has_user (.inl rfl) hg with rfl | rfl <;> rcases has_user (.inl rfl) hb with rfl | rfl <;>
      simp [Refers, refsOf, start, mk, World.attr, attrsOf, dictGet, fFriend]
  · rcases has_user (.inr rfl) hg with rfl | rfl <;> rcases has_post rfl hb with rfl | rfl | rfl <;>
      simp [Refers, refsOf, start, mk, World.attr, attrsOf, dictGet, fPosts, fAuthor, Val.idx?]
  · rcases has_post rfl hg with rfl | rfl | rfl <;> rcases has_user (.inr rfl) hb with rfl | rfl <;>
      simp [Refers, refsOf, start, mk, World.attr, attrsOf, dictGet, fPosts, fAuthor, Val.idx?]

/-- did the operation complete -/
def okRun (r : Except Exc Unit × World) : Bool := match r.1 with
  | .ok _ => true
  | .error _ => false

theorem okRun_eq {r : Except Exc Unit × World} (h : okRun r = true) : r = (.ok (), r.2) := by
  rcases r with ⟨e | u, w⟩
  · cases h
  · rfl

/-- did it raise the merge conflict -/
def errRun (r : Except Exc Unit × World) : Bool := match r.1 with
  | .error .mergeConflict => true
  | _ => false

theorem errRun_eq {r : Except Exc Unit × World} (h : errRun r = true) : r = (.error .mergeConflict, r.2) := by
  rcases r with ⟨e | u, w⟩
  · cases e <;> first | rfl | cases h
  · cases h

/-- the objects referred to -/
def refs (w : World) (a : Nat) (g : Field) : List Nat := refsOf g (w.attr a g.name)

/-- the state after an operation -/
def step (i : Nat) (op : FOp) (w : World) : World := (op.run Demo.env i w).2

theorem has_of {w : World} {b : Nat} {g : Field} {c : String} (hc : (w.heap b).cls = c)
    (hg : (Demo.env.cls c).field? g.name = some g) : HasField Demo.env w b g := by
  unfold HasField World.cdef; rw [hc]; exact hg

theorem suits_set {w : World} {i : Nat} {g og : Field} {v : Val} (hg : HasField Demo.env w i g)
    (hp : Paired Demo.env g og) (hv : Fits Demo.env w g og v) : FOp.Suits Demo.env w i (.set g.name v) := by
  refine ⟨fun g' og' hg' hp' => ?_, fun g' og' ks hl => ?_⟩
  · cases Option.some.inj (hg.symm.trans hg')
    cases hp.opp_eq hp'
    exact hv
  · rw [relations.noKey hg] at hl; cases hl

theorem suits_lst {w : World} {i : Nat} {g og : Field} {op : LOp Val} (hg : HasField Demo.env w i g)
    (hp : Paired Demo.env g og) (hv : ListSuits Demo.env w i g og op) : FOp.Suits Demo.env w i (.lst g.name op) := by
  intro g' og' hg' hp'
  cases Option.some.inj (hg.symm.trans hg')
  cases hp.opp_eq hp'
  exact hv

theorem hist_cons {i : Nat} {op : FOp} {ops : List (Nat × FOp)} {w w' : World} (hs : op.Suits Demo.env w i)
    (hok : okRun (op.run Demo.env i w) = true) (h : History Demo.env ops (step i op w) w') :
    History Demo.env ((i, op) :: ops) w w' := ⟨hs, _, okRun_eq hok, h⟩

/-- user 1 takes over post 2 -/
def op1 : FOp := .lst "posts" (.append (.obj 2))
/-- user 1 is nobody's friend any more -/
def op2 : FOp := .set "friend" .none
/-- post 4 gets user 1 as its author -/
def op3 : FOp := .set "author" (.obj 1)
/-- user 0 takes posts 4 and 2 -/
def op4 : FOp := .set "posts" (.list [.obj 4, .obj 2])
/-- and drops the last one -/
def op5 : FOp := .lst "posts" (.pop none)

def w1 : World := step 1 op1 start
def w2 : World := step 1 op2 w1
def w3 : World := step 4 op3 w2
def w4 : World := step 0 op4 w3
def w5 : World := step 0 op5 w4

theorem hist : History Demo.env [(1, op1), (1, op2), (4, op3), (0, op4), (0, op5)] start w5 := by
  refine hist_cons (suits_lst (g := fPosts) (has_of (c := "User") rfl rfl) paired_posts
      ⟨trivial, id, fun h => h.elim, [2], rfl, by simp, fun b hb => ?_⟩) (by decide +kernel) ?_
  · cases List.mem_singleton.1 hb
    exact ⟨has_of (c := "Post") rfl rfl, by unfold Refers; decide +kernel⟩
  refine hist_cons (suits_set (g := fFriend) (has_of (c := "User") (by decide +kernel) rfl) paired_friend (fits_none _ _ _))
    (by decide +kernel) ?_
  refine hist_cons (suits_set (g := fAuthor) (has_of (c := "Post") (by decide +kernel) rfl) paired_author
    (fits_inst rfl (has_of (c := "User") (by decide +kernel) rfl))) (by decide +kernel) ?_
  refine hist_cons (suits_set (g := fPosts) (has_of (c := "User") (by decide +kernel) rfl) paired_posts
    (fits_list (bs := [4, 2]) rfl (by simp) (fun b hb => ?_))) (by decide +kernel) ?_
  · have : b = 4 ∨ b = 2 := by simpa using hb
    rcases this with rfl | rfl
    · exact has_of (c := "Post") (by decide +kernel) rfl
    · exact has_of (c := "Post") (by decide +kernel) rfl
  refine hist_cons (suits_lst (g := fPosts) (has_of (c := "User") (by decide +kernel) rfl) paired_posts
      ⟨trivial, id, fun h => h.elim, [], rfl, by simp, fun b hb => by cases hb⟩) (by decide +kernel) rfl

/-- The hypotheses of `links_symmetric_partial` are met by this history, whose end state is
not trivial: post 4 is user 0's, post 2 nobody's. -/
example : (WellLinked Demo.env w5 ∧ Symmetric Demo.env w5) ∧ refs w5 0 fPosts = [4] ∧ refs w5 4 fAuthor = [0] ∧
    refs w5 2 fAuthor = [] ∧ refs w5 1 fPosts = [] ∧ refs w5 0 fFriend = [] :=
  ⟨links_symmetric_partial relations _ start_linked start_symmetric hist, by decide +kernel⟩

/-- The hypotheses of `assign_links_partial` are met by moving post 2 and 4 to user 1. -/
example : ∀ b, HasField Demo.env start b fAuthor →
    (Refers (step 1 op4 start) b fAuthor 1 ↔ b ∈ [4, 2]) :=
  (assign_links_partial (a := 1) (v := .list [.obj 4, .obj 2]) relations start_linked start_symmetric
    (has_of (g := fPosts) (c := "User") rfl rfl) paired_posts
    (fits_list (bs := [4, 2]) rfl (by simp) (fun b hb => by
      have : b = 4 ∨ b = 2 := by simpa using hb
      rcases this with rfl | rfl <;> exact has_of (c := "Post") rfl rfl))
    (by decide +kernel) (okRun_eq (by decide +kernel))).2

/-- Users without friends and posts, posts without author. -/
def bare : World := mk .none .none (.list []) (.list []) .none .none .none

theorem bare_refs (a b : Nat) (g : Field) (hg : HasField Demo.env bare a g) (og : Field) (hp : Paired Demo.env g og) :
    ¬ Refers bare a g b := by
  rcases paired_cases hp with ⟨rfl, rfl⟩ | ⟨rfl, rfl⟩ | ⟨rfl, rfl⟩
  · rcases has_user (.inl rfl) hg with rfl | rfl <;> exact List.not_mem_nil
  · rcases has_user (.inr rfl) hg with rfl | rfl <;> exact List.not_mem_nil
  · rcases has_post rfl hg with rfl | rfl | rfl <;> exact List.not_mem_nil

theorem bare_symmetric : Symmetric Demo.env bare := by
  intro a b g og hg hb hp
  exact ⟨fun h => (bare_refs _ _ _ hg _ hp h).elim, fun h => (bare_refs _ _ _ hb _ (relations.opp _ _ hp).1 h).elim⟩

theorem bare_linked : WellLinked Demo.env bare := by
  intro a g og hg hp
  refine ⟨?_, fun b hb => (bare_refs _ _ _ hg _ hp hb).elim⟩
  rcases paired_cases hp with ⟨rfl, rfl⟩ | ⟨rfl, rfl⟩ | ⟨rfl, rfl⟩
  · rcases has_user (.inl rfl) hg with rfl | rfl <;> exact .inl rfl
  · rcases has_user (.inr rfl) hg with rfl | rfl <;> exact .inr (.inr ⟨rfl, [], rfl, by simp⟩)
  · rcases has_post rfl hg with rfl | rfl | rfl <;> exact .inl rfl

def add2 : FOp := .lst "posts" (.append (.obj 2))
def drop2 : FOp := .lst "posts" (.remove (.obj 2))

end JC.SymDemo

namespace JC
open JC.SymDemo

/-- **C38**, violation: appending the same object twice and removing it once, all of it
without an exception, leaves it in the list without referring back. -/
theorem links_duplicates_break : ∃ env, Relations env ∧ ∃ w w1 w2 w3, WellLinked env w ∧ Symmetric env w ∧
    FOp.run env 0 (.lst "posts" (.append (.obj 2))) w = (.ok (), w1) ∧
    FOp.run env 0 (.lst "posts" (.append (.obj 2))) w1 = (.ok (), w2) ∧
    FOp.run env 0 (.lst "posts" (.remove (.obj 2))) w2 = (.ok (), w3) ∧ ¬ Symmetric env w3 := by
  refine ⟨Demo.env, relations, bare, step 0 add2 bare, step 0 add2 (step 0 add2 bare),
    step 0 drop2 (step 0 add2 (step 0 add2 bare)), bare_linked, bare_symmetric,
    okRun_eq (by decide +kernel), okRun_eq (by decide +kernel), okRun_eq (by decide +kernel), fun h => ?_⟩
  have h1 : Refers (step 0 drop2 (step 0 add2 (step 0 add2 bare))) 0 Demo.fPosts 2 := by unfold Refers; decide +kernel
  have h2 : ¬ Refers (step 0 drop2 (step 0 add2 (step 0 add2 bare))) 2 Demo.fAuthor 0 := by unfold Refers; decide +kernel
  exact h2 ((h 0 2 Demo.fPosts Demo.fAuthor (has_of (c := "User") (by decide +kernel) rfl)
    (has_of (c := "Post") (by decide +kernel) rfl) paired_posts).1 h1)

/-- **C38**, violation: assigning distinct objects of which two have the same primary key
raises midway and leaves an object in the list that does not refer back. -/
theorem links_exception_breaks : ∃ env, Relations env ∧ ∃ w w' e g og, WellLinked env w ∧ Symmetric env w ∧
    HasField env w 0 g ∧ Paired env g og ∧ Fits env w g og (.list [.obj 2, .obj 3, .obj 4]) ∧
    setAttr env 0 g.name (.list [.obj 2, .obj 3, .obj 4]) w = (.error e, w') ∧ ¬ Symmetric env w' := by
  refine ⟨Demo.env, relations, bare, (setAttr Demo.env 0 "posts" (.list [.obj 2, .obj 3, .obj 4]) bare).2,
    .mergeConflict, Demo.fPosts, Demo.fAuthor, bare_linked, bare_symmetric, has_of (c := "User") rfl rfl, paired_posts,
    fits_list (bs := [2, 3, 4]) rfl (by simp) (fun b hb => ?_), ?_, fun h => ?_⟩
  · have : b = 2 ∨ b = 3 ∨ b = 4 := by simpa using hb
    rcases this with rfl | rfl | rfl <;> exact has_of (c := "Post") rfl rfl
  · have : errRun (setAttr Demo.env 0 "posts" (.list [.obj 2, .obj 3, .obj 4]) bare) = true := by decide +kernel
    exact errRun_eq this
  · have h1 : Refers (setAttr Demo.env 0 "posts" (.list [.obj 2, .obj 3, .obj 4]) bare).2 0 Demo.fPosts 4 := by
      unfold Refers; decide +kernel
    have h2 : ¬ Refers (setAttr Demo.env 0 "posts" (.list [.obj 2, .obj 3, .obj 4]) bare).2 4 Demo.fAuthor 0 := by
      unfold Refers; decide +kernel
    exact h2 ((h 0 4 Demo.fPosts Demo.fAuthor (has_of (c := "User") (by decide +kernel) rfl)
      (has_of (c := "Post") (by decide +kernel) rfl) paired_posts).1 h1)

end JC
