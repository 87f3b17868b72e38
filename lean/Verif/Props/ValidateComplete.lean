import Verif.Props.ValidateSound

/-
C20, completeness: a validation error means that some reachable field is rejected; and
the two ways in which soundness fails.
-/
namespace JC
variable {env : Env}

/-! ### validate leaves the heap alone, at every level -/

theorem simV_once (w₀ : World) (n : Nat) :
    SimValidate (KOnce env w₀) (fun _ => False) env env (instOps env n) (instOps env n) (fun _ => True) where
  hv := by simp
  ha := by simp
  noMarks₁ := instOps_noMarks env n
  noMarks₂ := instOps_noMarks env n
  col := fun _ _ _ _ _ => trivial
  alter := fun _ _ => trivial
  owner := by rintro _ _ o ⟨rfl, _, _⟩; rfl
  vis := fun cls st c _ => validate_once_sim w₀ n cls st c

theorem leafOnce (w₀ : World) (l : Leaf) : SimLeafV (KOnce env w₀) (fun _ => False) (fun _ => True) l := by
  rintro c w₁ w₂ _ ⟨rfl, _⟩
  exact ⟨rfl, fun e _ h => h⟩

theorem KOnce.self (w : World) : KOnce env w w w := ⟨rfl, SameData.refl w, [], by simp, by simp, by simp⟩

theorem den_heap (n : Nat) (m : Mod) (c : Ctx) (w : World) :
    ((m.den env (instOps env n)).validate c w).2.heap = w.heap :=
  (sim_den_validate (simV_once w n) m (Mod.all_of_forall (leafOnce w) m) c trivial w w
    (KOnce.self w)).2.2.2.1.1

theorem chain_heap (n : Nat) (ms : List Mod) (c : Ctx) (w : World) :
    (chainValidate (denL env (instOps env n) ms) c w).2.heap = w.heap :=
  (sim_den_chain (simV_once w n) ms (Mod.allL_of_forall (leafOnce w) ms) c trivial w w
    (KOnce.self w)).2.2.2.1.1

/-! ### No validation error -/

/-- On heap `H` the computation raises no validation error. -/
def NoV (H : Heap) (m : Py World Unit) : Prop :=
  ∀ w, w.heap = H → ∀ msgs, (m w).1 ≠ .error (.validation msgs)

theorem noV_loop {H : Heap} {n : Nat} {c : Ctx} (ms : List Mod)
    (h : ∀ m ∈ ms, NoV H ((m.den env (instOps env n)).validate c)) (w : World) (hw : w.heap = H) :
    (∃ w', validateLoop c (ms.map (fun m => m.den env (instOps env n))) [] w = (.ok [], w')) ∨
    (∃ e w', validateLoop c (ms.map (fun m => m.den env (instOps env n))) [] w = (.error e, w') ∧
      ∀ msgs, e ≠ .validation msgs) := by
  induction ms generalizing w with
  | nil => exact .inl ⟨w, rfl⟩
  | cons m ms ih =>
    simp only [List.map_cons, validateLoop]
    have hm := h m (by simp) w hw
    have hheap := den_heap (env := env) n m c w
    rcases hr : (m.den env (instOps env n)).validate c w with ⟨r, w'⟩
    rw [hr] at hm hheap
    cases r with
    | ok u => exact ih (fun m' hm' => h m' (by simp [hm'])) w' (by rw [← hw]; exact hheap)
    | error e =>
      cases e with
      | validation msgs => exact absurd rfl (hm msgs)
      | _ => exact .inr ⟨_, w', rfl, by simp⟩

theorem noV_chain {H : Heap} {n : Nat} {c : Ctx} (ms : List Mod)
    (h : ∀ m ∈ nvsM ms, NoV H ((m.den env (instOps env n)).validate c)) :
    NoV H (chainValidate (denL env (instOps env n) ms) c) := by
  intro w hw msgs
  unfold chainValidate
  rw [nvs_denL _ _ (instOps_noMarks env n), Py.bind_run]
  rcases noV_loop (nvsM ms) h w hw with ⟨w', hr⟩ | ⟨e, w', hr, he⟩
  · rw [hr]; simp [raiseMsgs]
  · rw [hr]; simpa using he msgs

theorem noV_items {H : Heap} {n : Nat} {c : Ctx} {all : Bool} {ms : List Mod} (es : List (Key × Val))
    (h : ∀ kv ∈ es, NoV H (chainValidate (denL env (instOps env n) ms) (c.colval kv.2 kv.1)))
    (w : World) (hw : w.heap = H) :
    (∃ w', colValidateLoop (chainOps (setParent env) (denL env (instOps env n) ms)) c all es [] w =
      (.ok [], w')) ∨
    (∃ e w', colValidateLoop (chainOps (setParent env) (denL env (instOps env n) ms)) c all es [] w =
      (.error e, w') ∧ ∀ msgs, e ≠ .validation msgs) := by
  induction es generalizing w with
  | nil => exact .inl ⟨w, rfl⟩
  | cons kv es ih =>
    obtain ⟨k, v⟩ := kv
    simp only [colValidateLoop, chainOps]
    have hm := h (k, v) (by simp) w hw
    have hheap := chain_heap (env := env) n ms (c.colval v k) w
    rcases hr : chainValidate (denL env (instOps env n) ms) (c.colval v k) w with ⟨r, w'⟩
    rw [hr] at hm hheap
    cases r with
    | ok u => exact ih (fun m' hm' => h m' (by simp [hm'])) w' (by rw [← hw]; exact hheap)
    | error e =>
      cases e with
      | validation msgs => exact absurd rfl (hm msgs)
      | _ => exact .inr ⟨_, w', rfl, by simp⟩

theorem noV_col {H : Heap} {n : Nat} {c : Ctx} {sp : Special} {ms : List Mod} (es : List (Key × Val))
    (h : ∀ kv ∈ es, NoV H (chainValidate (denL env (instOps env n) ms) (c.colval kv.2 kv.1))) :
    NoV H (colValidate (colEnv env sp) (chainOps (setParent env) (denL env (instOps env n) ms)) c es) := by
  intro w hw msgs
  unfold colValidate
  rw [Py.bind_run]
  simp only [colEnv]
  cases ho : c.owner with
  | none => simp
  | some o =>
    simp only [readW]
    rw [Py.bind_run]
    rcases noV_items (all := c.cfg.allFields.getD (w.cdef env o).validateAllFields) es h w hw with
      ⟨w', hr⟩ | ⟨e, w', hr, he⟩
    · rw [hr]; simp [raiseMsgs]
    · rw [hr]; simpa using he msgs

theorem noV_union {H : Heap} {n : Nat} {c : Ctx} (as : List (List Mod)) {a : List Mod} (ha : a ∈ as)
    (h : NoV H (chainValidate (denL env (instOps env n) a) c)) :
    NoV H (unionValidate c (denA env (instOps env n) as)) := by
  intro w hw msgs
  induction as generalizing w with
  | nil => cases ha
  | cons b bs ih =>
    simp only [denA, unionValidate, Py.catchV, chainOps]
    have hheap := chain_heap (env := env) n b c w
    rcases List.mem_cons.1 ha with rfl | hb
    · have hm := h w hw
      rcases hr : chainValidate (denL env (instOps env n) a) c w with ⟨r, w'⟩
      rw [hr] at hm
      cases r with
      | ok u => simp
      | error e =>
        cases e with
        | validation msgs => exact absurd rfl (hm msgs)
        | _ => simp
    · rcases hr : chainValidate (denL env (instOps env n) b) c w with ⟨r, w'⟩
      rw [hr] at hheap
      cases r with
      | ok u => simp
      | error e =>
        cases e with
        | validation msgs => exact ih hb w' (by rw [← hw]; exact hheap)
        | _ => simp

theorem noV_accepted {H : Heap} {n : Nat} {J : String → Ctx → Prop}
    (hvis : ∀ cls st c, (c.val = .none ∨ J cls c) → NoV H ((instOps env n cls st).validate c))
    {m : Mod} {c : Ctx} (ha : Accepted J H m c) : NoV H ((m.den env (instOps env n)).validate c) := by
  induction ha with
  | eager => intro w _ msgs; simp [Mod.den]
  | pre => intro w _ msgs; simp [Mod.den]
  | leaf h => intro w hw msgs; simp [Mod.den, leafOps, readW, hw, h]
  | listNone h => intro w _ msgs; simp [Mod.den, listOps, h]
  | @list nn sp item c xs hv _ ih =>
    simp only [Mod.den, listOps, hv]
    apply noV_col
    intro kv hkv
    apply noV_chain
    intro m hm
    by_cases he : m.isEagerM = true
    · cases m <;> simp [Mod.isEagerM] at he
      intro w _ msgs; simp [Mod.den]
    · rw [enumVals_eq] at hkv
      obtain ⟨⟨x, k⟩, hx, rfl⟩ := List.mem_map.1 hkv
      rw [List.mem_zipIdx_iff_getElem?] at hx
      exact ih k x hx m (checked_of_mem_nvsM hm (by simpa using he))
  | dictNone h => intro w _ msgs; simp [Mod.den, dictOps, h]
  | @dict nn item c kvs hv _ ih =>
    simp only [Mod.den, dictOps, hv]
    apply noV_col
    intro kv hkv
    apply noV_chain
    intro m hm
    by_cases he : m.isEagerM = true
    · cases m <;> simp [Mod.isEagerM] at he
      intro w _ msgs; simp [Mod.den]
    · obtain ⟨⟨k, x⟩, hx, rfl⟩ := List.mem_map.1 hkv
      exact ih k x hx m (checked_of_mem_nvsM hm (by simpa using he))
  | @instNone cls st c h => exact hvis cls st c (.inl h)
  | @inst cls st c h => exact hvis cls st c (.inr h)
  | unionNone h => intro w _ msgs; simp [Mod.den, unionOps, h]
  | @union alts a c ha' _ ih =>
    simp only [Mod.den, unionOps]
    split
    · intro w _ msgs; simp
    · apply noV_union alts ha'
      apply noV_chain
      intro m hm
      by_cases he : m.isEagerM = true
      · cases m <;> simp [Mod.isEagerM] at he
        intro w _ msgs; simp [Mod.den]
      · exact ih m (checked_of_mem_nvsM hm (by simpa using he))

theorem noV_fields {H : Heap} (hp : ProperErrors env) {ops : Field → Ops World} {c : Ctx} {i : Nat}
    {only : Option (List String)} {all : Bool} {fs : List Field}
    (hheap : ∀ f c w, ((ops f).validate c w).2.heap = w.heap)
    (h : ∀ f ∈ fs, skipField f only = false → ∀ w v, w.heap = H → w.getattr env i f.name = .ok v →
      NoV H ((ops f).validate (fieldCtx env w c i f v))) (w : World) (hw : w.heap = H) :
    (∃ w', validateFields env ops c i only all fs [] w = (.ok [], w')) ∨
    (∃ e w', validateFields env ops c i only all fs [] w = (.error e, w') ∧
      ∀ msgs, e ≠ .validation msgs) := by
  induction fs generalizing w with
  | nil => exact .inl ⟨w, rfl⟩
  | cons f fs ih =>
    have ih := ih (fun f' hf' => h f' (by simp [hf']))
    simp only [validateFields]
    cases hg : w.getattr env i f.name with
    | error e => exact .inr ⟨e, w, rfl, fun msgs he => getattr_not_validation hp w i f.name msgs (he ▸ hg)⟩
    | ok v =>
      simp only
      by_cases hsk : skipField f only = true
      · rw [if_pos hsk]; exact ih w hw
      · rw [if_neg hsk, validateField_run]
        by_cases ho : c.owner.isSome = true
        · rw [if_pos ho]
          have hm := h f (by simp) (by simpa using hsk) w v hw hg w hw
          have hh := hheap f (fieldCtx env w c i f v) w
          rcases hr : (ops f).validate (fieldCtx env w c i f v) w with ⟨r, w'⟩
          rw [hr] at hm hh
          cases r with
          | ok u => exact ih w' (by rw [← hw]; exact hh)
          | error e =>
            cases e with
            | validation msgs => exact absurd rfl (hm msgs)
            | _ => exact .inr ⟨_, w', rfl, by simp⟩
        · rw [if_neg ho]
          exact .inr ⟨_, w, rfl, by simp⟩

theorem noV_inst (hp : ProperErrors env) (w₀ : World) (J : String → Ctx → Prop)
    (hJ : ∀ cls c, J cls c → ∃ j, c.val = .obj j ∧ env.isSub (w₀.heap j).cls cls = true ∧
      ObjOk env w₀ J c j) (n : Nat) :
    ∀ cls st c, (c.val = .none ∨ J cls c) → NoV w₀.heap ((instOps env n cls st).validate c) := by
  induction n with
  | zero => intro cls st c _ w _ msgs; simp [instOps]
  | succ n ih =>
    intro cls st c hc
    rcases hc with hc | hc
    · intro w _ msgs; simp [instOps, instValidate, hc]
    · obtain ⟨i, hv, hsub, hok⟩ := hJ cls c hc
      intro w hw msgs
      simp only [instOps, instValidate, hv]
      split
      · simp
      · have hh : ((w.markPut env i).visit i).heap = w₀.heap := (visit_markPut_heap w i).trans hw
        generalize (w.markPut env i).visit i = w₁ at hh
        rw [hh, if_pos hsub]
        simp only [instValidateBody, Py.bind_run, Py.get_run]
        have hcd : w₁.cdef env i = w₀.cdef env i := by unfold World.cdef; rw [hh]
        rcases noV_fields (H := w₀.heap) hp (ops := Field.ops env (instOps env n)) (c := c) (i := i)
          (only := onlyModified (w₁.heap i)) (all := c.cfg.allFields.getD (env.cls cls).validateAllFields)
          (fs := (w₁.cdef env i).fields) (fun f c w => chain_heap n f.chain c w) (by
            intro f hf hs w₂ v hw₂ hg
            obtain ⟨v', hv', hacc⟩ := hok f (hcd ▸ hf) ((mustCheck_iff _ f).2 (by rw [← hh]; exact hs))
            rw [getattr_congr hw₂] at hg
            have : v' = v := by rw [hv'] at hg; cases hg; rfl
            subst this
            rw [fieldCtx_congr hw₂]
            apply noV_chain
            intro m hm
            by_cases he : m.isEagerM = true
            · cases m <;> simp [Mod.isEagerM] at he
              intro w _ msgs; simp [Mod.den]
            · exact noV_accepted ih (hacc m (checked_of_mem_nvsM hm (by simpa using he)))) w₁ hh with
          ⟨w', hr⟩ | ⟨e, w', hr, he⟩
        · rw [hr]; simp [raiseMsgs]
        · rw [hr]; simpa using he msgs

/-- **C20**, completeness. Let `J` be any family of places containing the validated object
such that every place in `J` holds an instance of the expected class all of whose
validated fields are accepted, objects inside values being accepted when their place is
in `J`. (That is: nothing reachable is rejected.) Then `validate()` does not raise a
validation error. Contrapositive: a validation error means that every such family
breaks, i.e. some reachable field is rejected by its validators. -/
theorem validate_complete (hp : ProperErrors env) (w : World) (i : Nat) (all : Option Bool) (n : Nat)
    (J : String → Ctx → Prop) (hroot : J (w.heap i).cls (rootCtx w i { allFields := all } (.obj i)))
    (hJ : ∀ cls c, J cls c → ∃ j, c.val = .obj j ∧ env.isSub (w.heap j).cls cls = true ∧ ObjOk env w J c j)
    (msgs : List (String × String)) :
    (apiValidate env n i all w).1 ≠ .error (.validation msgs) := by
  have h := noV_inst hp w J hJ n (w.heap i).cls none (rootCtx w i { allFields := all } (.obj i)) (.inr hroot)
    { w with marks := [] } rfl msgs
  exact h

end JC
