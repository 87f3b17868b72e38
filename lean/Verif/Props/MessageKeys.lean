import Verif.Props.ValidateComplete

/-
C46: the key of a validation message is the dotted path to a value that is rejected.
-/
namespace JC

variable {env : Env}

/-! ### Specification -/

/-- Places reached from object `i`: `Place p o v ms` says that following the labels `p`
leads to the value `v`, guarded by the modifiers `ms`; `o` is the object whose class cases
the labels of the fields found at `v`. A field is labelled with its name as output by the
class of that object, list items with their index, dict entries with their key. -/
inductive Place (env : Env) (w : World) (i : Nat) : List Key → Option Nat → Val → List Mod → Prop
  | root : Place env w i [] (some i) (.obj i) [.instOf (w.heap i).cls none]
  | field {p o j ms cls st f v} : Place env w i p (some o) (.obj j) ms → Checked ms (.instOf cls st) →
      f ∈ (w.cdef env j).fields → w.getattr env j f.name = .ok v →
      Place env w i (p ++ [.s ((w.cdef env o).outKey f.name)])
        (if f.ftype = .inst then v.idx? else some j) v f.chain
  | item {p o xs ms nn sp item x} {k : Nat} : Place env w i p o (.list xs) ms →
      Checked ms (.listOf nn sp item) → xs[k]? = some x → Place env w i (p ++ [.i (k : Int)]) o x item
  | entry {p o kvs ms nn item k x} : Place env w i p o (.dict kvs) ms →
      Checked ms (.dictOf nn item) → (k, x) ∈ kvs → Place env w i (p ++ [.s k]) o x item

/-- The modifier rejects the value `v`, found at `p` with `o` as labelling object, with a message. -/
inductive RejectsWith (env : Env) (w : World) (p : List Key) (o : Option Nat) (v : Val) : Mod → String → Prop
  | leaf {l c msg} : c.val = v → c.fkeypathr = p → c.owner = o → l.validate w.heap c = .error (c.vexc msg) →
      RejectsWith env w p o v (.leaf l) msg
  | notList {nn sp item} : v ≠ .none → (∀ xs, v ≠ .list xs) →
      RejectsWith env w p o v (.listOf nn sp item) "value is not list"
  | notDict {nn item} : v ≠ .none → (∀ kvs, v ≠ .dict kvs) →
      RejectsWith env w p o v (.dictOf nn item) "value is not dict"
  | notInstance {cls st j} : v = .obj j → env.isSub (w.heap j).cls cls = false →
      RejectsWith env w p o v (.instOf cls st) ("value is not instance of " ++ cls)
  | noAlternative {alts} : v ≠ .none → RejectsWith env w p o v (.union alts) "value is not of any provided type"

/-- The message is about a value that is rejected, and its key is the dotted path there. -/
def Justified (env : Env) (w : World) (i : Nat) (x : String × String) : Prop :=
  ∃ p o v ms m, Place env w i p o v ms ∧ Checked ms m ∧ RejectsWith env w p o v m x.2 ∧
    x.1 = dotJoin (p.map Key.str)

/-- Validators report failures with `raise_vexc`: one message under the key of the place
they were called for. Getters raise no validation errors. -/
structure ReportsWithVexc (env : Env) : Prop where
  leaf : ∀ cls, ∀ f ∈ (env.cls cls).fields, Mod.AllL (fun l => ∀ h c msgs,
    l.validate h c = .error (.validation msgs) → ∃ msg, l.validate h c = .error (c.vexc msg))
    (fun _ => True) f.chain
  getter : ∀ cls, ∀ f ∈ (env.cls cls).fields, ∀ h i msgs, f.getter h i ≠ .error (.validation msgs)

/-! ### Proof -/

/-- On heap `H` all messages of a validation error satisfy `J`. -/
def Errs {α : Type} (J : String × String → Prop) (H : Heap) (m : Py World α) : Prop :=
  ∀ w, w.heap = H → ∀ msgs, (m w).1 = .error (.validation msgs) → ∀ x ∈ msgs, J x

theorem mem_dictSet {α : Type} {k : String} {v : α} {d : List (String × α)} {x : String × α}
    (h : x ∈ dictSet k v d) : x = (k, v) ∨ x ∈ d := by
  induction d with
  | nil => simpa [dictSet] using h
  | cons y ys ih =>
    obtain ⟨k', v'⟩ := y
    simp only [dictSet] at h
    split at h
    · next hk =>
      rcases List.mem_cons.1 h with h | h
      · exact .inl (by simpa [hk] using h)
      · exact .inr (by simp [h])
    · rcases List.mem_cons.1 h with h | h
      · exact .inr (by simp [h])
      · rcases ih h with h | h
        · exact .inl h
        · exact .inr (by simp [h])

theorem mem_dictUpdate {α : Type} {d e : List (String × α)} {x : String × α}
    (h : x ∈ dictUpdate d e) : x ∈ d ∨ x ∈ e := by
  unfold dictUpdate at h
  induction e generalizing d with
  | nil => exact .inl h
  | cons y ys ih =>
    rcases ih h with h | h
    · rcases mem_dictSet h with h | h
      · exact .inr (by simp [h])
      · exact .inl h
    · exact .inr (by simp [h])

variable {J : String × String → Prop} {H : Heap}

theorem errs_loop {n : Nat} {c : Ctx} (ms : List Mod)
    (h : ∀ m ∈ ms, Errs J H ((m.den env (instOps env n)).validate c)) (acc : List (String × String))
    (hacc : ∀ x ∈ acc, J x) (w : World) (hw : w.heap = H) :
    (∀ msgs, (validateLoop c (ms.map (fun m => m.den env (instOps env n))) acc w).1 = .ok msgs →
      ∀ x ∈ msgs, J x) ∧
    (∀ msgs, (validateLoop c (ms.map (fun m => m.den env (instOps env n))) acc w).1 ≠
      .error (.validation msgs)) := by
  induction ms generalizing acc w with
  | nil =>
    refine ⟨fun msgs hm => ?_, fun msgs hm => by cases hm⟩
    cases hm; exact hacc
  | cons m ms ih =>
    simp only [List.map_cons, validateLoop]
    have hm := h m (by simp) w hw
    have hheap := den_heap (env := env) n m c w
    have ih := ih (fun m' hm' => h m' (by simp [hm']))
    rcases hr : (m.den env (instOps env n)).validate c w with ⟨r, w'⟩
    rw [hr] at hm hheap
    have hw' : w'.heap = H := hheap.trans hw
    cases r with
    | ok u => exact ih acc hacc w' hw'
    | error e =>
      cases e with
      | validation msgs =>
        have hu : ∀ x ∈ dictUpdate acc msgs, J x := by
          intro x hx
          rcases mem_dictUpdate hx with hx | hx
          · exact hacc x hx
          · exact hm msgs rfl x hx
        simp only
        split
        · exact ih _ hu w' hw'
        · refine ⟨fun ms' hm' => ?_, fun ms' hm' => by cases hm'⟩
          cases hm'; exact hu
      | _ => exact ⟨fun _ h => by (cases h), fun _ h => by (cases h)⟩

theorem errs_chain {n : Nat} {c : Ctx} (ms : List Mod)
    (h : ∀ m ∈ nvsM ms, Errs J H ((m.den env (instOps env n)).validate c)) :
    Errs J H (chainValidate (denL env (instOps env n) ms) c) := by
  intro w hw msgs
  unfold chainValidate
  rw [nvs_denL _ _ (instOps_noMarks env n), Py.bind_run]
  have := errs_loop (nvsM ms) h [] (by simp) w hw
  generalize validateLoop c ((nvsM ms).map (fun m => m.den env (instOps env n))) [] w = out at this ⊢
  obtain ⟨r, w'⟩ := out
  cases r with
  | ok ms' =>
    intro h x hx
    simp only [raiseMsgs] at h
    cases ms' with
    | nil => cases h
    | cons y ys =>
      cases h
      exact this.1 _ rfl x hx
  | error e =>
    intro h
    simp only at h
    cases h
    exact absurd rfl (this.2 msgs)

theorem errs_items {n : Nat} {c : Ctx} {all : Bool} {ms : List Mod} (es : List (Key × Val))
    (h : ∀ kv ∈ es, Errs J H (chainValidate (denL env (instOps env n) ms) (c.colval kv.2 kv.1)))
    (acc : List (String × String)) (hacc : ∀ x ∈ acc, J x) (w : World) (hw : w.heap = H) :
    (∀ msgs, (colValidateLoop (chainOps (setParent env) (denL env (instOps env n) ms)) c all es acc w).1 =
      .ok msgs → ∀ x ∈ msgs, J x) ∧
    (∀ msgs, (colValidateLoop (chainOps (setParent env) (denL env (instOps env n) ms)) c all es acc w).1 =
      .error (.validation msgs) → ∀ x ∈ msgs, J x) := by
  induction es generalizing acc w with
  | nil =>
    refine ⟨fun msgs hm => ?_, fun msgs hm => by cases hm⟩
    cases hm; exact hacc
  | cons e es ih =>
    obtain ⟨k, v⟩ := e
    have hm := h (k, v) (by simp) w hw
    have hheap := chain_heap (env := env) n ms (c.colval v k) w
    have ih := ih (fun m' hm' => h m' (by simp [hm']))
    simp only [colValidateLoop, chainOps]
    simp only at hm
    rcases hr : chainValidate (denL env (instOps env n) ms) (c.colval v k) w with ⟨r, w'⟩
    rw [hr] at hm hheap
    have hw' : w'.heap = H := hheap.trans hw
    cases r with
    | ok u => exact ih acc hacc w' hw'
    | error e =>
      cases e with
      | validation msgs =>
        have hu : ∀ x ∈ dictUpdate acc msgs, J x := by
          intro x hx
          rcases mem_dictUpdate hx with hx | hx
          · exact hacc x hx
          · exact hm msgs rfl x hx
        simp only
        split
        · exact ih _ hu w' hw'
        · refine ⟨fun ms' hm' => (by cases hm'), fun ms' hm' => ?_⟩
          cases hm'; exact hm _ rfl
      | _ => exact ⟨fun _ h => by (cases h), fun _ h => by (cases h)⟩

theorem errs_col {n : Nat} {c : Ctx} {sp : Special} {ms : List Mod} (es : List (Key × Val))
    (h : ∀ kv ∈ es, Errs J H (chainValidate (denL env (instOps env n) ms) (c.colval kv.2 kv.1))) :
    Errs J H (colValidate (colEnv env sp) (chainOps (setParent env) (denL env (instOps env n) ms)) c es) := by
  intro w hw msgs
  simp only [colValidate, Py.bind_run, colEnv]
  cases c.owner with
  | none => intro h; cases h
  | some o =>
    simp only [readW]
    generalize (w.cdef env o).validateAllFields = b
    have := errs_items (all := c.cfg.allFields.getD b) es h [] (by simp) w hw
    rcases hr : colValidateLoop (chainOps (setParent env) (denL env (instOps env n) ms)) c
      (c.cfg.allFields.getD b) es [] w with ⟨r, w'⟩
    rw [hr] at this
    cases r with
    | ok ms' =>
      intro h x hx
      simp only [raiseMsgs] at h
      cases ms' with
      | nil => cases h
      | cons y ys =>
        cases h
        exact this.1 _ rfl x hx
    | error e =>
      intro h
      simp only at h
      cases h
      exact this.2 msgs rfl

theorem errs_union {n : Nat} {c : Ctx} (as : List (List Mod))
    (hJ : J (c.sfkeypathr, "value is not of any provided type")) :
    ∀ w msgs, (unionValidate c (denA env (instOps env n) as) w).1 = .error (.validation msgs) →
      ∀ x ∈ msgs, J x := by
  induction as with
  | nil =>
    intro w msgs h x hx
    cases h
    simp only [List.mem_singleton] at hx
    exact hx ▸ hJ
  | cons a as ih =>
    intro w msgs h
    simp only [denA, unionValidate, Py.catchV] at h
    rcases hr : (chainOps (setParent env) (denL env (instOps env n) a)).validate c w with ⟨r, w'⟩
    rw [hr] at h
    cases r with
    | ok u => cases h
    | error e =>
      cases e with
      | validation ms => exact ih w' msgs h
      | _ => cases h

/-- The place a context describes. -/
def AtPlace (env : Env) (w : World) (i : Nat) (c : Ctx) (ms : List Mod) : Prop :=
  Place env w i c.fkeypathr c.owner c.val ms ∧ ∀ j, c.val = .obj j → c.original.getD j = j

/-- What is known about the leaves of a chain. -/
abbrev VexcOnly (l : Leaf) : Prop := ∀ h c msgs,
  l.validate h c = .error (.validation msgs) → ∃ msg, l.validate h c = .error (c.vexc msg)

mutual
theorem errs_den {w₀ : World} {i n : Nat}
    (hvis : ∀ cls st c ms, AtPlace env w₀ i c ms → Checked ms (.instOf cls st) →
      Errs (Justified env w₀ i) w₀.heap ((instOps env n cls st).validate c)) :
    ∀ (m : Mod), m.All VexcOnly (fun _ => True) → ∀ (c : Ctx) (ms : List Mod), AtPlace env w₀ i c ms →
      Checked ms m → Errs (Justified env w₀ i) w₀.heap ((m.den env (instOps env n)).validate c)
  | .eager, _, _, _, _, _ => by intro w _ msgs h; cases h
  | .pre, _, _, _, _, _ => by intro w _ msgs h; cases h
  | .leaf l, hl, c, ms, hp, hc => by
    intro w hw msgs h x hx
    simp only [Mod.den, leafOps, readW, hw] at h
    obtain ⟨msg, hm⟩ := hl _ _ _ h
    rw [h] at hm
    cases hm
    simp only [List.mem_singleton] at hx
    subst hx
    exact ⟨_, _, _, ms, _, hp.1, hc, .leaf rfl rfl rfl h, rfl⟩
  | .listOf nn sp item, hl, c, ms, hp, hc => by
    simp only [Mod.den, listOps]
    split
    · intro w _ msgs h; cases h
    · next xs hv =>
      apply errs_col
      intro kv hkv
      have hk : ∃ k : Nat, kv.1 = .i k ∧ xs[k]? = some kv.2 := by
        have : ∀ (n : Nat) (xs : List Val), kv ∈ enumVals n xs →
            ∃ k : Nat, kv.1 = .i (n + k) ∧ xs[k]? = some kv.2 := by
          intro n xs
          induction xs generalizing n with
          | nil => intro h; cases h
          | cons y ys ih =>
            intro h
            simp only [enumVals, List.mem_cons] at h
            rcases h with rfl | h
            · exact ⟨0, rfl, rfl⟩
            · obtain ⟨k, h1, h2⟩ := ih (n + 1) h
              exact ⟨k + 1, by rw [h1]; congr 1; omega, by simpa using h2⟩
        simpa using this 0 xs hkv
      obtain ⟨k, hk1, hk2⟩ := hk
      refine errs_den_chain hvis item hl _ ⟨?_, fun j _ => rfl⟩
      have := Place.item (hv ▸ hp.1) hc hk2
      rw [hk1]
      exact this
    · next v h1 h2 =>
      intro w _ msgs h x hx
      cases h
      simp only [List.mem_singleton] at hx
      subst hx
      exact ⟨_, _, _, ms, _, hp.1, hc, .notList (fun h => h1 h) (fun xs h => h2 xs h), rfl⟩
  | .dictOf nn item, hl, c, ms, hp, hc => by
    simp only [Mod.den, dictOps]
    split
    · intro w _ msgs h; cases h
    · next kvs hv =>
      apply errs_col
      intro kv hkv
      simp only [enumDict, List.mem_map] at hkv
      obtain ⟨⟨k, x⟩, hk, rfl⟩ := hkv
      refine errs_den_chain hvis item hl _ ⟨?_, fun j _ => rfl⟩
      exact Place.entry (hv ▸ hp.1) hc hk
    · next v h1 h2 =>
      intro w _ msgs h x hx
      cases h
      simp only [List.mem_singleton] at hx
      subst hx
      exact ⟨_, _, _, ms, _, hp.1, hc, .notDict (fun h => h1 h) (fun xs h => h2 xs h), rfl⟩
  | .instOf cls st, _, c, ms, hp, hc => hvis cls st c ms hp hc
  | .union alts, _, c, ms, hp, hc => by
    simp only [Mod.den, unionOps]
    split
    · intro w _ msgs h; cases h
    · next v h1 =>
      intro w _
      exact errs_union alts ⟨_, _, _, ms, _, hp.1, hc, .noAlternative h1, rfl⟩ w
theorem errs_den_chain {w₀ : World} {i n : Nat}
    (hvis : ∀ cls st c ms, AtPlace env w₀ i c ms → Checked ms (.instOf cls st) →
      Errs (Justified env w₀ i) w₀.heap ((instOps env n cls st).validate c)) :
    ∀ (ms : List Mod), Mod.AllL VexcOnly (fun _ => True) ms → ∀ (c : Ctx), AtPlace env w₀ i c ms →
      Errs (Justified env w₀ i) w₀.heap (chainValidate (denL env (instOps env n) ms) c)
  | ms, hl, c, hp => errs_chain ms (fun m hm => by
      by_cases he : m.isEagerM = true
      · cases m with
        | eager => intro w _ msgs h; cases h
        | _ => cases he
      · exact errs_den_list hvis ms hl m (mem_nvsM hm) c ms hp
          (checked_of_mem_nvsM hm (by simpa using he)))
theorem errs_den_list {w₀ : World} {i n : Nat}
    (hvis : ∀ cls st c ms, AtPlace env w₀ i c ms → Checked ms (.instOf cls st) →
      Errs (Justified env w₀ i) w₀.heap ((instOps env n cls st).validate c)) :
    ∀ (ms : List Mod), Mod.AllL VexcOnly (fun _ => True) ms → ∀ m ∈ ms, ∀ (c : Ctx) (ms' : List Mod),
      AtPlace env w₀ i c ms' → Checked ms' m →
      Errs (Justified env w₀ i) w₀.heap ((m.den env (instOps env n)).validate c)
  | [], _ => by intro m hm; cases hm
  | m :: ms, hl => by
    intro m' hm' c ms' hp hc
    rcases List.mem_cons.1 hm' with h | h
    · exact h ▸ errs_den hvis m hl.1 c ms' hp (h ▸ hc)
    · exact errs_den_list hvis ms hl.2 m' h c ms' hp hc
end

theorem errs_fields (hr : ReportsWithVexc env) {w₀ : World} {i n : Nat}
    (hvis : ∀ cls st c ms, AtPlace env w₀ i c ms → Checked ms (.instOf cls st) →
      Errs (Justified env w₀ i) w₀.heap ((instOps env n cls st).validate c))
    {c : Ctx} {j : Nat} {ms : List Mod} {cls st} (hv : c.val = .obj j) (hp : AtPlace env w₀ i c ms)
    (hc : Checked ms (.instOf cls st)) {only : Option (List String)} {all : Bool} (fs : List Field)
    (hfs : ∀ f ∈ fs, f ∈ (w₀.cdef env j).fields) (acc : List (String × String))
    (hacc : ∀ x ∈ acc, Justified env w₀ i x) (w : World) (hw : w.heap = w₀.heap) :
    (∀ msgs, (validateFields env (Field.ops env (instOps env n)) c j only all fs acc w).1 =
      .ok msgs → ∀ x ∈ msgs, Justified env w₀ i x) ∧
    (∀ msgs, (validateFields env (Field.ops env (instOps env n)) c j only all fs acc w).1 =
      .error (.validation msgs) → ∀ x ∈ msgs, Justified env w₀ i x) := by
  induction fs generalizing acc w with
  | nil =>
    refine ⟨fun msgs hm => ?_, fun msgs hm => by cases hm⟩
    cases hm; exact hacc
  | cons f fs ih =>
    have ih := ih (fun m' hm' => hfs m' (by simp [hm']))
    have hf := hfs f (by simp)
    simp only [validateFields]
    cases hg : w.getattr env j f.name with
    | error e =>
      refine ⟨fun _ h => (by cases h), fun msgs h => ?_⟩
      simp only at h
      cases h
      exfalso
      unfold World.getattr at hg
      split at hg
      · next g hgf =>
        have hmem : g ∈ (env.cls (w.heap j).cls).fields := List.mem_of_find?_eq_some hgf
        split at hg
        · exact hr.getter _ g hmem _ _ _ hg
        · cases hg
      · cases hg
    | ok v =>
      simp only
      split
      · exact ih acc hacc w hw
      · rw [validateField_run]
        cases ho : c.owner with
        | none => exact ⟨fun _ h => by (cases h), fun _ h => by (cases h)⟩
        | some o =>
          simp only [Option.isSome_some, if_true]
          have hat : AtPlace env w₀ i (fieldCtx env w c j f v) f.chain := by
            have hpl := Place.field (ho ▸ hv ▸ hp.1) hc hf (by rw [← hg]; exact (getattr_congr hw j f.name).symm)
            unfold AtPlace fieldCtx
            have hcd : w.cdef env o = w₀.cdef env o := by simp only [World.cdef, hw]
            simp only [ho, hcd]
            by_cases hft : f.ftype = .inst
            · simp only [hft, if_true] at hpl ⊢
              exact ⟨hpl, fun j _ => rfl⟩
            · simp only [hft, if_false] at hpl ⊢
              refine ⟨?_, fun j _ => rfl⟩
              have : c.original.getD j = j := hp.2 j hv
              simpa only [Ctx.nextvo, Ctx.nextv, this] using hpl
          have hm := errs_den_chain hvis f.chain (hr.leaf _ f hf) _ hat w hw
          have hheap := chain_heap (env := env) n f.chain (fieldCtx env w c j f v) w
          simp only [Field.ops, chainOps]
          rcases hrun : chainValidate (denL env (instOps env n) f.chain) (fieldCtx env w c j f v) w
            with ⟨r, w'⟩
          rw [hrun] at hm hheap
          have hw' : w'.heap = w₀.heap := hheap.trans hw
          cases r with
          | ok u => exact ih acc hacc w' hw'
          | error e =>
            cases e with
            | validation msgs =>
              have hu : ∀ x ∈ dictUpdate acc msgs, Justified env w₀ i x := by
                intro x hx
                rcases mem_dictUpdate hx with hx | hx
                · exact hacc x hx
                · exact hm msgs rfl x hx
              simp only
              split
              · exact ih _ hu w' hw'
              · refine ⟨fun ms' hm' => (by cases hm'), fun ms' hm' => ?_⟩
                cases hm'; exact hm _ rfl
            | _ => exact ⟨fun _ h => by (cases h), fun _ h => by (cases h)⟩

theorem errs_inst (hr : ReportsWithVexc env) (w₀ : World) (i n : Nat) : ∀ cls st c ms,
    AtPlace env w₀ i c ms → Checked ms (.instOf cls st) →
    Errs (Justified env w₀ i) w₀.heap ((instOps env n cls st).validate c) := by
  induction n with
  | zero => intro cls st c ms _ _ w _ msgs h; cases h
  | succ n ih =>
    intro cls st c ms hp hc
    simp only [instOps, instValidate]
    split
    · intro w _ msgs h; cases h
    · next j hv =>
      intro w hw
      simp only
      split
      · intro msgs h; cases h
      · have hwh : ((w.markPut env j).visit j).heap = w₀.heap := (visit_markPut_heap w j).trans hw
        generalize (w.markPut env j).visit j = w' at hwh
        split
        · intro msgs h
          have hcd : w'.cdef env j = w₀.cdef env j := by simp only [World.cdef, hwh]
          simp only [instValidateBody, Py.bind_run, Py.get_run, hcd] at h
          have := errs_fields hr ih hv hp hc (only := onlyModified (w'.heap j))
            (all := c.cfg.allFields.getD (env.cls cls).validateAllFields) (w₀.cdef env j).fields
            (fun _ h => h) [] (by simp) w' hwh
          generalize validateFields env (Field.ops env (instOps env n)) c j (onlyModified (w'.heap j))
            (c.cfg.allFields.getD (env.cls cls).validateAllFields) (w₀.cdef env j).fields [] w' = out at h this
          obtain ⟨r, w''⟩ := out
          cases r with
          | ok ms' =>
            intro x hx
            simp only [raiseMsgs] at h
            cases ms' with
            | nil => cases h
            | cons y ys =>
              cases h
              exact this.1 _ rfl x hx
          | error e =>
            simp only at h
            cases h
            exact this.2 msgs rfl
        · next hsub =>
          intro msgs h x hx
          cases h
          simp only [List.mem_singleton] at hx
          subst hx
          refine ⟨_, _, _, ms, _, hp.1, hc, .notInstance hv ?_, rfl⟩
          rw [hwh] at hsub
          simpa using hsub
    · intro w _ msgs h; cases h

/-- **C46**. Each entry of the messages raised by `validate()` is about a value that can be
reached from the validated object and that one of its guarding modifiers rejects with this
message, and its key is the dotted path from the validated object to this value. -/
theorem message_keys (hr : ReportsWithVexc env) (w : World) (i : Nat) (all : Option Bool) (n : Nat)
    (msgs : List (String × String))
    (h : (apiValidate env n i all w).1 = .error (.validation msgs)) (key msg : String)
    (hx : (key, msg) ∈ msgs) :
    ∃ p o v ms m, Place env w i p o v ms ∧ Checked ms m ∧ RejectsWith env w p o v m msg ∧
      key = dotJoin (p.map Key.str) := by
  have hat : AtPlace env w i (rootCtx w i { allFields := all } (.obj i))
      [.instOf (w.heap i).cls none] :=
    ⟨.root, fun j hj => by cases hj; rfl⟩
  exact errs_inst hr w i n _ none _ _ hat ⟨[], [], rfl, by simp [Mod.isEagerM], by simp [Mod.isPreM]⟩
    { w with marks := [] } rfl msgs h (key, msg) hx

end JC

namespace JC

variable {env : Env}

/-! ### Casing of the path -/

/-- Paths whose fields are labelled with their name as output by the class that declares
them. -/
inductive OwnPlace (env : Env) (w : World) (i : Nat) : List Key → Val → List Mod → Prop
  | root : OwnPlace env w i [] (.obj i) [.instOf (w.heap i).cls none]
  | field {p j ms cls st f v} : OwnPlace env w i p (.obj j) ms → Checked ms (.instOf cls st) →
      f ∈ (w.cdef env j).fields → w.getattr env j f.name = .ok v →
      OwnPlace env w i (p ++ [.s ((w.cdef env j).outKey f.name)]) v f.chain
  | item {p xs ms nn sp item x} {k : Nat} : OwnPlace env w i p (.list xs) ms →
      Checked ms (.listOf nn sp item) → xs[k]? = some x → OwnPlace env w i (p ++ [.i (k : Int)]) x item
  | entry {p kvs ms nn item k x} : OwnPlace env w i p (.dict kvs) ms →
      Checked ms (.dictOf nn item) → (k, x) ∈ kvs → OwnPlace env w i (p ++ [.s k]) x item

theorem Place.own (hk : ∀ a b s, (env.cls a).outKey s = (env.cls b).outKey s) {w : World} {i : Nat}
    {p o v ms} (h : Place env w i p o v ms) : OwnPlace env w i p v ms := by
  induction h with
  | root => exact .root
  | @field p o j ms cls st f v _ hc hf hv ih =>
    have : (w.cdef env o).outKey f.name = (w.cdef env j).outKey f.name := hk _ _ _
    rw [this]
    exact .field ih hc hf hv
  | item _ hc hx ih => exact .item ih hc hx
  | entry _ hc hx ih => exact .entry ih hc hx

/-- The full claim: the keys name the places in the casing of the classes met on the way. -/
def MessageKeysOwn (env : Env) (w : World) (i n : Nat) : Prop :=
  ∀ msgs, (apiValidate env n i none w).1 = .error (.validation msgs) → ∀ key msg, (key, msg) ∈ msgs →
    ∃ p v ms, OwnPlace env w i p v ms ∧ key = dotJoin (p.map Key.str)

/-- **C46**, partial: the full claim when all classes use the same casing. Missing: classes
with different casing, for which the code violates it (`message_keys_foreign_casing`). -/
theorem message_keys_own_partial (hr : ReportsWithVexc env)
    (hk : ∀ a b s, (env.cls a).outKey s = (env.cls b).outKey s) (w : World) (i n : Nat) :
    MessageKeysOwn env w i n := by
  intro msgs h key msg hx
  obtain ⟨p, o, v, ms, m, hp, -, -, he⟩ := message_keys hr w i none n msgs h key msg hx
  exact ⟨p, v, ms, hp.own hk, he⟩

end JC

namespace JC.MsgDemo

open JC
open JC.Demo (reqStr optStr fId attrsOf)

/-- A note with a required text. -/
def fText : Field := { name := "body_text", jsonName := "bodyText", chain := [.leaf reqStr] }
def note : ClassDef := { name := "Note", fields := [fText] }
/-- A book with notes, whose output names start with an `X`. -/
def fNotes : Field := { name := "notes", jsonName := "notes", ftype := .list,
                        chain := [.listOf false .no [.instOf "Note" none]] }
def book : ClassDef := { name := "Book", fields := [fNotes], outKey := fun s => "X" ++ s }
def env : Env where
  cls := fun n => if n = "Note" then note else if n = "Book" then book else {}
  pystr := fun _ => ""

def world : World where
  heap := fun i => match i with
    | 0 => { cls := "Book", isNew := true, attrs := attrsOf [("notes", .list [.obj 1, .obj 2])] }
    | 1 => { cls := "Note", isNew := true, attrs := attrsOf [("body_text", .str "a")] }
    | 2 => { cls := "Note", isNew := true }
    | _ => {}
  next := 3

/-- The second note has no text: the key names it, its field cased by the book. -/
theorem run : (apiValidate env 4 0 none world).1 =
    .error (.validation [("Xnotes.1.Xbody_text", "value required")]) := by
  rfl

theorem env_cases (cls : String) : env.cls cls = note ∨ env.cls cls = book ∨ env.cls cls = {} := by
  simp only [env]
  split
  · exact .inl rfl
  · split
    · exact .inr (.inl rfl)
    · exact .inr (.inr rfl)

theorem reports : ReportsWithVexc env where
  leaf := by
    intro cls f hf
    have hreq : VexcOnly reqStr := by
      intro h c msgs he
      simp only [reqStr] at he ⊢
      split at he
      · cases he
      · exact ⟨_, rfl⟩
      · exact ⟨_, rfl⟩
    rcases env_cases cls with h | h | h <;> rw [h] at hf
    · simp only [note, List.mem_singleton] at hf
      subst hf
      exact ⟨hreq, trivial⟩
    · simp only [book, List.mem_singleton] at hf
      subst hf
      exact ⟨⟨trivial, trivial⟩, trivial⟩
    · cases hf
  getter := by
    intro cls f hf h i msgs he
    rcases env_cases cls with h' | h' | h' <;> rw [h'] at hf
    · simp only [note, List.mem_singleton] at hf
      subst hf; cases he
    · simp only [book, List.mem_singleton] at hf
      subst hf; cases he
    · cases hf

/-- The hypotheses of `message_keys` are met by a run with a message. -/
example : ∃ p o v ms m, Place env world 0 p o v ms ∧ Checked ms m ∧
    RejectsWith env world p o v m "value required" ∧
    "Xnotes.1.Xbody_text" = dotJoin (p.map Key.str) :=
  message_keys reports world 0 none 4 _ run _ _ (by simp)

/-- The same classes with one casing for all. -/
def plain : Env := { env with cls := fun n => { env.cls n with outKey := id } }

/-- The hypotheses of `message_keys_own_partial` are met by a run with a message. -/
example : ∃ p v ms, OwnPlace plain world 0 p v ms ∧ "notes.1.body_text" = dotJoin (p.map Key.str) :=
  message_keys_own_partial (env := plain) ⟨reports.leaf, reports.getter⟩ (fun _ _ _ => rfl) world 0 4
    [("notes.1.body_text", "value required")] rfl _ "value required" (by simp)

theorem checked_one {m m' : Mod} (h : Checked [m] m') : m' = m := by
  obtain ⟨a, b, h, -, -⟩ := h
  cases a with
  | nil => cases h; rfl
  | cons x xs =>
    have := congrArg List.length h
    simp at this

/-- All places of the book. -/
theorem places {p v ms} (h : OwnPlace env world 0 p v ms) :
    (p = [] ∧ v = .obj 0 ∧ ms = [.instOf "Book" none]) ∨
    (p = [.s "Xnotes"] ∧ v = .list [.obj 1, .obj 2] ∧ ms = [.listOf false .no [.instOf "Note" none]]) ∨
    ((p = [.s "Xnotes", .i 0] ∧ v = .obj 1 ∨ p = [.s "Xnotes", .i 1] ∧ v = .obj 2) ∧
      ms = [.instOf "Note" none]) ∨
    ((p = [.s "Xnotes", .i 0, .s "body_text"] ∨ p = [.s "Xnotes", .i 1, .s "body_text"]) ∧
      ms = [.leaf reqStr]) := by
  induction h with
  | root => exact .inl ⟨rfl, rfl, rfl⟩
  | @field p j ms cls st f v _ hc hf hv ih =>
    rcases ih with ⟨rfl, hj, -⟩ | ⟨-, hj, -⟩ | ⟨⟨rfl, hj⟩ | ⟨rfl, hj⟩, -⟩ | ⟨-, rfl⟩
    · cases hj
      have hf' : f = fNotes := by
        have : world.cdef env 0 = book := rfl
        rw [this] at hf
        simpa [book] using hf
      subst hf'
      have : world.getattr env 0 fNotes.name = .ok (.list [.obj 1, .obj 2]) := rfl
      rw [this] at hv
      cases hv
      exact .inr (.inl ⟨rfl, rfl, rfl⟩)
    · cases hj
    · cases hj
      have hf' : f = fText := by
        have : world.cdef env 1 = note := rfl
        rw [this] at hf
        simpa [note] using hf
      subst hf'
      exact .inr (.inr (.inr ⟨.inl rfl, rfl⟩))
    · cases hj
      have hf' : f = fText := by
        have : world.cdef env 2 = note := rfl
        rw [this] at hf
        simpa [note] using hf
      subst hf'
      exact .inr (.inr (.inr ⟨.inr rfl, rfl⟩))
    · cases checked_one hc
  | @item p xs ms nn sp item x k _ hc hx ih =>
    rcases ih with ⟨-, hj, -⟩ | ⟨rfl, hj, rfl⟩ | ⟨⟨-, hj⟩ | ⟨-, hj⟩, -⟩ | ⟨-, rfl⟩
    · cases hj
    · cases hj
      cases checked_one hc
      refine .inr (.inr (.inl ⟨?_, rfl⟩))
      match k, hx with
      | 0, hx => cases hx; exact .inl ⟨rfl, rfl⟩
      | 1, hx => cases hx; exact .inr ⟨rfl, rfl⟩
      | k + 2, hx => simp at hx
    · cases hj
    · cases hj
    · cases checked_one hc
  | entry _ hc _ ih =>
    rcases ih with ⟨-, hj, -⟩ | ⟨-, hj, -⟩ | ⟨⟨-, hj⟩ | ⟨-, hj⟩, -⟩ | ⟨-, rfl⟩
    · cases hj
    · cases hj
    · cases hj
    · cases hj
    · cases checked_one hc

end JC.MsgDemo

namespace JC

open MsgDemo in
/-- The full claim fails: fields of objects in a list or dict are cased by the class that
holds the list or dict, not by their own. -/
theorem message_keys_foreign_casing : ∃ n, ¬ MessageKeysOwn MsgDemo.env MsgDemo.world 0 n := by
  refine ⟨4, fun h => ?_⟩
  obtain ⟨p, v, ms, hp, he⟩ := h _ run "Xnotes.1.Xbody_text" "value required" (by simp)
  rcases places hp with ⟨rfl, -⟩ | ⟨rfl, -⟩ | ⟨⟨rfl, -⟩ | ⟨rfl, -⟩, -⟩ | ⟨rfl | rfl, -⟩ <;>
    exact absurd he (by decide)

end JC
