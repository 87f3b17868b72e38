import Verif.Props.Json
import Verif.Props.ValidateSound
import Verif.Model.EnumMod
import Verif.Model.DateTime
import Verif.Model.Fmtd
import Verif.Model.Strings
import Verif.Model.SubPipe

/-
C83: the output of tojson() is plain JSON data.
-/
namespace JC

variable {env : Env}

/-! ### Specification -/

/-- Data that JSON has: None, truth values, numbers, texts, and lists and dicts of such. -/
inductive PlainV : Val → Prop
  | none : PlainV .none
  | bool (b : Bool) : PlainV (.bool b)
  | int (n : Int) : PlainV (.int n)
  | flt (f : Flt) : PlainV (.flt f)
  | str (s : String) : PlainV (.str s)
  | list {xs : List Val} : (∀ x ∈ xs, PlainV x) → PlainV (.list xs)
  | dict {kvs : List (String × Val)} : (∀ kv ∈ kvs, PlainV kv.2) → PlainV (.dict kvs)

/-- The modifier leaves values alone on output. -/
def Leaf.Quiet (l : Leaf) : Prop := ∀ h c, l.tojson h c = .ok c.val
/-- Whatever it outputs is plain. -/
def Leaf.Makes (l : Leaf) : Prop := ∀ h c r, l.tojson h c = .ok r → PlainV r
/-- It outputs plain data for plain data. -/
def Leaf.Keeps (l : Leaf) : Prop := ∀ h c r, PlainV c.val → l.tojson h c = .ok r → PlainV r

/-- every modifier of the chain outputs plain data for plain data -/
abbrev KeepsL (ch : List Mod) : Prop := Mod.ShownL Leaf.Keeps (fun _ => True) True True ch

/-- No validation of the value with the chain passes. -/
def Refuses (env : Env) (ch : List Mod) (v : Val) : Prop :=
  ∀ n (c : Ctx) (w : World) u, c.val = v → (chainValidate (denL env (instOps env n) ch) c w).1 ≠ .ok u

/-- The value is of the kind that the declaration turns into plain data: plain itself, or a date or an enum member
of a field declared so, one of the objects `S`, or a list or dict of values that fit the declared item type, or one
that fits each alternative of a union that does not refuse it. -/
inductive ShownAs (env : Env) (S : Nat → Prop) : List Mod → Val → Prop
  | plain {ch v} : PlainV v → KeepsL ch → ShownAs env S ch v
  | eager {ms v} : ShownAs env S ms v → ShownAs env S (.eager :: ms) v
  | pre {ms v} : ShownAs env S ms v → ShownAs env S (.pre :: ms) v
  | quiet {l ms v} : l.Quiet → ShownAs env S ms v → ShownAs env S (.leaf l :: ms) v
  | makes {l ms v} : l.Makes → KeepsL ms → ShownAs env S (.leaf l :: ms) v
  | obj {cls st ms j} : S j → KeepsL ms → ShownAs env S (.instOf cls st :: ms) (.obj j)
  | noList {nn sp item ms} : KeepsL ms → ShownAs env S (.listOf nn sp item :: ms) .none
  | noDict {nn item ms} : KeepsL ms → ShownAs env S (.dictOf nn item :: ms) .none
  | list {nn sp item ms xs} : (∀ x ∈ xs, ShownAs env S item x) → KeepsL ms → ShownAs env S (.listOf nn sp item :: ms) (.list xs)
  | dict {nn item ms kvs} : (∀ kv ∈ kvs, ShownAs env S item kv.2) → KeepsL ms → ShownAs env S (.dictOf nn item :: ms) (.dict kvs)
  | union {alts ms v} : (∀ a ∈ alts, ¬ Refuses env a v → ShownAs env S a v) → KeepsL ms → ShownAs env S (.union alts :: ms) v

/-- The objects `S` hold values of the declared kinds, in all fields but temporary ones, and their reference ids are plain. -/
structure Showable (env : Env) (w : World) (S : Nat → Prop) : Prop where
  field : ∀ i, S i → ∀ f ∈ (w.cdef env i).fields, f.store ≠ .temp → ∀ v, w.getattr env i f.name = .ok v → ShownAs env S f.chain v
  key : ∀ i, S i → ∀ f ∈ (w.cdef env i).fields, f.store = .localKey → PlainV (w.attr i f.refName)

/-! ### Computations that keep the heap -/

def Outputs {α : Type} (h : Heap) (Q : α → Prop) (m : Py World α) : Prop :=
  ∀ w : World, w.heap = h → (m w).2.heap = h ∧ ∀ a, (m w).1 = .ok a → Q a

variable {h : Heap} {S : Nat → Prop} {α β : Type}

theorem Outputs.pure {Q : α → Prop} {a : α} (hq : Q a) : Outputs h Q (pure a) := fun w hw => ⟨hw, fun b hb => by cases hb; exact hq⟩
theorem Outputs.raise {Q : α → Prop} (e : Exc) : Outputs h Q (Py.raise e) := fun w hw => ⟨hw, fun b hb => by cases hb⟩
theorem Outputs.bind {Q : α → Prop} {R : β → Prop} {m : Py World α} {f : α → Py World β} (hm : Outputs h Q m) (hf : ∀ a, Q a → Outputs h R (f a)) :
    Outputs h R (m >>= f) := by
  intro w hw
  obtain ⟨h1, h2⟩ := hm w hw
  rw [Py.bind_run]
  cases hr : m w with
  | mk r w' =>
    rw [hr] at h1 h2
    cases r with
    | error e => exact ⟨h1, fun b hb => by cases hb⟩
    | ok a => exact hf a (h2 a rfl) w' h1
theorem Outputs.catchV {Q : α → Prop} {m : Py World α} {k : List (String × String) → Py World α} (hm : Outputs h Q m) (hk : ∀ msgs, Outputs h Q (k msgs)) :
    Outputs h Q (m.catchV k) := by
  intro w hw
  obtain ⟨h1, h2⟩ := hm w hw
  unfold Py.catchV
  cases hr : m w with
  | mk r w' =>
    rw [hr] at h1 h2
    cases r with
    | ok a => exact ⟨h1, h2⟩
    | error e =>
      cases e <;> first | exact ⟨h1, h2⟩ | exact hk _ w' h1
theorem Outputs.read {Q : α → Prop} {f : World → Except Exc α} (hq : ∀ w : World, w.heap = h → ∀ a, f w = .ok a → Q a) : Outputs h Q (readW f) :=
  fun w hw => ⟨hw, fun a ha => hq w hw a ha⟩
theorem Outputs.imp {Q R : α → Prop} {m : Py World α} (hm : Outputs h Q m) (hi : ∀ a, Q a → R a) : Outputs h R m :=
  fun w hw => ⟨(hm w hw).1, fun a ha => hi a ((hm w hw).2 a ha)⟩

theorem json_same (w : World) (n : Nat) : SimTojson (fun w₁ w₂ => w₁ = w₂ ∧ SameData w w₁) (fun _ => False) env (instOps env n)
    (instOps env n) (fun _ => True) True True :=
  { hv := by simp
    ha := by simp
    nval := fun _ _ _ => trivial
    col := fun _ _ _ _ => trivial
    alter := fun _ _ => trivial
    owner := by rintro _ _ o ⟨rfl, _⟩; rfl
    vis := by
      rintro _ cls st c _ w₁ w₂ ⟨rfl, hd⟩
      refine ⟨rfl, fun e _ h => h, rfl, ?_⟩
      obtain ⟨_, hd', _⟩ := (tojson_once_sim (env := env) w₁ n cls st c _ _
        ⟨rfl, SameData.refl w₁, [], by simp⟩).2.2
      exact ⟨hd'.1.trans hd.1, hd'.2.1.trans hd.2.1, hd'.2.2.1.trans hd.2.2.1,
        hd'.2.2.2.trans hd.2.2.2⟩
    noMarks := fun _ => ⟨instOps_noMarks env n, instOps_noMarks env n⟩
    visV := by
      rintro _ cls st c _ w₁ w₂ ⟨rfl, hd⟩
      refine ⟨rfl, fun e _ h => h, rfl, ?_⟩
      obtain ⟨_, hd', _⟩ := (validate_once_sim (env := env) w₁ n cls st c _ _
        ⟨rfl, SameData.refl w₁, [], by simp⟩).2.2
      exact ⟨hd'.1.trans hd.1, hd'.2.1.trans hd.2.1, hd'.2.2.1.trans hd.2.2.1,
        hd'.2.2.2.trans hd.2.2.2⟩ }

theorem validate_gives (n : Nat) (a : List Mod) (c : Ctx) : Outputs h (fun _ => True) (chainValidate (denL env (instOps env n) a) c) := by
  intro w hw
  refine ⟨?_, fun _ _ => trivial⟩
  have := (sim_alt_validate (json_same (env := env) w n) a (Mod.allL_of_forall
    (fun l => by rintro c w₁ w₂ _ ⟨rfl, _⟩; exact ⟨rfl, fun e _ h => h⟩) a) c trivial w w ⟨rfl, SameData.refl w⟩).2.2.2
  rw [this.1, hw]

/-! ### Chains -/

theorem colMap_gives {sp : Special} {f : Ctx → Py World Val} {c : Ctx} : ∀ es : List (Key × Val), (∀ e ∈ es, Outputs h PlainV (f (c.colval e.2 e.1))) →
    Outputs h (fun r => ∀ x ∈ r, PlainV x.2) (colMapLoop (colEnv env sp) false f c es)
  | [], _ => Outputs.pure (by simp)
  | e :: es, hes => by
    obtain ⟨k, v⟩ := e
    simp only [colMapLoop, Bool.false_eq_true, if_false]
    refine Outputs.bind (hes (k, v) (by simp)) fun x hx => ?_
    refine Outputs.bind (Q := fun _ => True) ?_ fun _ _ => ?_
    · simp only [colEnv]
      cases c.owner with
      | none => exact Outputs.raise _
      | some o => exact Outputs.pure trivial
    · refine Outputs.bind (colMap_gives es fun e he => hes e (by simp [he])) fun xs hxs => Outputs.pure ?_
      intro y hy
      rcases List.mem_cons.1 hy with rfl | hy
      · exact hx
      · exact hxs y hy

theorem plain_list {es : List (Key × Val)} (he : ∀ x ∈ es, PlainV x.2) : PlainV (toListVal es) := by
  refine PlainV.list fun x hx => ?_
  obtain ⟨e, h1, rfl⟩ := List.mem_map.1 hx
  exact he e h1

theorem plain_dictSet {k : String} {v : Val} {d : List (String × Val)} (hv : PlainV v) (hd : ∀ kv ∈ d, PlainV kv.2) : ∀ kv ∈ dictSet k v d, PlainV kv.2 := by
  induction d with
  | nil => intro kv hkv; simp only [dictSet, List.mem_singleton] at hkv; rw [hkv]; exact hv
  | cons e r ih =>
    intro kv hkv
    unfold dictSet at hkv
    split at hkv
    · rcases List.mem_cons.1 hkv with rfl | hkv
      · exact hv
      · exact hd kv (by simp [hkv])
    · rcases List.mem_cons.1 hkv with rfl | hkv
      · exact hd _ (by simp)
      · exact ih (fun x hx => hd x (by simp [hx])) kv hkv

theorem plain_dict {es : List (Key × Val)} (he : ∀ x ∈ es, PlainV x.2) : PlainV (toDictVal es) := by
  have : ∀ (es : List (Key × Val)) (d : List (String × Val)), (∀ x ∈ es, PlainV x.2) → (∀ kv ∈ d, PlainV kv.2) →
      ∀ kv ∈ es.foldl (fun d kv => dictSet kv.1.str kv.2 d) d, PlainV kv.2 := by
    intro es
    induction es with
    | nil => intro d _ hd; exact hd
    | cons e r ih => intro d h1 h2; exact ih _ (fun x hx => h1 x (by simp [hx])) (plain_dictSet (h1 e (by simp)) h2)
  exact PlainV.dict (this es [] he (by simp))

/-- the visitor shows objects plainly -/
def PlainVis (env : Env) (h : Heap) (S : Nat → Prop) (n : Nat) : Prop := ∀ cls st c, (∀ j, c.val = .obj j → S j) → Outputs h PlainV ((instOps env n cls st).tojson c)

theorem union_gives {n : Nat} {c : Ctx} : ∀ alts : List (List Mod), (∀ a ∈ alts, Outputs h PlainV (chainTojson (denL env (instOps env n) a) c) ∨ Refuses env a c.val) →
    Outputs h PlainV (unionConv (·.tojson) c (denA env (instOps env n) alts))
  | [], _ => Outputs.pure PlainV.none
  | a :: as, ha => by
    simp only [denA, unionConv]
    refine Outputs.catchV ?_ fun _ => union_gives as fun b hb => ha b (by simp [hb])
    rcases ha a (by simp) with h1 | h1
    · exact Outputs.bind (validate_gives n a c) fun _ _ => h1
    · refine Outputs.bind (Q := fun _ => False) ?_ fun _ hf => hf.elim
      intro w hw
      exact ⟨(validate_gives n a c w hw).1, fun u hu => h1 _ c w u rfl hu⟩

mutual
theorem keeps_mod {n : Nat} (hv : PlainVis env h S n) : ∀ (m : Mod), m.Shown Leaf.Keeps (fun _ => True) True True → ∀ c : Ctx, PlainV c.val →
    Outputs h PlainV ((m.den env (instOps env n)).tojson c)
  | .eager, _, c, hc => Outputs.pure hc
  | .pre, _, c, hc => Outputs.pure hc
  | .leaf l, hl, c, hc => Outputs.read fun w _ a ha => hl w.heap c a hc ha
  | .listOf nn sp item, hl, c, hc => by
    simp only [Mod.den, listOps]
    split
    · exact Outputs.pure PlainV.none
    · rename_i xs hx
      rw [hx] at hc
      cases hc with
      | list hc =>
        exact Outputs.bind (colMap_gives _ fun e he => keeps_reduce hv item hl _ _ (hc _ (enumVals_mem he))) fun r hr => Outputs.pure (plain_list hr)
    · exact Outputs.pure hc
  | .dictOf nn item, hl, c, hc => by
    simp only [Mod.den, dictOps]
    split
    · exact Outputs.pure PlainV.none
    · rename_i xs hx
      rw [hx] at hc
      cases hc with
      | dict hc =>
        refine Outputs.bind (colMap_gives _ fun e he => keeps_reduce hv item hl _ _ ?_) fun r hr => Outputs.pure (plain_dict hr)
        obtain ⟨kv, h1, h2⟩ := List.mem_map.1 (enumDict_mem he)
        exact h2 ▸ hc kv h1
    · exact Outputs.pure hc
  | .instOf cls st, _, c, hc => hv cls st c fun j hj => by rw [hj] at hc; cases hc
  | .union alts, hl, c, hc => by
    simp only [Mod.den, unionOps]
    split
    · exact Outputs.pure PlainV.none
    · exact union_gives alts fun a ha => .inl (keeps_alts hv alts hl.1 c.alterfdef hc a ha)
theorem keeps_reduce {n : Nat} (hv : PlainVis env h S n) : ∀ (ms : List Mod), KeepsL ms → ∀ (c : Ctx) (v : Val), PlainV v →
    Outputs h PlainV (reduceM (fun m v => m.tojson (c.nval v)) (denL env (instOps env n) ms) v)
  | [], _, _, _, hc => Outputs.pure hc
  | m :: ms, hl, c, v, hc => by
    simp only [denL, reduceM]
    exact Outputs.bind (keeps_mod hv m hl.1 (c.nval v) hc) fun x hx => keeps_reduce hv ms hl.2 c x hx
theorem keeps_alts {n : Nat} (hv : PlainVis env h S n) : ∀ (as : List (List Mod)), Mod.ShownA Leaf.Keeps (fun _ => True) True True as → ∀ c : Ctx, PlainV c.val →
    ∀ a ∈ as, Outputs h PlainV (chainTojson (denL env (instOps env n) a) c)
  | [], _, _, _, _, ha => by cases ha
  | b :: as, hl, c, hc, a, ha => by
    rcases List.mem_cons.1 ha with h1 | ha
    · rw [h1]
      exact keeps_reduce hv b hl.1 c _ hc
    · exact keeps_alts hv as hl.2 c hc a ha
end

theorem shows_reduce {n : Nat} (hv : PlainVis env h S n) {ch : List Mod} {v : Val} (hs : ShownAs env S ch v) : ∀ c : Ctx,
    Outputs h PlainV (reduceM (fun m v => m.tojson (c.nval v)) (denL env (instOps env n) ch) v) := by
  induction hs with
  | plain h1 h2 => intro c; exact keeps_reduce hv _ h2 c _ h1
  | eager _ ih => intro c; simp only [denL, reduceM]; exact Outputs.bind (Q := fun x => x = _) (Outputs.pure rfl) fun x hx => hx ▸ ih c
  | pre _ ih => intro c; simp only [denL, reduceM]; exact Outputs.bind (Q := fun x => x = _) (Outputs.pure rfl) fun x hx => hx ▸ ih c
  | @quiet l ms v hq _ ih =>
    intro c
    simp only [denL, reduceM]
    refine Outputs.bind (Q := fun x => x = v) (Outputs.read fun w _ a ha => ?_) fun x hx => hx ▸ ih c
    rw [hq] at ha
    cases ha
    rfl
  | makes h1 h2 => intro c; simp only [denL, reduceM]; exact Outputs.bind (Outputs.read fun w _ a ha => h1 _ _ a ha) fun x hx => keeps_reduce hv _ h2 c x hx
  | obj h0 h1 => intro c; simp only [denL, reduceM]; exact Outputs.bind (hv _ _ _ fun j hj => by cases hj; exact h0) fun x hx => keeps_reduce hv _ h1 c x hx
  | noList h1 => intro c; simp only [denL, reduceM]; exact Outputs.bind (Outputs.pure PlainV.none) fun x hx => keeps_reduce hv _ h1 c x hx
  | noDict h1 => intro c; simp only [denL, reduceM]; exact Outputs.bind (Outputs.pure PlainV.none) fun x hx => keeps_reduce hv _ h1 c x hx
  | list _ h2 ih =>
    intro c
    simp only [denL, reduceM]
    refine Outputs.bind ?_ fun x hx => keeps_reduce hv _ h2 c x hx
    exact Outputs.bind (colMap_gives _ fun e he => ih e.2 (enumVals_mem he) _) fun r hr => Outputs.pure (plain_list hr)
  | dict _ h2 ih =>
    intro c
    simp only [denL, reduceM]
    refine Outputs.bind ?_ fun x hx => keeps_reduce hv _ h2 c x hx
    refine Outputs.bind (colMap_gives _ fun e he => ?_) fun r hr => Outputs.pure (plain_dict hr)
    obtain ⟨kv, k1, k2⟩ := List.mem_map.1 (enumDict_mem he)
    exact k2 ▸ ih kv k1 _
  | @union alts ms v _ h2 ih =>
    intro c
    simp only [denL, reduceM]
    refine Outputs.bind ?_ fun x hx => keeps_reduce hv _ h2 c x hx
    simp only [Mod.den, unionOps]
    split
    · exact Outputs.pure PlainV.none
    · refine union_gives alts fun a ha => ?_
      by_cases h3 : Refuses env a v
      · exact .inr h3
      · exact .inl (ih a ha h3 _)

/-! ### Objects -/

theorem getattr_heap {w w' : World} (hw : w.heap = w'.heap) (i : Nat) (n : String) : w.getattr env i n = w'.getattr env i n := by
  simp [World.getattr, World.cdef, World.attr, hw]

theorem jsonFields_gives {w₀ : World} (hw₀ : w₀.heap = h) (hs : Showable env w₀ S) {n : Nat} (hv : PlainVis env h S n) {i : Nat} (hi : S i) {c : Ctx} {on nk : Bool} :
    ∀ (fs : List Field), (∀ f ∈ fs, f ∈ (w₀.cdef env i).fields) → ∀ acc, (∀ kv ∈ acc, PlainV kv.2) →
    Outputs h (fun r => ∀ kv ∈ r, PlainV kv.2) (jsonFields env (Field.ops env (instOps env n)) c i on nk fs acc)
  | [], _, acc, ha => Outputs.pure ha
  | f :: fs, hf, acc, ha => by
    intro w hw
    have hg := getattr_heap (env := env) (hw₀.trans hw.symm) i f.name
    have ih := jsonFields_gives hw₀ hs hv hi (c := c) (on := on) (nk := nk) fs (fun g hg => hf g (by simp [hg]))
    have hkey : ∀ kv ∈ keyEntry w i on f acc, PlainV kv.2 := by
      unfold keyEntry
      split
      · rename_i hk
        simp only [Bool.and_eq_true, decide_eq_true_eq] at hk
        refine plain_dictSet ?_ ha
        have := hs.key i hi f (hf f (by simp)) hk.1
        rwa [show w.attr i f.refName = w₀.attr i f.refName by simp [World.attr, hw, hw₀]]
      · exact ha
    simp only [jsonFields]
    split
    · exact ⟨hw, fun a ha => by cases ha⟩
    · rename_i fv hfv
      split
      · exact ih acc ha w hw
      · split
        · exact ih _ hkey w hw
        · rename_i hsk
          split
          · exact ⟨hw, fun a ha => by cases ha⟩
          · have hst : f.store ≠ .temp := by
              intro hst
              simp [skipJson, hst] at hsk
            have hsh := hs.field i hi f (hf f (by simp)) hst fv (hg.trans hfv)
            rename_i ek hek
            have hcv : (if f.ftype = .inst then c.nextoc fv f.name ek ((w.heap i).cls, f.name) (w.cdef env i).name
              else c.nextvc fv f.name ek ((w.heap i).cls, f.name) (w.cdef env i).name).val = fv := by
              split <;> rfl
            generalize (if f.ftype = .inst then c.nextoc fv f.name ek ((w.heap i).cls, f.name) (w.cdef env i).name
              else c.nextvc fv f.name ek ((w.heap i).cls, f.name) (w.cdef env i).name) = ic at hcv
            have h1 := shows_reduce hv hsh ic w hw
            rw [← hcv] at h1
            change ((chainTojson _ ic w).2.heap = h ∧ ∀ a, (chainTojson _ ic w).1 = .ok a → _) at h1
            have h2 : ∀ w, (Field.ops env (instOps env n) f).tojson ic w = chainTojson (denL env (instOps env n) f.chain) ic w := fun _ => rfl
            rw [h2]
            cases hr : chainTojson (denL env (instOps env n) f.chain) ic w with
            | mk r w' =>
              rw [hr] at h1
              cases r with
              | error e => exact ⟨h1.1, fun a ha => by cases ha⟩
              | ok r =>
                refine ih _ ?_ w' h1.1
                split
                · exact plain_dictSet (h1.2 r rfl) hkey
                · exact hkey

theorem plainVis {w₀ : World} (hw₀ : w₀.heap = h) (hs : Showable env w₀ S) : ∀ n, PlainVis env h S n
  | 0 => fun _ _ _ _ => Outputs.raise _
  | n + 1 => by
    intro cls st c hc
    change Outputs h PlainV (instTojson env (Field.ops env (instOps env n)) c)
    unfold instTojson
    split
    · exact Outputs.pure PlainV.none
    · rename_i j hj
      intro w hw
      have h1 := jsonFields_gives hw₀ hs (plainVis hw₀ hs n) (hc j hj) (c := c) (on := c.cfg.outputNull.getD (w.cdef env j).outputNull)
        (nk := c.idchain.contains (w.cdef env j).name) (w.cdef env j).fields (by simp [World.cdef, hw, hw₀]) [] (by simp)
      exact Outputs.bind h1 (fun a ha => Outputs.pure (PlainV.dict ha)) w hw
    · exact Outputs.raise _

/-- **C83.** If the values that the object and the objects reachable from it hold are of the declared kinds, whatever
`tojson()` returns, with whatever options, is plain JSON data all the way down. -/
theorem tojson_plain (w : World) (S : Nat → Prop) (hs : Showable env w S) (i : Nat) (hi : S i) (n : Nat) (ig rr : Bool) (on : Option Bool) (r : Val) (w' : World)
    (hr : apiTojson env n i ig rr on w = (.ok r, w')) : PlainV r := by
  have := (plainVis (rfl : w.heap = w.heap) hs n (w.heap i).cls none
    (rootCtx w i { ignoreWriteonly := ig, reverseRel := rr, outputNull := on } (.obj i)) (fun j hj => by cases hj; exact hi) { w with marks := [] } rfl).2 r
  apply this
  unfold apiTojson withFreshMarks at hr
  simp only at hr
  exact (Prod.mk.inj hr).1

/-! ### Validated objects -/

/-- Only plain data passes this check. -/
def Leaf.Checks (l : Leaf) : Prop := ∀ h c, l.validate h c = .ok () → PlainV c.val

/-- An alternative of a union that consists of simple modifiers and says what kind of value it takes. -/
inductive TypedAlt : List Mod → Prop
  | quiet {l ms} : l.Quiet → TypedAlt ms → TypedAlt (.leaf l :: ms)
  | makes {l ms} : l.Makes → KeepsL ms → TypedAlt (.leaf l :: ms)
  | check {l ms} : l.Checks → KeepsL (.leaf l :: ms) → (∀ m ∈ ms, m.isEagerM = false) → TypedAlt (.leaf l :: ms)

/-- A declaration that says what kind of value the field takes: after modifiers without influence on the output, a
plain type, a type that makes its values plain, an object type, a list or dict type with a typed item type, or a union
of typed alternatives; what follows keeps plain output plain. -/
inductive TypedL : List Mod → Prop
  | quiet {l ms} : l.Quiet → TypedL ms → TypedL (.leaf l :: ms)
  | eager {ms} : TypedL ms → TypedL (.eager :: ms)
  | makes {l ms} : l.Makes → KeepsL ms → TypedL (.leaf l :: ms)
  | check {l ms} : l.Checks → KeepsL (.leaf l :: ms) → (∀ m ∈ ms, m.isEagerM = false) → TypedL (.leaf l :: ms)
  | obj {cls st ms} : KeepsL ms → (∀ m ∈ ms, m.isEagerM = false) → TypedL (.instOf cls st :: ms)
  | list {nn sp item ms} : TypedL item → KeepsL ms → (∀ m ∈ ms, m.isEagerM = false) → TypedL (.listOf nn sp item :: ms)
  | dict {nn item ms} : TypedL item → KeepsL ms → (∀ m ∈ ms, m.isEagerM = false) → TypedL (.dictOf nn item :: ms)
  | union {alts ms} : (∀ a ∈ alts, TypedAlt a ∧ Mod.AllL (fun l => ∀ h c, l.validate h c ≠ .error (.validation [])) (fun _ => True) a) → KeepsL ms → TypedL (.union alts :: ms)

theorem checked_head {m : Mod} {ms : List Mod} (h1 : m.isEagerM = false) (h2 : m.isPreM = false) (h3 : ∀ x ∈ ms, x.isEagerM = false) : Checked (m :: ms) m :=
  ⟨[], ms, rfl, by simpa using ⟨h1, h3⟩, by simpa using h2⟩

theorem checked_cons {q m : Mod} {ms : List Mod} (hq : q.isPreM = false) (hc : Checked ms m) : Checked (q :: ms) m := by
  obtain ⟨a, b, rfl, h1, h2⟩ := hc
  exact ⟨q :: a, b, rfl, h1, by simpa [hq] using h2⟩

theorem accepts_mem {c : Ctx} {ms : List (Ops World)} {w w' : World} (ha : Accepts c ms w w') {m : Ops World} (hm : m ∈ ms) : ∃ w₁ w₂, m.validate c w₁ = (.ok (), w₂) := by
  induction ha with
  | nil => cases hm
  | cons h1 _ ih =>
    rcases List.mem_cons.1 hm with rfl | hm
    · exact ⟨_, _, h1⟩
    · exact ih hm

theorem allL_mem {P : Leaf → Prop} {q : String → Prop} : ∀ {ms : List Mod}, Mod.AllL P q ms → ∀ m ∈ ms, m.All P q
  | _ :: _, ha, _, hm => by
    rcases List.mem_cons.1 hm with rfl | hm
    · exact ha.1
    · exact allL_mem ha.2 _ hm

theorem typedAlt_checked {a : List Mod} (ht : TypedAlt a) {v : Val} (hl : ∀ l, Checked a (.leaf l) → ∃ h c, c.val = v ∧ l.validate h c = .ok ()) :
    ShownAs env S a v := by
  induction ht with
  | quiet hq _ ih => exact .quiet hq (ih fun l hc => hl l (checked_cons rfl hc))
  | makes h1 h2 => exact .makes h1 h2
  | check h1 h2 h3 =>
    obtain ⟨h, c, rfl, hv⟩ := hl _ (checked_head rfl rfl h3)
    exact .plain (h1 _ _ hv) h2

theorem typedAlt_shows (hp : ProperErrors env) {a : List Mod} (ht : TypedAlt a) (hn : Mod.AllL (fun l => ∀ h c, l.validate h c ≠ .error (.validation [])) (fun _ => True) a)
    {v : Val} (hr : ¬ Refuses env a v) : ShownAs env S a v := by
  unfold Refuses at hr
  simp only [not_forall, not_not] at hr
  obtain ⟨n, c, w, u, hc, hv⟩ := hr
  have hne : NonEmptyMsgs c (nvs (denL env (instOps env n) a)) := by
    rw [nvs_denL _ _ (instOps_noMarks env n)]
    intro m hm s
    obtain ⟨m', h1, rfl⟩ := List.mem_map.1 hm
    intro s' msgs he hm
    refine NE.den (env := env) (fun cls st c => NE.inst hp n cls st c) m' (allL_mem hn _ (mem_nvsM h1)) c s ?_
    rw [he, hm]
  have ha := chainValidate_accepts hne (s := w) (s' := (chainValidate (denL env (instOps env n) a) c w).2) (Prod.ext hv rfl)
  rw [nvs_denL _ _ (instOps_noMarks env n)] at ha
  refine typedAlt_checked ht fun l hl => ?_
  obtain ⟨w₁, w₂, hw⟩ := accepts_mem ha (List.mem_map_of_mem (mem_nvsM_of_checked hl))
  exact ⟨w₁.heap, c, hc, (Prod.mk.inj hw).1⟩

theorem typed_shows (hp : ProperErrors env) {O : String → Ctx → Prop} (hO : ∀ cls c, O cls c → ∃ x, c.val = .obj x ∧ S x) {ch : List Mod} (ht : TypedL ch) :
    ∀ c, (∀ m, Checked ch m → Accepted O h m c) → ShownAs env S ch c.val := by
  induction ht with
  | quiet hq _ ih => intro c hc; exact .quiet hq (ih c fun m hm => hc m (checked_cons rfl hm))
  | eager _ ih => intro c hc; exact .eager (ih c fun m hm => hc m (checked_cons rfl hm))
  | makes h1 h2 => intro c _; exact .makes h1 h2
  | check h1 h2 h3 =>
    intro c hc
    have := hc _ (checked_head rfl rfl h3)
    cases this with
    | leaf hl => exact .plain (h1 _ _ hl) h2
  | @obj cls st ms h1 h3 =>
    intro c hc
    have := hc _ (checked_head rfl rfl h3)
    cases this with
    | instNone hn => rw [hn]; exact .plain .none ⟨trivial, h1⟩
    | inst ho =>
      obtain ⟨x, h4, h5⟩ := hO _ _ ho
      rw [h4]
      exact .obj h5 h1
  | @list nn sp item ms _ h1 h3 ih =>
    intro c hc
    have := hc _ (checked_head rfl rfl h3)
    cases this with
    | listNone hn => rw [hn]; exact .noList h1
    | @list _ _ _ _ xs hx hxs =>
      rw [hx]
      refine .list (fun x hx => ?_) h1
      obtain ⟨k, hk⟩ := List.getElem?_of_mem hx
      exact ih (c.colval x (.i k)) (hxs k x hk)
  | @dict nn item ms _ h1 h3 ih =>
    intro c hc
    have := hc _ (checked_head rfl rfl h3)
    cases this with
    | dictNone hn => rw [hn]; exact .noDict h1
    | @dict _ _ _ kvs hx hxs =>
      rw [hx]
      exact .dict (fun kv hkv => ih (c.colval kv.2 (.s kv.1)) (hxs kv.1 kv.2 hkv)) h1
  | union h1 h2 => intro c _; exact .union (fun a ha hr => typedAlt_shows hp (h1 a ha).1 (h1 a ha).2 hr) h2

/-- **C83, validated objects.** If every declaration says what kind of value the field takes and objects are told apart
by their primary keys, the output of `tojson()` of an object that passed `validate()` is plain JSON data, provided that
`validate()` looks at every field and that the reference ids are plain, as it does not look at these. -/
theorem valid_tojson_plain (he : SoundEnv env) (ht : ∀ cls, ∀ f ∈ (env.cls cls).fields, f.store ≠ .temp → TypedL f.chain) (w : World) (i : Nat) (all : Option Bool)
    (hone : ∀ x y, SameIdentity env w x y → x = y) (hall : ∀ j, ∀ f ∈ (w.cdef env j).fields, f.store ≠ .temp → MustCheck (w.heap j) f)
    (hkey : ∀ j, ∀ f ∈ (w.cdef env j).fields, f.store = .localKey → PlainV (w.attr j f.refName))
    (n : Nat) (hv : (apiValidate env n i all w).1 = .ok ()) (n' : Nat) (ig rr : Bool) (on : Option Bool) (r : Val) (w' : World)
    (hr : apiTojson env n' i ig rr on w = (.ok r, w')) : PlainV r := by
  obtain ⟨J, hroot, hJ⟩ := validate_sound_partial he w i all n hv
  refine tojson_plain w (fun j => ∃ d ∈ J, d.2.val = .obj j) ⟨?_, fun j _ => hkey j⟩ i ⟨_, hroot, rfl⟩ n' ig rr on r w' hr
  rintro j ⟨d, hd, hdj⟩ f hf hst v hgv
  obtain ⟨j', h1, _, h2⟩ := hJ d hd
  rw [hdj] at h1
  cases h1
  obtain ⟨v', h3, h4⟩ := h2 f hf (hall j f hf hst)
  rw [hgv] at h3
  cases h3
  have hval : (fieldCtx env w d.2 j f v).val = v := by
    unfold fieldCtx
    simp only
    split <;> split <;> rfl
  have := typed_shows (env := env) (S := fun j => ∃ d ∈ J, d.2.val = .obj j) he.errors (h := w.heap)
    (O := (fun _ c => ∃ x, c.val = .obj x ∧ ∃ d' ∈ J, ∃ y, d'.2.val = .obj y ∧ SameIdentity env w x y)) ?_ (ht _ f hf hst) _ h4
  · rwa [hval] at this
  · rintro cls c ⟨x, h5, d', h6, y, h7, h8⟩
    exact ⟨x, h5, d', h6, (hone x y h8) ▸ h7⟩

/-! ### The types -/

theorem Leaf.Quiet.keeps {l : Leaf} (hq : l.Quiet) : l.Keeps := fun h c r hc hr => by rw [hq] at hr; cases hr; exact hc
theorem Leaf.Makes.keeps {l : Leaf} (hm : l.Makes) : l.Keeps := fun h c r _ hr => hm h c r hr

theorem str_checks : strMod.Checks := by
  intro h c hv
  simp only [strMod] at hv
  split at hv
  · next hc => rw [hc]; exact .none
  · next hc => rw [hc]; exact .str _
  · cases hv
theorem int_checks : intMod.Checks := by
  intro h c hv
  simp only [intMod] at hv
  split at hv
  · next hc => rw [hc]; exact .none
  · next hc => rw [hc]; exact .int _
  · cases hv
theorem bool_checks : boolMod.Checks := by
  intro h c hv
  simp only [boolMod] at hv
  split at hv
  · next hc => rw [hc]; exact .none
  · next hc => rw [hc]; exact .bool _
  · cases hv
theorem float_checks : floatMod.Checks := by
  intro h c hv
  simp only [floatMod] at hv
  split at hv
  · next hc => rw [hc]; exact .none
  · next hc => rw [hc]; exact .flt _
  · cases hv
theorem date_makes : dateMod.Makes := by
  intro h c r hr
  simp only [dateMod] at hr
  split at hr <;> cases hr
  · exact .none
  · exact .str _
  · exact .str _
theorem datetime_makes : datetimeMod.Makes := by
  intro h c r hr
  simp only [datetimeMod] at hr
  split at hr <;> cases hr
  · exact .none
  · exact .str _
  · exact .str _
/-- enum members make plain output if output by name, or if the values of the members are plain -/
theorem enum_makes (up low : String → String) (e : EnumDef) (i : EnumIn) (o : EnumOut) (ho : o = .value → ∀ m ∈ e.members, PlainV m.2) : (enumMod up low e i o).Makes := by
  intro h c r hr
  simp only [enumMod, enumTojson] at hr
  split at hr
  · cases hr; exact .none
  · split at hr
    · split at hr
      · split at hr
        · next p hp => cases hr; exact ho rfl p (List.mem_of_find?_eq_some hp)
        · cases hr
      · cases hr; exact .str _
      · cases hr; exact .str _
    · cases hr
  · cases hr
theorem fmtd_keeps (strftime : PyDateTime → String → Except Exc String) (p : Param) : (fmtdMod strftime p).Keeps := by
  have ha : ∀ h c d r, applyFormat strftime p h c d = .ok r → PlainV r := by
    intro h c d r hr
    unfold applyFormat at hr
    cases hp : p h c with
    | error e => rw [hp] at hr; cases hr
    | ok f =>
      rw [hp] at hr
      cases f <;> try cases hr
      next s =>
      cases hs : strftime d s with
      | error e => simp only [bind, Except.bind, hs] at hr; cases hr
      | ok t => simp only [bind, Except.bind, hs] at hr; cases hr; exact .str _
  intro h c r hc hr
  simp only [fmtdMod] at hr
  split at hr
  · exact ha _ _ _ _ hr
  · exact ha _ _ _ _ hr
  · next s _ =>
    cases hd : parseDateTime (s.toList.filter (· != 'Z')) with
    | error e => rw [hd] at hr; cases hr
    | ok d => rw [hd] at hr; exact ha _ _ _ _ hr
  · cases hr; exact hc
theorem canr_keeps (chk : Check) : (canrLeaf chk).Keeps := by
  intro h c r hc hr
  simp only [canrLeaf] at hr
  repeat' split at hr
  all_goals cases hr
  · exact .none
  all_goals first | exact .none | exact hc

/-! ### What cannot be encoded -/

namespace PlainDemo

def attrsOf (kvs : List (String × Val)) : String → Val := fun n => (dictGet kvs n).getD .none
def fName : Field := { name := "name", jsonName := "name", chain := [.leaf strMod] }
def fBorn : Field := { name := "born", jsonName := "born", chain := [.leaf dateMod] }
def fTag : Field := { name := "tag", jsonName := "tag", chain := [.union [[.leaf strMod], [.leaf dateMod]]] }
def fMarks : Field := { name := "marks", jsonName := "marks", ftype := .list, chain := [.listOf false .no [.leaf intMod]] }
def fFriend : Field := { name := "friend", jsonName := "friend", ftype := .inst, isInst := true, chain := [.instOf "Person" none] }
def person : ClassDef := { name := "Person", fields := [fName, fBorn, fTag, fMarks, fFriend] }
/-- `note: Any` -/
def fNote : Field := { name := "note", jsonName := "note" }
/-- `notes: list` of anything -/
def fNotes : Field := { name := "notes", jsonName := "notes", ftype := .list, chain := [.listOf false .no []] }
def memo : ClassDef := { name := "Memo", fields := [fNote, fNotes] }
def penv : Env := { cls := fun n => if n = "Person" then person else if n = "Memo" then memo else {} }

def day : PyDate := ⟨2020, 2, 29⟩
def world : World where
  heap := fun i => match i with
    | 0 => { cls := "Person", isNew := true, attrs := attrsOf [("name", .str "ann"), ("born", .date day), ("tag", .date day), ("marks", .list [.int 1, .none]), ("friend", .obj 1)] }
    | 1 => { cls := "Person", isNew := true, attrs := attrsOf [("name", .str "bob"), ("tag", .str "x")] }
    | 2 => { cls := "Memo", isNew := true, attrs := attrsOf [("note", .date day)] }
    | 3 => { cls := "Memo", isNew := true, attrs := attrsOf [("notes", .list [.dt (day.midnight true)])] }
    | _ => {}
  next := 4

/-- A field of any type holding a date, a valid object, comes out as a date: `dumps` raises TypeError. -/
theorem any_not_plain : (apiValidate penv 4 2 none world).1 = .ok () ∧ ∃ r, (apiTojson penv 4 2 false false none world).1 = .ok r ∧ ¬ PlainV r := by
  refine ⟨rfl, .dict [("note", .date day)], rfl, ?_⟩
  intro h
  cases h with
  | dict h => have := h _ (List.mem_singleton.2 rfl); cases this

/-- So does a date in a list without an item type. -/
theorem list_not_plain : (apiValidate penv 4 3 none world).1 = .ok () ∧ ∃ r, (apiTojson penv 4 3 false false none world).1 = .ok r ∧ ¬ PlainV r := by
  refine ⟨rfl, .dict [("notes", .list [.dt (day.midnight true)])], rfl, ?_⟩
  intro h
  cases h with
  | dict h =>
    have := h _ (List.mem_singleton.2 rfl)
    cases this with
    | list h => have := h _ (List.mem_singleton.2 rfl); cases this

def tenv : Env := { cls := fun n => if n = "Person" then person else {} }

theorem tenv_cases (n : String) : tenv.cls n = person ∨ (tenv.cls n).fields = [] := by
  unfold tenv
  simp only
  split
  · exact .inl rfl
  · exact .inr rfl

theorem str_proper (h : Heap) (c : Ctx) : strMod.validate h c ≠ .error (.validation []) := by
  simp only [strMod]; split <;> simp [Ctx.vexc]
theorem date_proper (h : Heap) (c : Ctx) : dateMod.validate h c ≠ .error (.validation []) := by
  simp only [dateMod]; split <;> simp [Ctx.vexc]
theorem int_proper (h : Heap) (c : Ctx) : intMod.validate h c ≠ .error (.validation []) := by
  simp only [intMod]; split <;> simp [Ctx.vexc]

theorem sound : SoundEnv tenv where
  errors := by
    constructor <;> intro cls f hf <;> rcases tenv_cases cls with h | h <;> rw [h] at hf
    · simp only [person, List.mem_cons, List.not_mem_nil, or_false] at hf
      rcases hf with rfl | rfl | rfl | rfl | rfl <;>
        simp [fName, fBorn, fTag, fMarks, fFriend, Mod.AllL, Mod.All, Mod.AllA, str_proper, date_proper, int_proper]
    · cases hf
    · simp only [person, List.mem_cons, List.not_mem_nil, or_false] at hf
      rcases hf with rfl | rfl | rfl | rfl | rfl <;> intro _ _ _ h <;> cases h
    · cases hf
  unions := by
    intro cls f hf
    rcases tenv_cases cls with h | h <;> rw [h] at hf
    · simp only [person, List.mem_cons, List.not_mem_nil, or_false] at hf
      rcases hf with rfl | rfl | rfl | rfl | rfl <;>
        simp [fName, fBorn, fTag, fMarks, fFriend, Mod.PlainUnionsL, Mod.PlainUnions, Mod.AllA, Mod.AllL, Mod.All]
    · cases hf

theorem quiet_str : strMod.Quiet := fun _ _ => rfl
theorem typed (cls : String) (f : Field) (hf : f ∈ (tenv.cls cls).fields) : TypedL f.chain := by
  rcases tenv_cases cls with h | h <;> rw [h] at hf
  · simp only [person, List.mem_cons, List.not_mem_nil, or_false] at hf
    rcases hf with rfl | rfl | rfl | rfl | rfl
    · exact .check str_checks ⟨quiet_str.keeps, trivial⟩ (by simp)
    · exact .makes date_makes trivial
    · refine .union ?_ trivial
      simp only [List.mem_cons, List.not_mem_nil, or_false]
      rintro a (rfl | rfl)
      · exact ⟨.check str_checks ⟨quiet_str.keeps, trivial⟩ (by simp), by simp [Mod.AllL, Mod.All, str_proper]⟩
      · exact ⟨.makes date_makes trivial, by simp [Mod.AllL, Mod.All, date_proper]⟩
    · exact .list (.check int_checks ⟨Leaf.Quiet.keeps fun _ _ => rfl, trivial⟩ (by simp)) trivial (by simp)
    · exact .obj trivial (by simp)
  · cases hf

/-- The hypotheses of `valid_tojson_plain` hold of two persons, one the friend of the other, with dates, a list and a union field. -/
example : SoundEnv tenv ∧ (∀ cls, ∀ f ∈ (tenv.cls cls).fields, f.store ≠ .temp → TypedL f.chain) ∧ (∀ x y, SameIdentity tenv world x y → x = y) ∧
    (∀ j, ∀ f ∈ (world.cdef tenv j).fields, f.store ≠ .temp → MustCheck (world.heap j) f) ∧ (apiValidate tenv 6 0 none world).1 = .ok () ∧
    (apiTojson tenv 6 0 false false none world).1 = .ok (.dict [("name", .str "ann"), ("born", .str "2020-02-29T00:00:00.000Z"), ("tag", .str "2020-02-29T00:00:00.000Z"),
      ("marks", .list [.int 1, .none]), ("friend", .dict [("name", .str "bob"), ("tag", .str "x")])]) := by
  refine ⟨sound, fun cls f hf _ => typed cls f hf, ?_, ?_, rfl, rfl⟩
  · rintro x y (h | ⟨_, h, _⟩)
    · exact h
    · refine absurd ?_ h
      unfold World.id World.cdef
      rcases tenv_cases (world.heap x).cls with hc | hc
      · rw [hc]; rfl
      · unfold tenv at hc ⊢
        simp only at hc ⊢
        split
        · next h1 => split at h1 <;> cases h1
        · rfl
  · intro j f hf hst h1 h2
    match j with
    | 0 => cases h2
    | 1 => cases h2
    | 2 => cases h2
    | 3 => cases h2
    | j + 4 => cases hf

end PlainDemo

end JC
