import Verif.Props.JsonSim
import Verif.Props.Validate
import Verif.Props.Chain
import Mathlib.Data.List.Forall2

/-
C28: values of writeonly and temp fields do not influence the JSON.
C29: tojson() terminates on cyclic references.
C30: the entries of the JSON.
C52: tojson() changes no object.
-/
namespace JC

variable {env : Env}

/-! ### C52: tojson changes nothing -/

theorem tojson_once_sim (w₀ : World) (n : Nat) : ∀ cls st (c : Ctx),
    Sim (KOnce env w₀) (fun _ => False) ((instOps env n cls st).tojson c)
      ((instOps env n cls st).tojson c) := by
  induction n with
  | zero => intro cls st c; exact Sim.raise (by simp)
  | succ n ih =>
    intro cls st c
    simp only [instOps]
    have hs : SimTojson (KOnce env w₀) (fun _ => False) env (instOps env n) (instOps env n)
        (fun _ => True) True True :=
      { hv := by simp
        ha := by simp
        nval := fun _ _ _ => trivial
        col := fun _ _ _ _ => trivial
        alter := fun _ _ => trivial
        owner := by rintro _ _ o ⟨rfl, _⟩; rfl
        vis := fun _ cls st c _ => ih cls st c
        noMarks := fun _ => ⟨instOps_noMarks env n, instOps_noMarks env n⟩
        visV := fun _ cls st c _ => validate_once_sim w₀ n cls st c }
    refine sim_instTojson (by simp) ?_ ?_ ?_
    · rintro w₁ w₂ ⟨rfl, _⟩ j; rfl
    · rintro w₁ w₂ i _ ⟨rfl, _⟩; rfl
    · rintro i hv u₁ u₂ ⟨rfl, _⟩ f hf
      refine ⟨?_, ?_, ?_⟩
      · rintro _ w₁ w₂ ⟨rfl, _⟩; rfl
      · rintro w₁ w₂ ⟨rfl, _⟩; exact getAgree_diag (by simp)
      · rintro w₁ w₂ ⟨rfl, _⟩ _ v ek
        exact sim_chainTojson hs f.chain (Mod.shownL_of_forall
          (fun l => by rintro c w₁ w₂ _ ⟨rfl, _⟩; exact ⟨rfl, fun e _ h => h⟩)
          (fun l => by rintro c w₁ w₂ _ ⟨rfl, _⟩; exact ⟨rfl, fun e _ h => h⟩) f.chain) _ trivial

/-- **C52**. Whatever the classes, the object graph, the options and the outcome, `tojson()`
leaves every object, every attribute, every modification record and every object graph as
it was (`visits` is the ghost list of C19, which no code reads). -/
theorem tojson_changes_nothing (w : World) (n i : Nat) (ig rr : Bool) (on : Option Bool) :
    ∃ D, (apiTojson env n i ig rr on w).2 = { w with visits := D } := by
  have hK : KOnce env w { w with marks := [] } { w with marks := [] } :=
    ⟨rfl, ⟨rfl, rfl, rfl, rfl⟩, [], by simp⟩
  obtain ⟨_, hd, D, hD, _, _⟩ :=
    (tojson_once_sim w n (w.heap i).cls none
      (rootCtx w i { ignoreWriteonly := ig, reverseRel := rr, outputNull := on } (.obj i)) _ _ hK).2.2
  exact ⟨_, world_restore hd hD⟩

/-- The conversion of one field keeps all data. -/
theorem fieldTojson_sameData (n : Nat) (f : Field) (c : Ctx) (w : World) :
    SameData w ((Field.ops env (instOps env n) f).tojson c w).2 := by
  have hs : SimTojson (fun w₁ w₂ => w₁ = w₂ ∧ SameData w w₁) (fun _ => False) env (instOps env n)
      (instOps env n) (fun _ => True) True True :=
    { hv := by simp
      ha := by simp
      nval := fun _ _ _ => trivial
      col := fun _ _ _ _ => trivial
      alter := fun _ _ => trivial
      owner := by rintro _ _ o ⟨rfl, _⟩; rfl
      vis := by
        rintro _ cls st c _ w₁ w₂ ⟨rfl, hd⟩
        refine ⟨rfl, fun e _ h => h, rfl, ?_⟩
        obtain ⟨_, hd', _⟩ := (tojson_once_sim (env := env) w₁ n cls st c _ _
          ⟨rfl, SameData.refl w₁, [], by simp⟩).2.2
        exact ⟨hd'.1.trans hd.1, hd'.2.1.trans hd.2.1, hd'.2.2.1.trans hd.2.2.1,
          hd'.2.2.2.trans hd.2.2.2⟩
      noMarks := fun _ => ⟨instOps_noMarks env n, instOps_noMarks env n⟩
      visV := by
        rintro _ cls st c _ w₁ w₂ ⟨rfl, hd⟩
        refine ⟨rfl, fun e _ h => h, rfl, ?_⟩
        obtain ⟨_, hd', _⟩ := (validate_once_sim (env := env) w₁ n cls st c _ _
          ⟨rfl, SameData.refl w₁, [], by simp⟩).2.2
        exact ⟨hd'.1.trans hd.1, hd'.2.1.trans hd.2.1, hd'.2.2.1.trans hd.2.2.1,
          hd'.2.2.2.trans hd.2.2.2⟩ }
  exact (sim_chainTojson hs f.chain (Mod.shownL_of_forall
    (fun l => by rintro c w₁ w₂ _ ⟨rfl, _⟩; exact ⟨rfl, fun e _ h => h⟩)
    (fun l => by rintro c w₁ w₂ _ ⟨rfl, _⟩; exact ⟨rfl, fun e _ h => h⟩) f.chain) c trivial
    w w ⟨rfl, SameData.refl w⟩).2.2.2

/-! ### C30: the entries of the JSON -/

/-- The field is among the picked ones, if the object is partial. -/
def picked (o : Obj) (f : Field) : Bool :=
  match o.picks with
  | none => true
  | some ps => ps.contains f.name

/-- The relation field `f` leads back to where the object was reached from: the opposite
field is the field being converted, or its name is the last but one key of the path. -/
def LeadsBack (env : Env) (c : Ctx) (f : Field) : Prop :=
  c.cfg.reverseRel = false ∧ ∃ g, env.foreignField f = some g ∧
    (c.fid = f.foreign ∨ ∃ ks last, c.keypathr = ks ++ [.s g.name, last])

/-- A field's value is output: it is picked, not temp, readable (or writeonly marks are
ignored), and for relations, it does not lead back and the object's class was not met
before on the way to this object. -/
def Visible (env : Env) (c : Ctx) (o : Obj) (cname : String) (f : Field) : Prop :=
  picked o f = true ∧ f.store ≠ .temp ∧ (f.noRead = true → c.cfg.ignoreWriteonly = true) ∧
    (f.isRef = true → ¬ LeadsBack env c f ∧ cname ∉ c.idchain)

/-- The reference id entry of a field. -/
def keyPart (on : Bool) (o : Obj) (f : Field) : List (String × Val) :=
  if f.store = .localKey ∧ picked o f = true ∧ (on = true ∨ (o.attrs f.refName).isNone = false)
  then [(f.jrefName, o.attrs f.refName)] else []

/-- The value entry of a field whose converted value is `r`. -/
def valPart (on : Bool) (f : Field) (r : Val) : List (String × Val) :=
  if on = true ∨ r.isNone = false then [(f.jsonName, r)] else []

/-- `r` is the result of converting field `f` of object `i` (`o` its state) in a state with
the same objects as `w`. -/
def Converted (env : Env) (n : Nat) (c : Ctx) (w : World) (i : Nat) (f : Field) (r : Val) : Prop :=
  ∃ v ek w₁, w.getattr env i f.name = .ok v ∧ c.ekey env w f.name = .ok ek ∧ SameData w w₁ ∧
    ((Field.ops env (instOps env n) f).tojson
      (jsonCtx c f v ek (w.heap i).cls (w.cdef env i).name) w₁).1 = .ok r

/-- The entries contributed by one field. -/
def EntryFor (env : Env) (n : Nat) (c : Ctx) (w : World) (i : Nat) (on : Bool) (f : Field)
    (p : List (String × Val)) : Prop :=
  (¬ Visible env c (w.heap i) (w.cdef env i).name f ∧ p = keyPart on (w.heap i) f) ∨
  (Visible env c (w.heap i) (w.cdef env i).name f ∧ ∃ r, Converted env n c w i f r ∧
    p = keyPart on (w.heap i) f ++ valPart on f r)

theorem isReverse_iff (c : Ctx) (f : Field) : isReverse env c f = true ↔ LeadsBack env c f := by
  unfold isReverse LeadsBack
  cases hr : c.cfg.reverseRel with
  | true => simp
  | false =>
    cases hf : env.foreignField f with
    | none => simp
    | some g =>
      simp only [Bool.false_eq_true, if_false, true_and, Option.some.injEq, Bool.or_eq_true,
        decide_eq_true_eq, exists_eq_left']
      refine or_congr Iff.rfl ?_
      constructor
      · intro h
        split at h
        · next last k rest heq =>
          refine ⟨rest.reverse, last, ?_⟩
          have := congrArg List.reverse heq
          rw [List.reverse_reverse] at this
          rw [this]
          simp only [decide_eq_true_eq] at h
          simp [h]
        · cases h
      · rintro ⟨ks, last, h⟩
        rw [h]
        simp

theorem notPicked_eq (o : Obj) (f : Field) : notPicked o f = !picked o f := by
  unfold notPicked picked
  cases o.picks <;> rfl

theorem skipJson_iff (c : Ctx) (o : Obj) (cname : String) (f : Field) :
    skipJson env c o (c.idchain.contains cname) f = false ↔ Visible env c o cname f := by
  unfold skipJson Visible
  rw [notPicked_eq, ← isReverse_iff]
  cases picked o f <;> cases f.noRead <;> cases c.cfg.ignoreWriteonly <;> cases f.isRef <;>
    cases isReverse env c f <;> simp [and_comm]

theorem keyEntry_eq (w : World) (i : Nat) (on : Bool) (f : Field) (acc : List (String × Val))
    (h : (f.store = .localKey && notPicked (w.heap i) f) = false) :
    keyEntry w i on f acc =
      (keyPart on (w.heap i) f).foldl (fun d kv => dictSet kv.1 kv.2 d) acc := by
  rw [notPicked_eq] at h
  unfold keyEntry keyPart World.attr
  cases hp : picked (w.heap i) f <;> rw [hp] at h <;> by_cases hs : f.store = .localKey <;>
    cases on <;> cases hn : ((w.heap i).attrs f.refName).isNone <;> simp_all

theorem valEntry_eq (on : Bool) (f : Field) (r : Val) (acc : List (String × Val)) :
    (if on || !r.isNone then dictSet f.jsonName r acc else acc) =
      (valPart on f r).foldl (fun d kv => dictSet kv.1 kv.2 d) acc := by
  unfold valPart
  cases on <;> cases r.isNone <;> simp

theorem SameData.trans {a b c : World} (h : SameData a b) (h' : SameData b c) : SameData a c :=
  ⟨h'.1.trans h.1, h'.2.1.trans h.2.1, h'.2.2.1.trans h.2.2.1, h'.2.2.2.trans h.2.2.2⟩

theorem jsonFields_spec (n : Nat) (c : Ctx) (i : Nat) (on : Bool) (w₀ : World) (fs : List Field) :
    ∀ (acc : List (String × Val)) (w : World) (kvs : List (String × Val)), SameData w₀ w →
      (jsonFields env (Field.ops env (instOps env n)) c i on
        (c.idchain.contains (w₀.cdef env i).name) fs acc w).1 = .ok kvs →
      ∃ parts, List.Forall₂ (EntryFor env n c w₀ i on) fs parts ∧
        kvs = parts.flatten.foldl (fun d kv => dictSet kv.1 kv.2 d) acc := by
  induction fs with
  | nil =>
    intro acc w kvs _ h
    cases h
    exact ⟨[], .nil, rfl⟩
  | cons f fs ih =>
    intro acc w kvs hd h
    simp only [jsonFields] at h
    rw [getattr_congr hd.1, hd.1] at h
    have hcd : w.cdef env i = w₀.cdef env i := by simp only [World.cdef, hd.1]
    cases hv : w₀.getattr env i f.name with
    | error e => rw [hv] at h; cases h
    | ok v =>
      rw [hv] at h
      simp only at h
      by_cases hn : (f.store = .localKey && notPicked (w₀.heap i) f) = true
      · rw [if_pos hn] at h
        obtain ⟨parts, hp, hk⟩ := ih acc w kvs hd h
        have hnp : picked (w₀.heap i) f = false := by
          rw [notPicked_eq] at hn
          simp at hn; exact hn.2
        refine ⟨[] :: parts, .cons (.inl ⟨?_, ?_⟩) hp, by simpa using hk⟩
        · rintro ⟨h1, _⟩; rw [hnp] at h1; cases h1
        · simp [keyPart, hnp]
      · rw [if_neg hn] at h
        have hn : (f.store = .localKey && notPicked (w₀.heap i) f) = false := by simpa using hn
        have hke : keyEntry w i on f acc = keyEntry w₀ i on f acc := by
          have : w.attr i f.refName = w₀.attr i f.refName := by simp only [World.attr, hd.1]
          simp only [keyEntry, this]
        rw [hke, keyEntry_eq w₀ i on f acc hn] at h
        by_cases hs : skipJson env c (w₀.heap i) (c.idchain.contains (w₀.cdef env i).name) f = true
        · rw [if_pos hs] at h
          obtain ⟨parts, hp, hk⟩ := ih _ w kvs hd h
          refine ⟨keyPart on (w₀.heap i) f :: parts, .cons (.inl ⟨?_, rfl⟩) hp, ?_⟩
          · rw [← skipJson_iff]; simp only [hs]; simp
          · rw [hk, List.flatten_cons, List.foldl_append]
        · rw [if_neg hs] at h
          have hs : skipJson env c (w₀.heap i) (c.idchain.contains (w₀.cdef env i).name) f = false := by
            simpa using hs
          have hvis := (skipJson_iff c (w₀.heap i) _ f).1 hs
          have hek : c.ekey env w f.name = c.ekey env w₀ f.name := by
            simp only [Ctx.ekey, World.cdef, hd.1]
          cases he : c.ekey env w f.name with
          | error e => rw [he] at h; cases h
          | ok ek =>
            rw [he] at h
            simp only [hcd] at h
            have hd' := fieldTojson_sameData (env := env) n f
              (jsonCtx c f v ek (w₀.heap i).cls (w₀.cdef env i).name) w
            have hcv : ∀ r, ((Field.ops env (instOps env n) f).tojson
                (jsonCtx c f v ek (w₀.heap i).cls (w₀.cdef env i).name) w).1 = .ok r →
                Converted env n c w₀ i f r := fun r hr => ⟨v, ek, w, hv, hek.symm.trans he, hd, hr⟩
            change (match (Field.ops env (instOps env n) f).tojson
              (jsonCtx c f v ek (w₀.heap i).cls (w₀.cdef env i).name) w with
              | (.error e, w') => (Except.error e, w')
              | (.ok r, w') => jsonFields env (Field.ops env (instOps env n)) c i on
                  (c.idchain.contains (w₀.cdef env i).name) fs
                  (if on || !r.isNone then dictSet f.jsonName r _ else _) w').1 = .ok kvs at h
            generalize (Field.ops env (instOps env n) f).tojson
              (jsonCtx c f v ek (w₀.heap i).cls (w₀.cdef env i).name) w = out at h hd' hcv
            obtain ⟨r, w'⟩ := out
            cases r with
            | error e => cases h
            | ok r =>
              simp only at h hd' hcv
              rw [valEntry_eq] at h
              obtain ⟨parts, hp, hk⟩ := ih _ w' kvs (hd.trans hd') h
              refine ⟨(keyPart on (w₀.heap i) f ++ valPart on f r) :: parts,
                .cons (.inr ⟨hvis, r, hcv r rfl, rfl⟩) hp, ?_⟩
              rw [hk, List.flatten_cons, List.foldl_append, List.foldl_append]

/-- **C30** (any object met during the conversion, at any depth). When `tojson` of an
object succeeds, the result is the dict obtained by storing, field after field in
declaration order, the reference id entry and the value entry of each field: the first for
local key fields that are picked and have an id (always if nulls are output), the second
for visible fields whose converted value is not None (always if nulls are output). -/
theorem instance_entries (n : Nat) (c : Ctx) (i : Nat) (hi : c.val = .obj i) (w : World) (cls st) (v : Val)
    (h : ((instOps env (n + 1) cls st).tojson c w).1 = .ok v) :
    ∃ parts, List.Forall₂
        (EntryFor env n c w i (c.cfg.outputNull.getD (w.cdef env i).outputNull))
        (w.cdef env i).fields parts ∧
      v = .dict (parts.flatten.foldl (fun d kv => dictSet kv.1 kv.2 d) []) := by
  simp only [instOps, instTojson, hi, Py.bind_run, Py.get] at h
  have := jsonFields_spec (env := env) n c i (c.cfg.outputNull.getD (w.cdef env i).outputNull) w
    (w.cdef env i).fields [] w
  generalize jsonFields env (Field.ops env (instOps env n)) c i
    (c.cfg.outputNull.getD (w.cdef env i).outputNull)
    (c.idchain.contains (w.cdef env i).name) (w.cdef env i).fields [] w = out at h this
  obtain ⟨r, w'⟩ := out
  cases r with
  | error e => cases h
  | ok kvs =>
    obtain ⟨parts, hp, hk⟩ := this kvs (SameData.refl w) rfl
    refine ⟨parts, hp, ?_⟩
    cases h
    rw [hk]

/-- The field of the object on which `tojson()` is called is output: picked, not temp,
and readable unless writeonly marks are ignored. -/
def RootVisible (ig : Bool) (o : Obj) (f : Field) : Prop :=
  picked o f = true ∧ f.store ≠ .temp ∧ (f.noRead = true → ig = true)

/-- The names a field can have in the JSON. -/
def jsonNames (f : Field) : List String :=
  if f.store = .localKey then [f.jrefName, f.jsonName] else [f.jsonName]

theorem entryFor_names {n c w i on f p} (h : EntryFor env n c w i on f p) :
    (p.map Prod.fst).Sublist (jsonNames f) := by
  have hk : ((keyPart on (w.heap i) f).map Prod.fst).Sublist
      (if f.store = .localKey then [f.jrefName] else []) := by
    unfold keyPart
    by_cases hs : f.store = .localKey
    · rw [if_pos hs]; split <;> simp
    · rw [if_neg hs, if_neg (fun h => hs h.1)]; simp
  have hv : ∀ r, ((valPart on f r).map Prod.fst).Sublist [f.jsonName] := by
    intro r; unfold valPart; split <;> simp
  have hj : jsonNames f = (if f.store = .localKey then [f.jrefName] else []) ++ [f.jsonName] := by
    unfold jsonNames; split <;> rfl
  rw [hj]
  rcases h with ⟨_, rfl⟩ | ⟨_, r, _, rfl⟩
  · exact hk.trans (List.sublist_append_left _ _)
  · rw [List.map_append]; exact hk.append (hv r)

theorem parts_names {n c w i on} {fs : List Field} {parts : List (List (String × Val))}
    (h : List.Forall₂ (EntryFor env n c w i on) fs parts) :
    (parts.flatten.map Prod.fst).Sublist (fs.flatMap jsonNames) := by
  induction h with
  | nil => simp
  | cons h _ ih =>
    rw [List.flatten_cons, List.map_append, List.flatMap_cons]
    exact (entryFor_names h).append ih

theorem foldl_dictSet_nodup' {α : Type} (l acc : List (String × α))
    (h : ((acc ++ l).map Prod.fst).Nodup) :
    l.foldl (fun d kv => dictSet kv.1 kv.2 d) acc = acc ++ l := by
  induction l generalizing acc with
  | nil => simp
  | cons x l ih =>
    rw [List.foldl_cons, dictSet_new x.1 x.2 acc, ih]
    · simp
    · simpa using h
    · intro y hy he
      rw [List.map_append, List.nodup_append] at h
      exact h.2.2 y.1 (List.mem_map_of_mem hy) x.1 (by simp) he

theorem root_visible_iff (w : World) (i : Nat) (ig rr : Bool) (on : Option Bool) (v : Val)
    (o : Obj) (cname : String) (f : Field) :
    Visible env (rootCtx w i { ignoreWriteonly := ig, reverseRel := rr, outputNull := on } v) o cname f ↔
      RootVisible ig o f := by
  unfold Visible RootVisible LeadsBack
  have hfid : ∀ g, env.foreignField f = some g → (none : Option (String × String)) ≠ f.foreign := by
    intro g hg hf
    rw [Env.foreignField, ← hf] at hg
    cases hg
  constructor
  · rintro ⟨h1, h2, h3, _⟩; exact ⟨h1, h2, h3⟩
  · rintro ⟨h1, h2, h3⟩
    refine ⟨h1, h2, h3, fun _ => ⟨?_, by simp [rootCtx]⟩⟩
    rintro ⟨_, g, hg, h | ⟨ks, last, h⟩⟩
    · exact hfid g hg h
    · simp [rootCtx] at h

/-- **C30**. If `tojson()` succeeds and the class gives distinct JSON names to its fields
and reference ids, the result is a dict whose entries are, in declaration order, for each
field: its reference id (local key fields that are picked; left out when None unless nulls
are output), then its converted value (picked, readable and not temp fields; left out when
None unless nulls are output). Nothing else is in it. -/
theorem tojson_entries (w : World) (n i : Nat) (ig rr : Bool) (on : Option Bool) (v : Val)
    (hnd : ((w.cdef env i).fields.flatMap jsonNames).Nodup)
    (h : (apiTojson env (n + 1) i ig rr on w).1 = .ok v) :
    ∃ parts : List (List (String × Val)), v = .dict parts.flatten ∧
      List.Forall₂ (fun f p =>
        (¬ RootVisible ig (w.heap i) f ∧ p = keyPart (on.getD (w.cdef env i).outputNull) (w.heap i) f) ∨
        (RootVisible ig (w.heap i) f ∧ ∃ r, Converted env n
            (rootCtx w i { ignoreWriteonly := ig, reverseRel := rr, outputNull := on } (.obj i)) w i f r ∧
          p = keyPart (on.getD (w.cdef env i).outputNull) (w.heap i) f
            ++ valPart (on.getD (w.cdef env i).outputNull) f r)) (w.cdef env i).fields parts := by
  have h' : ((instOps env (n + 1) (w.heap i).cls none).tojson
      (rootCtx w i { ignoreWriteonly := ig, reverseRel := rr, outputNull := on } (.obj i))
      { w with marks := [] }).1 = .ok v := h
  obtain ⟨parts, hp, hv⟩ := instance_entries n _ i rfl _ _ _ v h'
  have hnames := parts_names hp
  refine ⟨parts, ?_, ?_⟩
  · rw [hv, foldl_dictSet_nodup' _ _ ?_]
    · simp
    · simpa using hnames.nodup hnd
  · refine hp.imp ?_
    intro f p hfp
    unfold EntryFor at hfp
    rw [root_visible_iff] at hfp
    rcases hfp with hfp | ⟨hvis, r, ⟨v, ek, w₁, hg, hek, hsd, hr⟩, rfl⟩
    · exact .inl hfp
    · exact .inr ⟨hvis, r, ⟨v, ek, w₁, by rw [← hg]; exact getattr_congr rfl i f.name, hek, hsd, hr⟩, rfl⟩

theorem forall₂_mem {α β : Type} {R : α → β → Prop} {l : List α} {l' : List β}
    (h : List.Forall₂ R l l') {b : β} (hb : b ∈ l') : ∃ a ∈ l, R a b := by
  induction h with
  | nil => cases hb
  | cons hr _ ih =>
    rcases List.mem_cons.1 hb with rfl | hb
    · exact ⟨_, by simp, hr⟩
    · obtain ⟨a, ha, h⟩ := ih hb; exact ⟨a, by simp [ha], h⟩

/-! ### C28: hidden values do not matter -/

/-- The field's value is not to be output: temp, or writeonly unless marks are ignored.
(Calculated fields have no value of their own.) -/
def HiddenField (ig : Bool) (f : Field) : Prop :=
  f.store ≠ .calculated ∧ (f.store = .temp ∨ (f.noRead = true ∧ ig = false))

/-- `n` names a hidden field of the class. -/
def HiddenName (ig : Bool) (cd : ClassDef) (n : String) : Prop :=
  ∃ f ∈ cd.fields, f.name = n ∧ HiddenField ig f

/-- Two heaps whose objects differ at most in the values of hidden fields. -/
def SameButHidden (env : Env) (ig : Bool) (h₁ h₂ : Heap) : Prop :=
  ∀ j, ∃ a, h₂ j = { h₁ j with attrs := a } ∧
    ∀ n, ¬ HiddenName ig (env.cls (h₁ j).cls) n → a n = (h₁ j).attrs n

/-- Field names of a class are distinct (they are the keys of a dict in the code), and the
name of a reference id is not the name of a hidden field. -/
structure NamesOk (env : Env) (ig : Bool) : Prop where
  distinct : ∀ cls, ∀ f ∈ (env.cls cls).fields, (env.cls cls).field? f.name = some f
  refName : ∀ cls, ∀ f ∈ (env.cls cls).fields, f.store = .localKey →
    ¬ HiddenName ig (env.cls cls) f.refName

/-- User supplied code called by `tojson` (effect free modifiers, also those run by unions
to find the alternative, and getters) does not look at hidden values itself; and no
alternative of a union contains an object. -/
structure LooksAway (env : Env) (ig : Bool) : Prop where
  chain : ∀ cls, ∀ f ∈ (env.cls cls).fields,
    Mod.ShownL (fun l => ∀ c h₁ h₂, SameButHidden env ig h₁ h₂ → l.tojson h₁ c = l.tojson h₂ c)
      (fun l => ∀ c h₁ h₂, SameButHidden env ig h₁ h₂ → l.validate h₁ c = l.validate h₂ c)
      True False f.chain
  getter : ∀ cls, ∀ f ∈ (env.cls cls).fields, ∀ i h₁ h₂, SameButHidden env ig h₁ h₂ →
    f.getter h₁ i = f.getter h₂ i

theorem SameButHidden.cls {ig : Bool} {h₁ h₂ : Heap} (h : SameButHidden env ig h₁ h₂) (j : Nat) :
    (h₁ j).cls = (h₂ j).cls := by
  obtain ⟨a, ha, _⟩ := h j; rw [ha]

theorem SameButHidden.picks {ig : Bool} {h₁ h₂ : Heap} (h : SameButHidden env ig h₁ h₂) (j : Nat) :
    (h₁ j).picks = (h₂ j).picks := by
  obtain ⟨a, ha, _⟩ := h j; rw [ha]

theorem SameButHidden.attrs {ig : Bool} {h₁ h₂ : Heap} (h : SameButHidden env ig h₁ h₂) (j : Nat)
    {n : String} (hn : ¬ HiddenName ig (env.cls (h₁ j).cls) n) : (h₁ j).attrs n = (h₂ j).attrs n := by
  obtain ⟨a, ha, hb⟩ := h j; rw [ha]; exact (hb n hn).symm

theorem tojson_hidden_sim {ig : Bool} (hn : NamesOk env ig) (hl : LooksAway env ig) {h₁ h₂ : Heap}
    (hh : SameButHidden env ig h₁ h₂) (n : Nat) :
    ∀ cls st (c : Ctx), c.cfg.ignoreWriteonly = ig →
    Sim (fun w₁ w₂ => w₁.heap = h₁ ∧ w₂.heap = h₂) (fun _ => False)
      ((instOps env n cls st).tojson c) ((instOps env n cls st).tojson c) := by
  induction n with
  | zero => intro cls st c _; exact Sim.raise (by simp)
  | succ n ih =>
    intro cls st c hc
    simp only [instOps]
    have hs : SimTojson (fun w₁ w₂ => w₁.heap = h₁ ∧ w₂.heap = h₂) (fun _ => False) env
        (instOps env n) (instOps env n) (fun c => c.cfg.ignoreWriteonly = ig) True False :=
      { hv := by simp
        ha := by simp
        nval := fun _ _ h => h
        col := fun _ _ _ h => h
        alter := fun _ h => h
        owner := by rintro w₁ w₂ o ⟨rfl, rfl⟩; simp only [World.cdef, hh.cls o]
        vis := fun _ cls st c hc => ih cls st c hc
        noMarks := False.elim
        visV := False.elim }
    refine sim_instTojson (by simp) (by rintro _ _ ⟨rfl, rfl⟩ j; exact hh.cls j)
      (by rintro _ _ i _ ⟨rfl, rfl⟩; exact hh.picks i) ?_
    rintro i hv u₁ u₂ ⟨hu₁, hu₂⟩ f hf
    have hf : f ∈ (env.cls (h₁ i).cls).fields := by simpa only [World.cdef, hu₁] using hf
    have hd := hn.distinct _ f hf
    refine ⟨?_, ?_, ?_⟩
    · rintro hst w₁ w₂ ⟨rfl, rfl⟩
      exact hh.attrs i (hn.refName _ f hf hst)
    · rintro w₁ w₂ ⟨rfl, rfl⟩
      have hd₂ : (w₂.cdef env i).field? f.name = some f := by
        rw [World.cdef, ← hh.cls i]; exact hd
      have hd₁ : (w₁.cdef env i).field? f.name = some f := hd
      unfold GetAgree World.getattr
      rw [hd₁, hd₂]
      by_cases hcalc : f.store = .calculated
      · simp only [hcalc, if_true]
        have := hl.getter _ f hf i _ _ hh
        rw [← this]
        cases f.getter w₁.heap i with
        | ok v => exact .inl ⟨v, rfl, rfl⟩
        | error e => exact .inr (.inl ⟨e, rfl, rfl, fun h => h⟩)
      · simp only [hcalc, if_false]
        by_cases hhid : HiddenField ig f
        · refine .inr (.inr ⟨?_, _, _, rfl, rfl⟩)
          unfold skipJson
          rcases hhid.2 with h | ⟨h1, h2⟩
          · simp [h]
          · simp [h1, h2, hc]
        · refine .inl ⟨w₁.attr i f.name, rfl, ?_⟩
          rw [World.attr, World.attr, hh.attrs i]
          rintro ⟨g, hg, hgn, hgh⟩
          have := hn.distinct _ g hg
          rw [hgn, hd] at this
          cases this
          exact hhid hgh
    · rintro w₁ w₂ ⟨rfl, rfl⟩ _ v ek
      refine sim_chainTojson hs f.chain (Mod.ShownL.mono ?_ ?_ (fun h => h) (fun h => h) f.chain
        (hl.chain _ f hf)) _ ?_
      · rintro l hl c u₁ u₂ _ ⟨e1, e2⟩
        rw [e1, e2]
        exact ⟨hl c _ _ hh, fun e _ h => h⟩
      · rintro l hl c u₁ u₂ _ ⟨e1, e2⟩
        rw [e1, e2]
        exact ⟨hl c _ _ hh, fun e _ h => h⟩
      · unfold jsonCtx
        split <;> exact hc

/-- **C28** (non-interference). Change, in any objects whatsoever, the values of temp
fields and (unless writeonly marks are ignored) of writeonly fields: `tojson()` of any
object gives the same outcome, JSON or exception, in both states. -/
theorem tojson_hides_partial {ig : Bool} (hn : NamesOk env ig) (hl : LooksAway env ig)
    (w₁ w₂ : World) (h : SameButHidden env ig w₁.heap w₂.heap) (n i : Nat) (rr : Bool) (on : Option Bool) :
    (apiTojson env n i ig rr on w₁).1 = (apiTojson env n i ig rr on w₂).1 := by
  obtain ⟨a, ha, _⟩ := h i
  have hr : rootCtx w₁ i { ignoreWriteonly := ig, reverseRel := rr, outputNull := on } (.obj i) =
      rootCtx w₂ i { ignoreWriteonly := ig, reverseRel := rr, outputNull := on } (.obj i) := by
    simp only [rootCtx, ha]
  have := (tojson_hidden_sim hn hl h n (w₁.heap i).cls none
    (rootCtx w₁ i { ignoreWriteonly := ig, reverseRel := rr, outputNull := on } (.obj i)) rfl
    { w₁ with marks := [] } { w₂ with marks := [] } ⟨rfl, rfl⟩).1
  unfold apiTojson withFreshMarks
  simp only
  rw [← h.cls i, ← hr]
  exact this

/-- **C28** (no entry). In the JSON of an object whose class gives distinct JSON names to
its fields and reference ids, there is no entry under the JSON name of a temp field, nor of
a writeonly field unless writeonly marks are ignored. -/
theorem tojson_no_hidden_entry (w : World) (n i : Nat) (ig rr : Bool) (on : Option Bool)
    (hnd : ((w.cdef env i).fields.flatMap jsonNames).Nodup) (f : Field)
    (hf : f ∈ (w.cdef env i).fields) (hh : HiddenField ig f) (kvs : List (String × Val))
    (h : (apiTojson env n i ig rr on w).1 = .ok (.dict kvs)) : f.jsonName ∉ kvs.map Prod.fst := by
  cases n with
  | zero => cases h
  | succ n =>
    obtain ⟨parts, hv, hp⟩ := tojson_entries w n i ig rr on _ hnd h
    injection hv with hv
    subst hv
    have hnv : ¬ RootVisible ig (w.heap i) f := by
      rintro ⟨_, h1, h2⟩
      rcases hh.2 with h | ⟨h3, h4⟩
      · exact h1 h
      · rw [h2 h3] at h4; cases h4
    have hsub : ∀ {g : Field} {p : List (String × Val)}, (
        (¬ RootVisible ig (w.heap i) g ∧ p = keyPart (on.getD (w.cdef env i).outputNull) (w.heap i) g) ∨
        (RootVisible ig (w.heap i) g ∧ ∃ r, Converted env n
            (rootCtx w i { ignoreWriteonly := ig, reverseRel := rr, outputNull := on } (.obj i)) w i g r ∧
          p = keyPart (on.getD (w.cdef env i).outputNull) (w.heap i) g
            ++ valPart (on.getD (w.cdef env i).outputNull) g r)) →
        ∀ x ∈ p.map Prod.fst, (x = g.jrefName ∧ g.store = .localKey) ∨
          (x = g.jsonName ∧ RootVisible ig (w.heap i) g) := by
      intro g p hg x hx
      have hk : ∀ x ∈ (keyPart (on.getD (w.cdef env i).outputNull) (w.heap i) g).map Prod.fst,
          x = g.jrefName ∧ g.store = .localKey := by
        intro x hx
        unfold keyPart at hx
        split at hx
        · next hc => exact ⟨by simpa using hx, hc.1⟩
        · cases hx
      rcases hg with ⟨_, rfl⟩ | ⟨hvis, r, _, rfl⟩
      · exact .inl (hk x hx)
      · rw [List.map_append, List.mem_append] at hx
        rcases hx with hx | hx
        · exact .inl (hk x hx)
        · refine .inr ⟨?_, hvis⟩
          unfold valPart at hx
          split at hx
          · simpa using hx
          · cases hx
    intro hmem
    rw [List.map_flatten, List.mem_flatten] at hmem
    obtain ⟨q, hq, hx⟩ := hmem
    rw [List.mem_map] at hq
    obtain ⟨p, hpm, rfl⟩ := hq
    obtain ⟨g, hg, hgp⟩ := forall₂_mem hp hpm
    have huniq : ∀ (l : List Field), (l.flatMap jsonNames).Nodup → f ∈ l → g ∈ l →
        ∀ x, x ∈ jsonNames f → x ∈ jsonNames g → f = g := by
      intro l
      induction l with
      | nil => intro _ h; cases h
      | cons a l ih =>
        intro hnd hf hg x hxf hxg
        rw [List.flatMap_cons, List.nodup_append] at hnd
        rcases List.mem_cons.1 hf with rfl | hf'
        · rcases List.mem_cons.1 hg with rfl | hg
          · rfl
          · exact (hnd.2.2 x hxf x (List.mem_flatMap.2 ⟨g, hg, hxg⟩) rfl).elim
        · rcases List.mem_cons.1 hg with hga | hg
          · subst hga
            exact (hnd.2.2 x hxg x (List.mem_flatMap.2 ⟨f, hf', hxf⟩) rfl).elim
          · exact ih hnd.2.1 hf' hg x hxf hxg
    have hfx : f.jsonName ∈ jsonNames f := by unfold jsonNames; split <;> simp
    rcases hsub hgp _ hx with ⟨he, hs⟩ | ⟨he, hvis⟩
    · have hgx : f.jsonName ∈ jsonNames g := by rw [he]; simp [jsonNames, hs]
      obtain rfl := huniq _ hnd hf hg _ hfx hgx
      have : (jsonNames f).Nodup := by
        have hsl : (jsonNames f).Sublist ((w.cdef env i).fields.flatMap jsonNames) := by
          obtain ⟨l₁, l₂, hl⟩ := List.append_of_mem hf
          rw [hl, List.flatMap_append, List.flatMap_cons]
          exact (List.sublist_append_left _ _).trans (List.sublist_append_right _ _)
        exact hsl.nodup hnd
      simp [jsonNames, hs, he] at this
    · have hgx : f.jsonName ∈ jsonNames g := by
        rw [he]; unfold jsonNames; split <;> simp
      obtain rfl := huniq _ hnd hf hg _ hfx hgx
      exact hnv hvis

/-! ### C29: termination -/

/-- Objects are nested only through relation fields (local or foreign keys), no alternative
of a union contains an object, and user supplied code called by `tojson` does not itself
run into the recursion limit. -/
structure RefsOnly (env : Env) : Prop where
  chain : ∀ cls, ∀ f ∈ (env.cls cls).fields,
    Mod.ShownL (fun l => ∀ h c, l.tojson h c ≠ .error .recursion)
      (fun l => ∀ h c, l.validate h c ≠ .error .recursion) (f.isRef = true) False f.chain
  getter : ∀ cls, ∀ f ∈ (env.cls cls).fields, ∀ h i, f.getter h i ≠ .error .recursion

/-- The class names not met yet. -/
def unmet (names ch : List String) : List String := names.filter (fun x => !ch.contains x)

theorem unmet_lt {names ch : List String} {x : String} (hx : x ∈ names) (hc : ch.contains x = false) :
    (unmet names (ch ++ [x])).length < (unmet names ch).length := by
  unfold unmet
  refine filter_length_lt names ?_ hx (by simp) (by rw [hc]; rfl)
  intro a _ h
  simp only [Bool.not_eq_true', List.contains_eq_mem, List.mem_append, decide_eq_false_iff_not] at h ⊢
  exact fun h' => h (.inl h')

theorem tojson_sim (hj : RefsOnly env) {names : List String} {w₀ : World}
    (hnames : ∀ i, (w₀.cdef env i).name ∈ names) (m : Nat) :
    ∀ n n', m < n → m < n' → ∀ cls st (c : Ctx), (unmet names c.idchain).length ≤ m →
      Sim (fun w₁ w₂ => w₁ = w₂ ∧ SameData w₀ w₁) (· = .recursion) ((instOps env n cls st).tojson c)
        ((instOps env n' cls st).tojson c) := by
  induction m using Nat.strongRecOn with
  | ind m ih =>
    intro n n' hn hn' cls st c hc
    obtain ⟨n, rfl⟩ : ∃ k, n = k + 1 := ⟨n - 1, by omega⟩
    obtain ⟨n', rfl⟩ : ∃ k, n' = k + 1 := ⟨n' - 1, by omega⟩
    simp only [instOps]
    refine sim_instTojson (by simp) ?_ ?_ ?_
    · rintro w₁ w₂ ⟨rfl, _⟩ j; rfl
    · rintro w₁ w₂ i _ ⟨rfl, _⟩; rfl
    · rintro i hv u₁ u₂ ⟨rfl, hd⟩ f hf
      have hcd : ∀ w : World, SameData w₀ w → w.cdef env i = w₀.cdef env i := fun w h => by
        simp only [World.cdef, h.1]
      rw [hcd u₁ hd] at hf
      refine ⟨?_, ?_, ?_⟩
      · rintro _ w₁ w₂ ⟨rfl, _⟩; rfl
      · rintro w₁ w₂ ⟨rfl, hd₁⟩
        refine getAgree_diag (fun e he hr => ?_)
        subst hr
        unfold World.getattr at he
        split at he
        · next g hg =>
          split at he
          · rw [hcd w₁ hd₁] at hg
            exact hj.getter _ g (List.mem_of_find?_eq_some hg) _ _ he
          · cases he
        · cases he
      · rintro w₁ w₂ ⟨rfl, hd₁⟩ hsk v ek
        rw [hcd u₁ hd] at hsk
        have hs : SimTojson (fun w₁ w₂ => w₁ = w₂ ∧ SameData w₀ w₁) (· = .recursion) env
            (instOps env n) (instOps env n')
            (fun c' => c'.idchain = c.idchain ++ [(w₀.cdef env i).name]) (f.isRef = true) False :=
          { hv := by simp
            ha := by simp
            nval := fun _ _ h => h
            col := fun _ _ _ h => h
            alter := fun _ h => h
            owner := by rintro _ _ o ⟨rfl, _⟩; rfl
            vis := by
              intro hr cls st c' hc'
              have hnk : c.idchain.contains (w₀.cdef env i).name = false := by
                unfold skipJson at hsk
                rw [hr] at hsk
                simp only [Bool.true_and, Bool.or_eq_false_iff] at hsk
                exact hsk.1.1.1.2
              have hlt := unmet_lt (hnames i) hnk
              exact ih (m - 1) (by omega) n n' (by omega) (by omega) cls st c'
                (by rw [hc']; omega)
            noMarks := False.elim
            visV := False.elim }
        refine sim_chainTojson hs f.chain (Mod.ShownL.mono ?_ ?_ (fun h => h) (fun h => h) f.chain
          (hj.chain _ f hf)) _ ?_
        · rintro l hl c w₁ w₂ _ ⟨rfl, _⟩
          exact ⟨rfl, fun e he hr => hl _ _ (by rw [he, hr])⟩
        · rintro l hl c w₁ w₂ _ ⟨rfl, _⟩
          exact ⟨rfl, fun e he hr => hl _ _ (by rw [he, hr])⟩
        · rw [hcd w₁ hd₁]
          unfold jsonCtx
          split <;> rfl

/-- **C29**. Let `names` contain the names of the classes of all objects. If objects are
nested only through relation fields, `tojson()` of any object of any graph, cyclic or not,
does not run into the recursion limit as soon as `names.length + 1` objects may be nested
in one another, and allowing more does not change the result: the computation terminates,
and no more than that many objects are nested in the JSON. -/
theorem tojson_terminates (hj : RefsOnly env) (w : World) (names : List String)
    (hnames : ∀ j, (w.cdef env j).name ∈ names) (i : Nat) (ig rr : Bool) (on : Option Bool) (n : Nat)
    (hn : names.length < n) :
    (apiTojson env n i ig rr on w).1 ≠ .error .recursion ∧
    ∀ n', names.length < n' → apiTojson env n' i ig rr on w = apiTojson env n i ig rr on w := by
  have key : ∀ n', names.length < n' →
      Sim (fun w₁ w₂ => w₁ = w₂ ∧ SameData w w₁) (· = .recursion)
        ((instOps env n (w.heap i).cls none).tojson
          (rootCtx w i { ignoreWriteonly := ig, reverseRel := rr, outputNull := on } (.obj i)))
        ((instOps env n' (w.heap i).cls none).tojson
          (rootCtx w i { ignoreWriteonly := ig, reverseRel := rr, outputNull := on } (.obj i))) :=
    fun n' hn' => tojson_sim hj hnames names.length n n' hn hn' _ _ _ (List.length_filter_le _ _)
  have hK : ({ w with marks := [] } : World) = { w with marks := [] } ∧
      SameData w { w with marks := [] } := ⟨rfl, rfl, rfl, rfl, rfl⟩
  refine ⟨fun he => (key n hn _ _ hK).2.1 _ he rfl, fun n' hn' => ?_⟩
  have := key n' hn' _ _ hK
  have e := Prod.ext this.1 this.2.2.1
  unfold apiTojson withFreshMarks
  simp only [e]

end JC

/-! ### Concrete cases and limits -/

namespace JC.JsonDemo
open JC
open JC.Demo (fId fName fSecret fTmp fFriend fPosts fAuthor user post attrsOf optStr reqStr)

/-- The demo classes nest objects through relations only. -/
theorem refsOnly : RefsOnly Demo.env where
  chain := by
    intro cls f hf
    rcases Demo.env_cases cls with h | h | h <;> rw [h] at hf
    · simp only [user, List.mem_cons, List.not_mem_nil, or_false] at hf
      rcases hf with rfl | rfl | rfl | rfl | rfl | rfl <;>
        simp only [fId, fName, fSecret, fTmp, fFriend, fPosts, Mod.ShownL, Mod.Shown, and_true] <;>
        first
          | rfl
          | (intro h c h'; cases h')
    · simp only [post, List.mem_cons, List.not_mem_nil, or_false] at hf
      rcases hf with rfl | rfl | rfl <;>
        simp only [fId, fName, fAuthor, Mod.ShownL, Mod.Shown, and_true] <;>
        first
          | rfl
          | (intro h c h'; cases h')
    · cases hf
  getter := Demo.userCode.getter

theorem world_names (j : Nat) : (Demo.world.cdef Demo.env j).name ∈ ["User", "Post", ""] := by
  rcases Demo.env_cases (Demo.world.heap j).cls with h | h | h <;>
    (rw [World.cdef, h]; simp [user, post])

/-- A cyclic graph meets the hypotheses of C29. -/
example : (apiTojson Demo.env 4 0 false false none Demo.world).1 ≠ .error .recursion :=
  (tojson_terminates refsOnly Demo.world ["User", "Post", ""] world_names 0 false false none 4
    (by decide)).1

/-- Its JSON: the friend is output without relations (its class was met), the post without
its author but with the author's id. -/
example : (apiTojson Demo.env 4 0 false false none Demo.world).1 = .ok (.dict
    [("id", .str "u0"), ("name", .str "ann"),
     ("friend", .dict [("id", .str "u1"), ("name", .str "bob")]),
     ("posts", .list [.dict [("id", .str "p"), ("name", .str "post"), ("authorId", .str "u0")]])]) := by
  rfl

example : (apiTojson Demo.env 4 2 true false (some true) Demo.world).1 = .ok (.dict
    [("id", .str "p"), ("name", .str "post"), ("authorId", .str "u0"),
     ("author", .dict [("id", .str "u0"), ("name", .str "ann"), ("secret", .str "s"),
       ("friend", .dict [("id", .str "u1"), ("name", .str "bob"), ("secret", .none)])])]) := by
  rfl

theorem names_nodup : ((Demo.world.cdef Demo.env 0).fields.flatMap jsonNames).Nodup := by decide

example : ∀ kvs, (apiTojson Demo.env 4 0 false false none Demo.world).1 = .ok (.dict kvs) →
    "secret" ∉ kvs.map Prod.fst :=
  fun kvs h => tojson_no_hidden_entry Demo.world 4 0 false false none names_nodup fSecret
    (by change fSecret ∈ user.fields; simp [user]) ⟨by decide, .inr ⟨rfl, rfl⟩⟩ kvs h

theorem namesOk : NamesOk Demo.env false where
  distinct := by
    intro cls f hf
    rcases Demo.env_cases cls with h | h | h <;> rw [h] at hf ⊢
    · simp only [user, List.mem_cons, List.not_mem_nil, or_false] at hf
      rcases hf with rfl | rfl | rfl | rfl | rfl | rfl <;> rfl
    · simp only [post, List.mem_cons, List.not_mem_nil, or_false] at hf
      rcases hf with rfl | rfl | rfl <;> rfl
    · cases hf
  refName := by
    intro cls f hf hs
    rcases Demo.env_cases cls with h | h | h <;> rw [h] at hf ⊢
    · simp only [user, List.mem_cons, List.not_mem_nil, or_false] at hf
      rcases hf with rfl | rfl | rfl | rfl | rfl | rfl <;> cases hs
    · rintro ⟨g, hg, hn, _⟩
      simp only [post, List.mem_cons, List.not_mem_nil, or_false] at hf hg
      rcases hf with rfl | rfl | rfl
      · cases hs
      · cases hs
      · rcases hg with rfl | rfl | rfl <;> exact absurd hn (by decide)
    · cases hf

theorem looksAway : LooksAway Demo.env false where
  chain := by
    intro cls f hf
    rcases Demo.env_cases cls with h | h | h <;> rw [h] at hf
    · simp only [user, List.mem_cons, List.not_mem_nil, or_false] at hf
      rcases hf with rfl | rfl | rfl | rfl | rfl | rfl <;>
        simp only [fId, fName, fSecret, fTmp, fFriend, fPosts, Mod.ShownL, Mod.Shown, and_true] <;>
        (intros; rfl)
    · simp only [post, List.mem_cons, List.not_mem_nil, or_false] at hf
      rcases hf with rfl | rfl | rfl <;>
        simp only [fId, fName, fAuthor, Mod.ShownL, Mod.Shown, and_true] <;> (intros; rfl)
    · cases hf
  getter := by
    intro cls f hf i h₁ h₂ _
    rcases Demo.env_cases cls with h | h | h <;> rw [h] at hf
    · simp only [user, List.mem_cons, List.not_mem_nil, or_false] at hf
      rcases hf with rfl | rfl | rfl | rfl | rfl | rfl <;> rfl
    · simp only [post, List.mem_cons, List.not_mem_nil, or_false] at hf
      rcases hf with rfl | rfl | rfl <;> rfl
    · cases hf

/-- the demo world with another secret and a temp value in the first user -/
def world' : World :=
  { Demo.world with heap := fun j => if j = 0 then
      { Demo.world.heap 0 with attrs := attrsOf [("id", .str "u0"), ("name", .str "ann"),
          ("secret", .str "other"), ("tmp", .str "t"), ("friend", .obj 1), ("posts", .list [.obj 2])] }
      else Demo.world.heap j }

theorem sameButHidden : SameButHidden Demo.env false Demo.world.heap world'.heap := by
  intro j
  by_cases h : j = 0
  · subst h
    refine ⟨_, rfl, fun n hn => ?_⟩
    have h1 : n ≠ "secret" := by
      rintro rfl
      exact hn ⟨fSecret, by change fSecret ∈ user.fields; simp [user], rfl, by decide, .inr ⟨rfl, rfl⟩⟩
    have h2 : n ≠ "tmp" := by
      rintro rfl
      exact hn ⟨fTmp, by change fTmp ∈ user.fields; simp [user], rfl, by decide, .inl rfl⟩
    simp [attrsOf, dictGet, Demo.world, List.find?_cons, Ne.symm h1, Ne.symm h2]
  · exact ⟨(Demo.world.heap j).attrs, by simp [world', h], fun _ _ => rfl⟩

/-- Two states that differ in a secret and in a temp value meet the hypotheses of C28. -/
example : (apiTojson Demo.env 4 2 false false none Demo.world).1 =
    (apiTojson Demo.env 4 2 false false none world').1 :=
  tojson_hides_partial namesOk looksAway _ _ sameButHidden 4 2 false none

/-- a text entry of a JSON result -/
def entry (k : String) (r : Except Exc Val) : Option String :=
  match r with
  | .ok (.dict kvs) => match dictGet kvs k with
    | some (.str s) => some s
    | some _ => some "?"
    | none => none
  | _ => none

/-- With `ignore_writeonly` the secret is output, so the two states do differ. -/
example : (apiTojson Demo.env 4 0 true false none Demo.world).1 ≠
    (apiTojson Demo.env 4 0 true false none world').1 := by
  intro h
  exact absurd (congrArg (entry "secret") h) (by decide)

/-! #### A union of object types gives away secrets -/

def fAccount : Field := { name := "item", jsonName := "item",
                          chain := [.union [[.instOf "Acc" none], [.leaf optStr]]] }
def fPin : Field := { name := "pin", jsonName := "pin", noRead := true, chain := [.leaf reqStr] }

def leakEnv : Env where
  cls := fun n => if n = "Box" then { name := "Box", fields := [fAccount] }
    else if n = "Acc" then { name := "Acc", fields := [fName, fPin] } else {}

/-- a box holding an account with the given pin -/
def leakWorld (pin : Val) : World where
  heap := fun i => match i with
    | 0 => { cls := "Box", isNew := true, attrs := attrsOf [("item", .obj 1)] }
    | 1 => { cls := "Acc", isNew := true, attrs := attrsOf [("name", .str "ann"), ("pin", pin)] }
    | _ => {}
  next := 2

/-- C28 fails for objects held by a union field: to choose an alternative `tojson` validates
the object, so the JSON shows whether the writeonly value is valid. -/
theorem union_shows_hidden_validity :
    SameButHidden leakEnv false (leakWorld (.str "s")).heap (leakWorld .none).heap ∧
    (apiTojson leakEnv 9 0 false false none (leakWorld (.str "s"))).1 =
      .ok (.dict [("item", .dict [("name", .str "ann")])]) ∧
    (apiTojson leakEnv 9 0 false false none (leakWorld .none)).1 = .ok (.dict []) := by
  refine ⟨?_, rfl, rfl⟩
  intro j
  match j with
  | 0 => exact ⟨_, rfl, fun _ _ => rfl⟩
  | 1 =>
    refine ⟨_, rfl, fun n hn => ?_⟩
    have h1 : n ≠ "pin" := by
      rintro rfl
      exact hn ⟨fPin, by change fPin ∈ [fName, fPin]; simp, rfl, by decide, .inr ⟨rfl, rfl⟩⟩
    simp [attrsOf, dictGet, leakWorld, List.find?_cons, Ne.symm h1]
  | j + 2 => exact ⟨_, rfl, fun _ _ => rfl⟩

/-! #### The id of a writeonly relation is output -/

def fHiddenAuthor : Field := { fAuthor with noRead := true }

def keyEnv : Env where
  cls := fun n => if n = "Post" then { name := "Post", fields := [fName, fHiddenAuthor] } else {}

/-- A local key relation marked writeonly: the object is left out, its id is not. -/
theorem writeonly_relation_shows_id :
    (apiTojson keyEnv 9 0 false false none { heap := fun _ =>
      { cls := "Post", attrs := attrsOf [("name", .str "p"), ("author_id", .str "u0")] } }).1 =
      .ok (.dict [("name", .str "p"), ("authorId", .str "u0")]) := by rfl

/-! #### Embedded cycles -/

def fNext : Field := { name := "next", jsonName := "next", ftype := .inst, isInst := true,
                       chain := [.instOf "Node" none] }

def nodeEnv : Env where
  cls := fun n => if n = "Node" then { name := "Node", fields := [fNext] } else {}

/-- a node that is its own successor -/
def nodeWorld : World where
  heap := fun _ => { cls := "Node", attrs := attrsOf [("next", .obj 0)] }
  next := 1

/-- C29 needs relation fields: with an embedded object field, an object that contains itself
is converted forever; no number of nested calls is enough. -/
theorem tojson_embedded_cycle_diverges (n : Nat) (ig rr : Bool) (on : Option Bool) :
    (apiTojson nodeEnv n 0 ig rr on nodeWorld).1 = .error .recursion := by
  have key : ∀ n cls st (c : Ctx) (w : World), w.heap = nodeWorld.heap → c.val = .obj 0 → c.owner = some 0 →
      ((instOps nodeEnv n cls st).tojson c w).1 = .error .recursion := by
    intro n
    induction n with
    | zero => intro cls st c w _ _ _; rfl
    | succ n ih =>
      intro cls st c w hw hv ho
      have hcd : w.cdef nodeEnv 0 = { name := "Node", fields := [fNext] } := by
        simp [World.cdef, hw, nodeWorld, nodeEnv]
      have hget : w.getattr nodeEnv 0 fNext.name = .ok (.obj 0) := by
        simp [World.getattr, hcd, ClassDef.field?, fNext, World.attr, hw, nodeWorld, attrsOf, dictGet]
      have hlk : (fNext.store = .localKey && notPicked (w.heap 0) fNext) = false := rfl
      have hsk : ∀ nk, skipJson nodeEnv c (w.heap 0) nk fNext = false := by
        intro nk; rw [hw]; rfl
      have hek : c.ekey nodeEnv w fNext.name = .ok (({ name := "Node", fields := [fNext] } : ClassDef).outKey fNext.name) := by
        simp [Ctx.ekey, ho, hcd]
      simp only [instOps, instTojson, hv, Py.bind_run, Py.get, hcd, jsonFields, hget, hlk, hsk, hek]
      have hrec : ∀ (c' : Ctx), c'.val = .obj 0 → c'.owner = some 0 →
          ((Field.ops nodeEnv (instOps nodeEnv n) fNext).tojson c' w).1 = .error .recursion := by
        intro c' hv' ho'
        have := ih "Node" none (c'.nval c'.val) w hw hv' ho'
        simp only [Field.ops, chainOps, chainTojson, fNext, denL, Mod.den, reduceM, Py.bind_run]
        generalize (instOps nodeEnv n "Node" none).tojson (c'.nval c'.val) w = out at this ⊢
        obtain ⟨r, w'⟩ := out
        simp only at this
        subst this
        rfl
      have hh := hrec (if fNext.ftype = .inst then
          c.nextoc (.obj 0) fNext.name (({ name := "Node", fields := [fNext] } : ClassDef).outKey fNext.name)
            ((w.heap 0).cls, fNext.name) "Node"
        else c.nextvc (.obj 0) fNext.name (({ name := "Node", fields := [fNext] } : ClassDef).outKey fNext.name)
            ((w.heap 0).cls, fNext.name) "Node") rfl rfl
      simp only [Bool.false_eq_true, if_false]
      generalize (Field.ops nodeEnv (instOps nodeEnv n) fNext).tojson _ w = out at hh ⊢
      obtain ⟨r, w'⟩ := out
      simp only at hh
      subst hh
      rfl
  exact key n _ _ _ _ rfl rfl rfl

end JC.JsonDemo
