import Verif.Props.RoundTrip

/-
The options of `tojson` only add entries (C93).
-/
namespace JC
variable {env : Env}

/-! ### Specification -/

mutual
/-- The JSON value `b` is `a` with further entries in its dicts, each of them `ok`. -/
inductive More (ok : String → Val → Prop) : Val → Val → Prop
  | same (v : Val) : More ok v v
  | list {xs ys : List Val} : MoreItems ok xs ys → More ok (.list xs) (.list ys)
  | dict {K K' : List (String × Val)} : MoreEntries ok K K' → More ok (.dict K) (.dict K')
/-- item by item -/
inductive MoreItems (ok : String → Val → Prop) : List Val → List Val → Prop
  | nil : MoreItems ok [] []
  | cons {x y : Val} {xs ys : List Val} : More ok x y → MoreItems ok xs ys → MoreItems ok (x :: xs) (y :: ys)
/-- the same entries in the same order, with further ones in between -/
inductive MoreEntries (ok : String → Val → Prop) : List (String × Val) → List (String × Val) → Prop
  | nil : MoreEntries ok [] []
  | keep {k : String} {x y : Val} {K K' : List (String × Val)} : More ok x y → MoreEntries ok K K' → MoreEntries ok ((k, x) :: K) ((k, y) :: K')
  | add {k : String} {y : Val} {K K' : List (String × Val)} : ok k y → MoreEntries ok K K' → MoreEntries ok K ((k, y) :: K')
end

/-- What the options may add: nulls; writeonly fields; relations with an opposite field. -/
def Addition (env : Env) (nulls hidden back : Prop) (k : String) (v : Val) : Prop :=
  (nulls ∧ v = .none) ∨ ∃ cls, ∃ f ∈ (env.cls cls).fields, k = f.jsonName ∧
    ((hidden ∧ f.noRead = true) ∨ (back ∧ f.isRef = true ∧ (env.foreignField f).isSome = true))

/-- output does not look at the options -/
def Leaf.OptionBlind (l : Leaf) : Prop := ∀ h c g, l.tojson h { c with cfg := g } = l.tojson h c

/-- nothing to do on output -/
def PlainOut : Mod → Prop
  | .eager => True
  | .pre => True
  | .leaf l => ∀ h c, l.tojson h c = .ok c.val
  | _ => False

/-- a pipeline with one type modifier: a scalar, an object, or a list or dict of such -/
inductive OneType : List Mod → Prop
  | leaf {pre post : List Mod} {l : Leaf} : (∀ m ∈ pre, PlainOut m) → (∀ m ∈ post, PlainOut m) → l.OptionBlind → OneType (pre ++ .leaf l :: post)
  | inst {pre post : List Mod} {cls : String} {st : Option Bool} : (∀ m ∈ pre, PlainOut m) → (∀ m ∈ post, PlainOut m) → OneType (pre ++ .instOf cls st :: post)
  | list {pre post item : List Mod} {nn : Bool} {sp : Special} : (∀ m ∈ pre, PlainOut m) → (∀ m ∈ post, PlainOut m) → OneType item →
      OneType (pre ++ .listOf nn sp item :: post)
  | dict {pre post item : List Mod} {nn : Bool} : (∀ m ∈ pre, PlainOut m) → (∀ m ∈ post, PlainOut m) → OneType item → OneType (pre ++ .dictOf nn item :: post)

/-- all classes have distinct JSON names and pipelines of one type -/
structure OutClasses (env : Env) : Prop where
  jnames : ∀ cls, ((env.cls cls).fields.flatMap jsonNames).Nodup
  chains : ∀ cls, ∀ f ∈ (env.cls cls).fields, OneType f.chain

/-! ### Proof -/

/-- the second configuration shows at least what the first one shows -/
structure Wider (env : Env) (g g' : Cfg) : Prop where
  null : ∀ cls, g.outputNull.getD (env.cls cls).outputNull = true → g'.outputNull.getD (env.cls cls).outputNull = true
  hidden : g.ignoreWriteonly = true → g'.ignoreWriteonly = true
  back : g.reverseRel = true → g'.reverseRel = true

/-- what such a change may add -/
def Adds (env : Env) (g g' : Cfg) : String → Val → Prop :=
  Addition env (g.outputNull ≠ g'.outputNull) (g.ignoreWriteonly ≠ g'.ignoreWriteonly) (g.reverseRel ≠ g'.reverseRel)

/-- if both succeed in states with these objects, the results are related and the objects unchanged -/
def Both {α : Type} (h : Heap) (R : α → α → Prop) (m m' : Py World α) : Prop :=
  ∀ w w' a a' u u', w.heap = h → w'.heap = h → m w = (.ok a, u) → m' w' = (.ok a', u') → R a a' ∧ u.heap = h ∧ u'.heap = h

theorem Both.pure {α : Type} {h : Heap} {R : α → α → Prop} {a a' : α} (hr : R a a') : Both h R (pure a) (pure a') := by
  intro w w' b b' u u' hw hw' e e'
  cases e; cases e'
  exact ⟨hr, hw, hw'⟩

theorem Both.raise {α : Type} {h : Heap} {R : α → α → Prop} {e : Exc} {m : Py World α} : Both h R (Py.raise e) m := by
  intro w w' b b' u u' hw hw' e e'
  cases e

theorem Both.bind {α β : Type} {h : Heap} {R : α → α → Prop} {S : β → β → Prop} {m m' : Py World α} {f f' : α → Py World β}
    (hm : Both h R m m') (hf : ∀ a a', R a a' → Both h S (f a) (f' a')) : Both h S (m >>= f) (m' >>= f') := by
  intro w w' b b' u u' hw hw' e e'
  rw [Py.bind_run] at e e'
  rcases h1 : m w with ⟨x | a, w1⟩ <;> rw [h1] at e
  · cases e
  rcases h2 : m' w' with ⟨x | a', w2⟩ <;> rw [h2] at e'
  · cases e'
  obtain ⟨hr, h3, h4⟩ := hm w w' a a' w1 w2 hw hw' h1 h2
  exact hf a a' hr w1 w2 b b' u u' h3 h4 e e'

theorem plain_out {vis : Visitor} {c : Ctx} {w : World} {ms : List Mod} (h : ∀ m ∈ ms, PlainOut m) (x : Val) :
    reduceM (fun m v => m.tojson (c.nval v)) (denL env vis ms) x w = (.ok x, w) := by
  induction ms with
  | nil => rfl
  | cons m ms ih =>
    have hm := h m (by simp)
    have ih := ih (fun m hm => h m (by simp [hm]))
    cases m with
    | leaf l =>
      rw [denL, reduceM, Py.bind_run]
      simp only [Mod.den, leafOps, readW, hm w.heap (c.nval x)]
      exact ih
    | eager => rw [denL, reduceM, Py.bind_run]; exact ih
    | pre => rw [denL, reduceM, Py.bind_run]; exact ih
    | _ => exact absurd hm (by simp [PlainOut])

/-- only the type modifier matters -/
theorem chain_one {vis : Visitor} {pre post : List Mod} {core : Mod} {c : Ctx} (h1 : ∀ m ∈ pre, PlainOut m) (h2 : ∀ m ∈ post, PlainOut m) :
    chainTojson (denL env vis (pre ++ core :: post)) c = (Mod.den env vis core).tojson c := by
  funext w
  unfold chainTojson
  rw [denL_append, reduceM_append, plain_out h1]
  simp only []
  rw [denL, reduceM, Py.bind_run]
  have e : c.nval c.val = c := rfl
  rw [e]
  rcases (Mod.den env vis core).tojson c w with ⟨x | a, w1⟩
  · rfl
  · exact plain_out h2 a

theorem colMap_both {h : Heap} {ok : String → Val → Prop} {ce ce' : ColEnv World} {f f' : Ctx → Py World Val} {c c' : Ctx}
    (hc : Both h (fun _ _ => True) (ce.ownerConf c) (ce'.ownerConf c')) (hf : ∀ v k, Both h (More ok) (f (c.colval v k)) (f' (c'.colval v k)))
    (es : List (Key × Val)) :
    Both h (fun r r' => r.map Prod.fst = r'.map Prod.fst ∧ MoreItems ok (r.map Prod.snd) (r'.map Prod.snd)) (colMapLoop ce false f c es) (colMapLoop ce' false f' c' es) := by
  induction es with
  | nil => exact Both.pure ⟨rfl, .nil⟩
  | cons e es ih =>
    obtain ⟨k, v⟩ := e
    simp only [colMapLoop, Bool.false_eq_true, if_false]
    refine Both.bind (hf v k) (fun a a' ha => Both.bind hc (fun _ _ _ => Both.bind ih (fun xs xs' hx => Both.pure ?_)))
    exact ⟨by simp [hx.1], .cons ha hx.2⟩

theorem moreEntries_set {ok : String → Val → Prop} {k : String} {x y : Val} (hxy : More ok x y) :
    ∀ {K K' : List (String × Val)}, K.map Prod.fst = K'.map Prod.fst → MoreItems ok (K.map Prod.snd) (K'.map Prod.snd) →
      (dictSet k x K).map Prod.fst = (dictSet k y K').map Prod.fst ∧ MoreItems ok ((dictSet k x K).map Prod.snd) ((dictSet k y K').map Prod.snd) := by
  intro K
  induction K with
  | nil =>
    intro K' h1 h2
    cases K' with
    | nil => exact ⟨rfl, .cons hxy .nil⟩
    | cons e K' => cases h1
  | cons e K ih =>
    intro K' h1 h2
    cases K' with
    | nil => cases h1
    | cons e' K' =>
      obtain ⟨a, b⟩ := e
      obtain ⟨a', b'⟩ := e'
      simp only [List.map_cons, List.cons.injEq] at h1
      obtain ⟨rfl, h1⟩ := h1
      cases h2 with
      | cons hb hr =>
        simp only [dictSet]
        split
        · exact ⟨by simp [h1], .cons hxy hr⟩
        · obtain ⟨i1, i2⟩ := ih h1 hr
          exact ⟨by simp [i1], .cons hb i2⟩

theorem moreEntries_of {ok : String → Val → Prop} : ∀ {K K' : List (String × Val)}, K.map Prod.fst = K'.map Prod.fst →
    MoreItems ok (K.map Prod.snd) (K'.map Prod.snd) → MoreEntries ok K K' := by
  intro K
  induction K with
  | nil =>
    intro K' h1 _
    cases K' with
    | nil => exact .nil
    | cons e K' => cases h1
  | cons e K ih =>
    intro K' h1 h2
    cases K' with
    | nil => cases h1
    | cons e' K' =>
      obtain ⟨a, b⟩ := e
      obtain ⟨a', b'⟩ := e'
      simp only [List.map_cons, List.cons.injEq] at h1
      obtain ⟨rfl, h1⟩ := h1
      cases h2 with
      | cons hb hr => exact .keep hb (ih h1 hr)

theorem toDictVal_more {ok : String → Val → Prop} {r r' : List (Key × Val)} (h1 : r.map Prod.fst = r'.map Prod.fst)
    (h2 : MoreItems ok (r.map Prod.snd) (r'.map Prod.snd)) : More ok (toDictVal r) (toDictVal r') := by
  unfold toDictVal
  refine .dict ?_
  have key : ∀ (r r' : List (Key × Val)) (K K' : List (String × Val)), r.map Prod.fst = r'.map Prod.fst → MoreItems ok (r.map Prod.snd) (r'.map Prod.snd) →
      K.map Prod.fst = K'.map Prod.fst → MoreItems ok (K.map Prod.snd) (K'.map Prod.snd) →
      MoreEntries ok (r.foldl (fun d kv => dictSet kv.1.str kv.2 d) K) (r'.foldl (fun d kv => dictSet kv.1.str kv.2 d) K') := by
    intro r
    induction r with
    | nil =>
      intro r' K K' h1 _ h3 h4
      cases r' with
      | nil => exact moreEntries_of h3 h4
      | cons e r' => cases h1
    | cons e r ih =>
      intro r' K K' h1 h2 h3 h4
      cases r' with
      | nil => cases h1
      | cons e' r' =>
        obtain ⟨a, b⟩ := e
        obtain ⟨a', b'⟩ := e'
        simp only [List.map_cons, List.cons.injEq] at h1
        obtain ⟨rfl, h1⟩ := h1
        cases h2 with
        | cons hb hr =>
          obtain ⟨i1, i2⟩ := moreEntries_set (k := a.str) hb h3 h4
          rw [List.foldl_cons, List.foldl_cons]
          exact ih _ _ _ h1 hr i1 i2
  exact key r r' [] [] h1 h2 rfl .nil

/-- the two contexts differ in the options only -/
def OptCtx (g g' : Cfg) (c c' : Ctx) : Prop := c.cfg = g ∧ c' = { c with cfg := g' }

theorem ownerConf_both {h : Heap} {sp : Special} {c c' : Ctx} : Both h (fun _ _ => True) ((colEnv env sp).ownerConf c) ((colEnv env sp).ownerConf c') := by
  intro w w' a a' u u' hw hw' e e'
  simp only [colEnv] at e e'
  refine ⟨trivial, ?_, ?_⟩
  · cases ho : c.owner with
    | none => rw [ho] at e; cases e
    | some o => rw [ho] at e; cases e; exact hw
  · cases ho : c'.owner with
    | none => rw [ho] at e'; cases e'
    | some o => rw [ho] at e'; cases e'; exact hw'

theorem oneType_both {h : Heap} {g g' : Cfg} {vis vis' : Visitor} {ok : String → Val → Prop}
    (hvis : ∀ cls st c c', OptCtx g g' c c' → Both h (More ok) ((vis cls st).tojson c) ((vis' cls st).tojson c')) {ch : List Mod} (hch : OneType ch) :
    ∀ c c', OptCtx g g' c c' → Both h (More ok) (chainTojson (denL env vis ch) c) (chainTojson (denL env vis' ch) c') := by
  induction hch with
  | leaf h1 h2 hl =>
    intro c c' hcc
    rw [chain_one h1 h2, chain_one h1 h2]
    intro w w' a a' u u' hw hw' e e'
    simp only [Mod.den, leafOps, readW, Prod.mk.injEq] at e e'
    rw [hw] at e
    rw [hw', hcc.2, hl] at e'
    rw [e.1] at e'
    cases e'.1
    exact ⟨.same _, by rw [← e.2]; exact hw, by rw [← e'.2]; exact hw'⟩
  | inst h1 h2 =>
    intro c c' hcc
    rw [chain_one h1 h2, chain_one h1 h2]
    exact hvis _ _ c c' hcc
  | list h1 h2 _ ih =>
    intro c c' hcc
    rw [chain_one h1 h2, chain_one h1 h2]
    have hv : c'.val = c.val := by rw [hcc.2]
    simp only [Mod.den, listOps]
    rw [hv]
    split
    · exact Both.pure (.same _)
    · refine Both.bind (colMap_both (ok := ok) ownerConf_both (fun v k => ih _ _ ?_) _) (fun r r' hr => Both.pure (.list hr.2))
      exact ⟨hcc.1, by rw [hcc.2]; rfl⟩
    · exact Both.pure (.same _)
  | dict h1 h2 _ ih =>
    intro c c' hcc
    rw [chain_one h1 h2, chain_one h1 h2]
    have hv : c'.val = c.val := by rw [hcc.2]
    simp only [Mod.den, dictOps]
    rw [hv]
    split
    · exact Both.pure (.same _)
    · refine Both.bind (colMap_both (ok := ok) ownerConf_both (fun v k => ih _ _ ?_) _) (fun r r' hr => Both.pure (toDictVal_more hr.1 hr.2))
      exact ⟨hcc.1, by rw [hcc.2]; rfl⟩
    · exact Both.pure (.same _)

theorem more_none {ok : String → Val → Prop} {v : Val} (h : More ok .none v) : v = .none := by cases h; rfl
theorem more_none' {ok : String → Val → Prop} {v : Val} (h : More ok v .none) : v = .none := by cases h; rfl

theorem more_isNone {ok : String → Val → Prop} {a b : Val} (h : More ok a b) : a.isNone = b.isNone := by
  cases h <;> rfl

theorem MoreEntries.append {ok : String → Val → Prop} {a a' b b' : List (String × Val)} (h1 : MoreEntries ok a a') (h2 : MoreEntries ok b b') :
    MoreEntries ok (a ++ b) (a' ++ b') := by
  induction a' generalizing a with
  | nil => cases h1; exact h2
  | cons e a' ih =>
    cases h1 with
    | keep hx hr => exact .keep hx (ih hr)
    | add hx hr => exact .add hx (ih hr)

/-- what a field adds to the two outputs -/
theorem entry_more {n n' : Nat} {h : Heap} {g g' : Cfg} {c c' : Ctx} {w w' : World} {i : Nat} {f : Field} {p p' : List (String × Val)} (hcc : OptCtx g g' c c')
    (hg : Wider env g g') (hw : w.heap = h) (hw' : w'.heap = h) (hf : f ∈ (w.cdef env i).fields)
    (hops : ∀ c c', OptCtx g g' c c' → Both h (More (Adds env g g')) ((f.ops env (instOps env n)).tojson c) ((f.ops env (instOps env n')).tojson c'))
    (h1 : EntryFor env n c w i (g.outputNull.getD (w.cdef env i).outputNull) f p)
    (h2 : EntryFor env n' c' w' i (g'.outputNull.getD (w.cdef env i).outputNull) f p') : MoreEntries (Adds env g g') p p' := by
  have hh : w'.heap = w.heap := by rw [hw, hw']
  have hcd : w'.cdef env i = w.cdef env i := by simp only [World.cdef, hh]
  have hnl := hg.null (w.heap i).cls
  change (g.outputNull.getD (w.cdef env i).outputNull = true → g'.outputNull.getD (w.cdef env i).outputNull = true) at hnl
  generalize hon : g.outputNull.getD (w.cdef env i).outputNull = on at h1 hnl
  generalize hon' : g'.outputNull.getD (w.cdef env i).outputNull = on' at h2 hnl
  have hne : on ≠ on' → g.outputNull ≠ g'.outputNull := by
    rintro h4 h5
    rw [h5, hon'] at hon
    exact h4 hon.symm
  unfold EntryFor at h1 h2
  rw [hcd, hh] at h2
  -- what the one shows, the other shows
  have hvis : Visible env c (w.heap i) (w.cdef env i).name f → Visible env c' (w.heap i) (w.cdef env i).name f := by
    rintro ⟨a, b, d, e⟩
    refine ⟨a, b, ?_, ?_⟩
    · intro hn
      rw [hcc.2]
      exact hg.hidden (by rw [← hcc.1]; exact d hn)
    · intro hr
      obtain ⟨e1, e2⟩ := e hr
      refine ⟨?_, by rw [hcc.2]; exact e2⟩
      rintro ⟨l1, l2⟩
      refine e1 ⟨?_, by rw [hcc.2] at l2; exact l2⟩
      rw [hcc.2] at l1
      cases h5 : c.cfg.reverseRel with
      | false => rfl
      | true => rw [hcc.1] at h5; rw [hg.back h5] at l1; cases l1
  have hkey : MoreEntries (Adds env g g') (keyPart on (w.heap i) f) (keyPart on' (w.heap i) f) := by
    unfold keyPart
    by_cases hs : f.store = .localKey ∧ picked (w.heap i) f = true
    · cases hn : ((w.heap i).attrs f.refName).isNone
      · simp only [hs, true_and, or_true, if_true]
        exact .keep (.same _) .nil
      · simp only [hs, true_and, Bool.true_eq_false, or_false]
        cases on <;> cases on'
        · exact .nil
        · exact .add (.inl ⟨hne (by simp), (Val.isNone_iff _).1 hn⟩) .nil
        · exact absurd (hnl rfl) (by simp)
        · exact .keep (.same _) .nil
    · have : ∀ P : Prop, ¬ (f.store = .localKey ∧ picked (w.heap i) f = true ∧ P) := fun P h5 => hs ⟨h5.1, h5.2.1⟩
      rw [if_neg (this _), if_neg (this _)]
      exact .nil
  rcases h1 with ⟨v1, rfl⟩ | ⟨v1, r, ⟨v, ek, u, a1, a2, a3, a4⟩, rfl⟩ <;> rcases h2 with ⟨v2, rfl⟩ | ⟨v2, r', ⟨v', ek', u', b1, b2, b3, b4⟩, rfl⟩
  · exact hkey
  · -- shown in the second output only
    have : Adds env g g' f.jsonName r' := by
      refine .inr ⟨(w.heap i).cls, f, hf, rfl, ?_⟩
      obtain ⟨a, b, d, e⟩ := v2
      by_cases hn : f.noRead = true ∧ c.cfg.ignoreWriteonly = false
      · refine .inl ⟨?_, hn.1⟩
        have := d hn.1
        rw [hcc.2] at this
        rw [← hcc.1, hn.2, this]
        simp
      · have hb : ¬ (f.isRef = true → ¬ LeadsBack env c f ∧ (w.cdef env i).name ∉ c.idchain) := by
          intro h5
          refine v1 ⟨a, b, ?_, h5⟩
          intro h6
          cases h7 : c.cfg.ignoreWriteonly with
          | true => rfl
          | false => exact absurd ⟨h6, h7⟩ hn
        have hr : f.isRef = true := by
          by_contra h5
          exact hb (fun h6 => absurd h6 h5)
        have hl : LeadsBack env c f := by
          by_contra h5
          refine hb (fun _ => ⟨h5, ?_⟩)
          have := (e hr).2
          rw [hcc.2] at this
          exact this
        obtain ⟨l1, og, l2, l3⟩ := hl
        refine .inr ⟨?_, hr, by rw [l2]; rfl⟩
        have hnl2 := (e hr).1
        intro h5
        apply hnl2
        rw [hcc.2]
        refine ⟨?_, og, l2, l3⟩
        change g'.reverseRel = false
        rw [← h5, ← hcc.1]
        exact l1
    rw [← List.append_nil (keyPart on (w.heap i) f)]
    refine hkey.append ?_
    unfold valPart
    split
    · exact .add this .nil
    · exact .nil
  · exact absurd (hvis v1) v2
  · refine hkey.append ?_
    rw [show w'.getattr env i f.name = w.getattr env i f.name from getattr_congr hh i f.name, a1] at b1
    cases b1
    have hek : c'.ekey env w' f.name = c.ekey env w f.name := by
      rw [hcc.2]
      simp only [Ctx.ekey, World.cdef, hh]
    rw [hek, a2] at b2
    cases b2
    have hctx : OptCtx g g' (jsonCtx c f v ek (w.heap i).cls (w.cdef env i).name) (jsonCtx c' f v ek (w.heap i).cls (w.cdef env i).name) := by
      rw [hcc.2]
      unfold jsonCtx
      split
      · exact ⟨hcc.1, rfl⟩
      · exact ⟨hcc.1, rfl⟩
    have hm : More (Adds env g g') r r' := by
      rcases hx : (f.ops env (instOps env n)).tojson (jsonCtx c f v ek (w.heap i).cls (w.cdef env i).name) u with ⟨x, u1⟩
      rcases hy : (f.ops env (instOps env n')).tojson (jsonCtx c' f v ek (w.heap i).cls (w.cdef env i).name) u' with ⟨y, u2⟩
      rw [hx] at a4
      rw [hcd, hh, hy] at b4
      simp only at a4 b4
      subst a4
      subst b4
      exact (hops _ _ hctx u u' r r' u1 u2 (by rw [a3.1]; exact hw) (by rw [b3.1]; exact hw') hx hy).1
    have hni := more_isNone hm
    unfold valPart
    rw [← hni]
    cases hn : r.isNone
    · simp only [or_true, if_true]
      exact .keep hm .nil
    · have hrn := (Val.isNone_iff _).1 hn
      subst hrn
      have := more_none hm
      subst this
      simp only [Bool.true_eq_false, or_false]
      cases on <;> cases on'
      · exact .nil
      · exact .add (.inl ⟨hne (by simp), rfl⟩) .nil
      · exact absurd (hnl rfl) (by simp)
      · exact .keep (.same _) .nil

theorem parts_more {ok : String → Val → Prop} {fs : List Field} {R R' : Field → List (String × Val) → Prop} (hr : ∀ f ∈ fs, ∀ p p', R f p → R' f p' → MoreEntries ok p p') :
    ∀ {ps ps' : List (List (String × Val))}, List.Forall₂ R fs ps → List.Forall₂ R' fs ps' → MoreEntries ok ps.flatten ps'.flatten := by
  induction fs with
  | nil => intro ps ps' h1 h2; cases h1; cases h2; exact .nil
  | cons f fs ih =>
    intro ps ps' h1 h2
    cases h1 with
    | cons a b =>
      cases h2 with
      | cons a' b' =>
        rw [List.flatten_cons, List.flatten_cons]
        exact (hr f (by simp) _ _ a a').append (ih (fun g hg => hr g (by simp [hg])) b b')

theorem vis_both {g g' : Cfg} (hcl : OutClasses env) (hg : Wider env g g') (h : Heap) (n : Nat) : ∀ n' cls st c c', OptCtx g g' c c' →
    Both h (More (Adds env g g')) ((instOps env n cls st).tojson c) ((instOps env n' cls st).tojson c') := by
  induction n with
  | zero => intro n' cls st c c' _; exact Both.raise
  | succ n ih =>
    intro n' cls st c c' hcc
    cases n' with
    | zero =>
      intro w w' a a' u u' _ _ _ e'
      cases e'
    | succ n' =>
      intro w w' a a' u u' hw hw' e e'
      have hv : c'.val = c.val := by rw [hcc.2]
      have hsd : u.heap = h := by
        have := (tojson_once_sim (env := env) w (n + 1) cls st c _ _ ⟨rfl, SameData.refl w, [], by simp⟩).2.2
        rw [e] at this
        obtain ⟨_, hd, _⟩ := this
        rw [hd.1, hw]
      have hsd' : u'.heap = h := by
        have := (tojson_once_sim (env := env) w' (n' + 1) cls st c' _ _ ⟨rfl, SameData.refl w', [], by simp⟩).2.2
        rw [e'] at this
        obtain ⟨_, hd, _⟩ := this
        rw [hd.1, hw']
      refine ⟨?_, hsd, hsd'⟩
      cases hcv : c.val with
      | none =>
        simp only [instOps, instTojson, hcv] at e
        simp only [instOps, instTojson, hv, hcv] at e'
        cases e; cases e'
        exact .same _
      | obj i =>
        obtain ⟨ps, hp, rfl⟩ := instance_entries n c i hcv w cls st a (by rw [e])
        obtain ⟨ps', hp', rfl⟩ := instance_entries n' c' i (by rw [hv, hcv]) w' cls st a' (by rw [e'])
        have hcd : w'.cdef env i = w.cdef env i := by simp only [World.cdef, hw, hw']
        have n1 := (parts_names hp).nodup (hcl.jnames (w.heap i).cls)
        have n2 := (parts_names hp').nodup (hcl.jnames (w'.heap i).cls)
        rw [foldl_dictSet_nodup' _ _ (by simpa using n1), foldl_dictSet_nodup' _ _ (by simpa using n2)]
        simp only [List.nil_append]
        rw [hcd] at hp'
        refine .dict (parts_more (fun f hf p p' h1 h2 => ?_) hp hp')
        rw [hcc.1] at h1
        have hg' : c'.cfg = g' := by rw [hcc.2]
        rw [hg'] at h2
        exact entry_more hcc hg hw hw' hf (oneType_both (fun cls st c c' h => ih n' cls st c c' h) (hcl.chains _ f hf)) h1 h2
      | _ => simp only [instOps, instTojson, hcv] at e; cases e

/-- **C93**: a call of `tojson` with wider options gives the same entries in the same order,
at every depth, and further ones: nulls if the output of nulls differs, writeonly fields if
their treatment differs, relations with an opposite field if the treatment of reverse
relations differs. -/
theorem options_only_add {n n' i : Nat} {w w₁ w₂ : World} {ig ig' rr rr' : Bool} {on on' : Option Bool} {J J' : Val} (hcl : OutClasses env)
    (h1 : apiTojson env n i ig rr on w = (.ok J, w₁)) (h2 : apiTojson env n' i ig' rr' on' w = (.ok J', w₂))
    (hig : ig = true → ig' = true) (hrr : rr = true → rr' = true)
    (hon : ∀ cls, on.getD (env.cls cls).outputNull = true → on'.getD (env.cls cls).outputNull = true) :
    More (Addition env (on ≠ on') (ig ≠ ig') (rr ≠ rr')) J J' := by
  let g : Cfg := { ignoreWriteonly := ig, reverseRel := rr, outputNull := on }
  let g' : Cfg := { ignoreWriteonly := ig', reverseRel := rr', outputNull := on' }
  have hb := vis_both (g := g) (g' := g') hcl ⟨hon, hig, hrr⟩ w.heap n n' (w.heap i).cls none (rootCtx w i g (.obj i)) (rootCtx w i g' (.obj i)) ⟨rfl, rfl⟩
  unfold apiTojson withFreshMarks at h1 h2
  rcases hx : (instOps env n (w.heap i).cls none).tojson (rootCtx w i g (.obj i)) { w with marks := [] } with ⟨x, u1⟩
  rcases hy : (instOps env n' (w.heap i).cls none).tojson (rootCtx w i g' (.obj i)) { w with marks := [] } with ⟨y, u2⟩
  simp only [g] at hx
  simp only [g'] at hy
  rw [hx] at h1
  rw [hy] at h2
  simp only [Prod.mk.injEq] at h1 h2
  obtain ⟨rfl, _⟩ := h1
  obtain ⟨rfl, _⟩ := h2
  exact (hb { w with marks := [] } { w with marks := [] } J J' u1 u2 rfl rfl hx hy).1

/-- **C93**: with nulls, the output has further nulls and nothing else. -/
theorem nulls_only {n n' i : Nat} {w w₁ w₂ : World} {ig rr : Bool} {J J' : Val} (hcl : OutClasses env)
    (h1 : apiTojson env n i ig rr (some false) w = (.ok J, w₁)) (h2 : apiTojson env n' i ig rr (some true) w = (.ok J', w₂)) :
    More (fun _ v => v = .none) J J' := by
  have := options_only_add hcl h1 h2 (fun h => h) (fun h => h) (by simp)
  have e : Addition env ((some false : Option Bool) ≠ some true) (ig ≠ ig) (rr ≠ rr) = fun _ v => v = .none := by
    funext k v
    simp [Addition]
  rw [e] at this
  exact this

mutual
theorem more_exact : ∀ {a b : Val}, More (fun _ _ => False) a b → a = b
  | _, _, .same _ => rfl
  | _, _, .list h => by rw [moreItems_exact h]
  | _, _, .dict h => by rw [moreEntries_exact h]
theorem moreItems_exact : ∀ {a b : List Val}, MoreItems (fun _ _ => False) a b → a = b
  | _, _, .nil => rfl
  | _, _, .cons h h' => by rw [more_exact h, moreItems_exact h']
theorem moreEntries_exact : ∀ {a b : List (String × Val)}, MoreEntries (fun _ _ => False) a b → a = b
  | _, _, .nil => rfl
  | _, _, .keep h h' => by rw [more_exact h, moreEntries_exact h']
  | _, _, .add h _ => h.elim
end

/-- **C93**: the same options give the same output, at any recursion limits that suffice, and
without relations that lead back the treatment of reverse relations makes no difference. -/
theorem same_output {n n' i : Nat} {w w₁ w₂ : World} {ig rr rr' : Bool} {on : Option Bool} {J J' : Val} (hcl : OutClasses env)
    (hrr : rr = rr' ∨ ∀ cls, ∀ f ∈ (env.cls cls).fields, f.isRef = true → env.foreignField f = none)
    (h1 : apiTojson env n i ig rr on w = (.ok J, w₁)) (h2 : apiTojson env n' i ig rr' on w = (.ok J', w₂)) : J = J' := by
  have key : ∀ {rr rr' n n' w₁ w₂ J J'}, (rr = true → rr' = true) → (rr = rr' ∨ ∀ cls, ∀ f ∈ (env.cls cls).fields, f.isRef = true → env.foreignField f = none) →
      apiTojson env n i ig rr on w = (.ok J, w₁) → apiTojson env n' i ig rr' on w = (.ok J', w₂) → J = J' := by
    intro rr rr' n n' w₁ w₂ J J' hr hrr h1 h2
    have := options_only_add hcl h1 h2 (fun h => h) hr (fun _ h => h)
    have e : Addition env (on ≠ on) (ig ≠ ig) (rr ≠ rr') = fun _ _ => False := by
      funext k v
      apply propext
      refine ⟨?_, False.elim⟩
      rintro (⟨h, _⟩ | ⟨cls, f, hf, _, ⟨h, _⟩ | ⟨h, h', h''⟩⟩)
      · exact h rfl
      · exact h rfl
      · rcases hrr with hrr | hrr
        · exact h hrr
        · rw [hrr cls f hf h'] at h''; cases h''
    rw [e] at this
    exact more_exact this
  cases rr with
  | false => exact key (by simp) hrr h1 h2
  | true =>
    cases rr' with
    | true => exact key (by simp) hrr h1 h2
    | false => exact (key (by simp) (hrr.imp Eq.symm id) h2 h1).symm

end JC

/-! ### A concrete graph and an exception -/

namespace JC.JsonOptionsDemo
open JC
open JC.Demo (attrsOf)

def fName : Field := { name := "name", jsonName := "name", chain := [.leaf strMod] }
def fNick : Field := { name := "nick_name", jsonName := "nickName", chain := [.leaf strMod] }
def fPin : Field := { name := "pin", jsonName := "pin", noRead := true, chain := [.leaf strMod] }
def fBooks : Field := { name := "books", jsonName := "books", store := .foreignKey, ftype := .list, foreign := some ("Book", "author"),
                        chain := [.listOf false .no [.instOf "Book" none]] }
def fAuthor : Field := { name := "author", jsonName := "author", store := .localKey, ftype := .inst, isInst := true, refName := "author_id", jrefName := "authorId",
                         foreign := some ("Author", "books"), chain := [.instOf "Author" none] }
def author : ClassDef := { name := "Author", primary := some "name", fields := [fName, fNick, fPin, fBooks] }
def book : ClassDef := { name := "Book", primary := some "name", fields := [fName, fAuthor] }

def env : Env where
  cls := fun n => if n = "Author" then author else if n = "Book" then book else {}
  pystr := fun v => match v with
    | .str s => s
    | _ => ""

/-- an author and a book, linked -/
def world : World where
  heap := fun i => match i with
    | 0 => { cls := "Author", attrs := attrsOf [("name", .str "a"), ("pin", .str "1"), ("books", .list [.obj 1])] }
    | 1 => { cls := "Book", attrs := attrsOf [("name", .str "b"), ("author", .obj 0), ("author_id", .str "a")] }
    | _ => {}
  next := 2

theorem classes_out : OutClasses env where
  jnames := by
    intro cls
    unfold env
    by_cases h1 : cls = "Author"
    · simp only [h1, if_true]; decide
    · by_cases h2 : cls = "Book"
      · simp only [h2, String.reduceEq, if_false, if_true]; decide
      · simp only [h1, h2, if_false]; simp
  chains := by
    have hs : OneType [.leaf strMod] := .leaf (pre := []) (post := []) (by simp) (by simp) (fun _ _ _ => rfl)
    intro cls
    unfold env
    by_cases h1 : cls = "Author"
    · simp only [h1, if_true, author, List.mem_cons, List.not_mem_nil, or_false, forall_eq_or_imp, forall_eq]
      exact ⟨hs, hs, hs, .list (pre := []) (post := []) (by simp) (by simp) (.inst (pre := []) (post := []) (by simp) (by simp))⟩
    · by_cases h2 : cls = "Book"
      · simp only [h2, String.reduceEq, if_false, if_true, book, List.mem_cons, List.not_mem_nil, or_false, forall_eq_or_imp, forall_eq]
        exact ⟨hs, .inst (pre := []) (post := []) (by simp) (by simp)⟩
      · simp only [h1, h2, if_false]; simp

/-- the plain output -/
theorem plain_run : apiTojson env 4 0 false false (some false) world =
    (.ok (.dict [("name", .str "a"), ("books", .list [.dict [("name", .str "b"), ("authorId", .str "a")]])]), world) := rfl

/-- with everything -/
theorem full_run : apiTojson env 4 0 true true (some true) world =
    (.ok (.dict [("name", .str "a"), ("nickName", .none), ("pin", .str "1"), ("books", .list [.dict [("name", .str "b"), ("authorId", .str "a"),
      ("author", .dict [("name", .str "a"), ("nickName", .none), ("pin", .str "1")])]])]), world) := rfl

example : More (Addition env (some false ≠ some true) (false ≠ true) (false ≠ true))
    (.dict [("name", .str "a"), ("books", .list [.dict [("name", .str "b"), ("authorId", .str "a")]])])
    (.dict [("name", .str "a"), ("nickName", .none), ("pin", .str "1"), ("books", .list [.dict [("name", .str "b"), ("authorId", .str "a"),
      ("author", .dict [("name", .str "a"), ("nickName", .none), ("pin", .str "1")])]])]) :=
  options_only_add classes_out plain_run full_run (by simp) (by simp) (by simp)

/-- two fields with one JSON name -/
def fOld : Field := { name := "old", jsonName := "v", chain := [.leaf strMod] }
def fNew : Field := { name := "new", jsonName := "v", chain := [.leaf strMod] }
def twin : ClassDef := { name := "Twin", fields := [fOld, fNew] }
def envT : Env := { env with cls := fun n => if n = "Twin" then twin else {} }
def worldT : World where
  heap := fun i => match i with
    | 0 => { cls := "Twin", attrs := attrsOf [("old", .str "x")] }
    | _ => {}
  next := 1

/-- **C93** needs distinct JSON names: with nulls, the null of the one field replaces the value
of the other. -/
theorem null_replaces : apiTojson envT 4 0 false false (some false) worldT = (.ok (.dict [("v", .str "x")]), worldT) ∧
    apiTojson envT 4 0 false false (some true) worldT = (.ok (.dict [("v", .none)]), worldT) := ⟨rfl, rfl⟩

end JC.JsonOptionsDemo
