import Verif.Model.Declare
import Verif.Props.OwnedDict
import Mathlib.Tactic.ByContra

/-!
C94: a class decorated with `@jsonclass` has the fields that it and its decorated base classes
annotate, each once, and the most derived declaration counts.
-/

namespace JC

/-! ### Specification -/

/-- A class and the classes above it, most derived first, where every class statement has at most
one base class: without a decorator or under `@jsonclass`. The names in a body are distinct, they
are the keys of a dict. -/
inductive ClassLine : List PyClass → Prop
  | nil : ClassLine []
  | plain {m : List PyClass} (hm : ClassLine m) {annots : List (String × String)}
      {body : List (String × ClassAttr)} (ha : DistinctKeys annots) :
      ClassLine (plainClass annots body m :: m)
  | json {m : List PyClass} (hm : ClassLine m) {annots : List (String × String)}
      {body : List (String × ClassAttr)} (ha : DistinctKeys annots) {c : PyClass}
      (hc : jsonClass annots body m = .ok c) : ClassLine (c :: m)

/-- A class statement with any method resolution order. -/
inductive Stated : PyClass → Prop
  | plain {mro : List PyClass} (hm : ∀ b ∈ mro, Stated b) {annots : List (String × String)}
      {body : List (String × ClassAttr)} (ha : DistinctKeys annots) :
      Stated (plainClass annots body mro)
  | json {mro : List PyClass} (hm : ∀ b ∈ mro, Stated b) {annots : List (String × String)}
      {body : List (String × ClassAttr)} (ha : DistinctKeys annots) {c : PyClass}
      (hc : jsonClass annots body mro = .ok c) : Stated c

/-- The class is a JSON class whose body annotates the name. -/
def PyClass.Annotates (k : PyClass) (n : String) : Prop :=
  k.fields.isSome ∧ n ∈ k.annots.map Prod.fst

/-- Among the classes, most derived first, `k` is the first JSON class whose body annotates `n`;
`above` are the classes after it. -/
def MostDerived (classes : List PyClass) (n : String) (k : PyClass) (above : List PyClass) : Prop :=
  ∃ below, classes = below ++ k :: above ∧ k.Annotates n ∧ ∀ b ∈ below, ¬ b.Annotates n

/-- What the body of `k` assigns to the name, or else the first class above that has it. -/
def Assigned (k : PyClass) (above : List PyClass) (n : String) : Option ClassAttr :=
  (dictGet k.body n).or (above.findSome? (fun b => dictGet b.attrs n))

/-! ### Dicts -/

theorem dictUpdate_get {α : Type} (d e : List (String × α)) (he : DistinctKeys e) (k : String) :
    dictGet (dictUpdate d e) k = (dictGet e k).or (dictGet d k) := by
  unfold dictUpdate
  induction e generalizing d with
  | nil => simp [dictGet]
  | cons x xs ih =>
    have hx : DistinctKeys xs := (List.nodup_cons.mp he).2
    have hn : x.1 ∉ xs.map Prod.fst := (List.nodup_cons.mp he).1
    rw [List.foldl_cons, ih _ hx, dictGet_dictSet]
    by_cases h : x.1 = k
    · have : dictGet xs k = none := by
        rw [dictGet, Option.map_eq_none_iff, List.find?_eq_none]
        intro y hy hyk
        exact hn (List.mem_map.mpr ⟨y, hy, by simpa [h] using hyk⟩)
      rw [this, Option.none_or, if_pos h]
      simp [dictGet, h]
    · rw [if_neg h]
      simp [dictGet, h]

theorem dictUpdate_keys {α : Type} (d e : List (String × α)) (he : DistinctKeys e) :
    (dictUpdate d e).map Prod.fst =
      d.map Prod.fst ++ (e.map Prod.fst).filter (fun k => !(d.map Prod.fst).contains k) := by
  unfold dictUpdate
  induction e generalizing d with
  | nil => simp
  | cons x xs ih =>
    have hx : DistinctKeys xs := (List.nodup_cons.mp he).2
    have hn : x.1 ∉ xs.map Prod.fst := (List.nodup_cons.mp he).1
    rw [List.foldl_cons, ih _ hx, keys_dictSet]
    by_cases h : x.1 ∈ d.map Prod.fst
    · rw [if_pos h, List.map_cons, List.filter_cons_of_neg]
      simpa using h
    · rw [if_neg h, List.map_cons, List.filter_cons_of_pos (by simpa using h), List.append_assoc,
        List.singleton_append]
      congr 2
      apply List.filter_congr
      intro y hy
      have : y ≠ x.1 := fun e => hn (e ▸ hy)
      simp [this]

theorem dict_ext {α : Type} (d e : List (String × α)) (he : DistinctKeys e)
    (hk : d.map Prod.fst = e.map Prod.fst) (hg : ∀ k, dictGet d k = dictGet e k) : d = e := by
  have hd : DistinctKeys d := by unfold DistinctKeys; rw [hk]; exact he
  induction e generalizing d with
  | nil => simpa using hk
  | cons y ys ih =>
    match d, hk, hd, hg with
    | [], hk, _, _ => simp at hk
    | x :: xs, hk, hd, hg =>
      simp only [List.map_cons, List.cons.injEq] at hk
      have h1 := hg x.1
      have hxy : x = y := by
        have : some x.2 = some y.2 := by simpa [dictGet, hk.1] using h1
        exact Prod.ext hk.1 (Option.some.inj this)
      subst hxy
      congr 1
      refine ih _ (List.nodup_cons.mp he).2 hk.2 (fun k => ?_) (List.nodup_cons.mp hd).2
      have h2 := hg k
      by_cases h : x.1 = k
      · subst h
        have hn1 := (List.nodup_cons.mp he).1
        have hn2 := (List.nodup_cons.mp hd).1
        rw [(dictGet_none_iff (d := xs) (k := x.1)).mpr hn2, (dictGet_none_iff (d := ys) (k := x.1)).mpr hn1]
      · simpa [dictGet, h] using h2

theorem dictUpdate_prefix {α : Type} (d e : List (String × α)) (he : DistinctKeys e)
    (r : List String) (hp : e.map Prod.fst = d.map Prod.fst ++ r) : dictUpdate d e = e := by
  refine dict_ext _ _ he ?_ (fun k => ?_)
  · rw [dictUpdate_keys _ _ he, hp, List.filter_append]
    have h1 : (d.map Prod.fst).filter (fun k => !(d.map Prod.fst).contains k) = [] := by
      rw [List.filter_eq_nil_iff]
      intro a ha
      simpa using ha
    have h2 : r.filter (fun k => !(d.map Prod.fst).contains k) = r := by
      rw [List.filter_eq_self]
      intro a ha
      unfold DistinctKeys at he
      rw [hp, List.nodup_append] at he
      simp only [Bool.not_eq_true', List.contains_eq_mem, decide_eq_false_iff_not]
      exact fun hd => he.2.2 a hd a ha rfl
    rw [h1, h2, List.nil_append]
  · rw [dictUpdate_get _ _ he]
    cases h : dictGet e k with
    | some v => rfl
    | none =>
      have := (dictGet_none_iff (d := e) (k := k)).mp h
      rw [hp, List.mem_append, not_or] at this
      rw [(dictGet_none_iff (d := d) (k := k)).mpr this.1]; rfl

/-! ### Collecting the fields -/

theorem baseFields_cons (b : PyClass) (m : List PyClass) :
    baseFields (b :: m) = match fieldsOf b with
      | none => baseFields m
      | some fs => dictUpdate (baseFields m) fs := by
  simp only [baseFields, List.reverse_cons, List.foldl_append, List.foldl_cons, List.foldl_nil]
  cases fieldsOf b <;> rfl

theorem dataField_ok {own : List (String × ClassAttr)} {mro : List PyClass} {a : String × String}
    {f : String × StdField} (h : dataField own mro a = .ok f) :
    f = (a.1, ⟨a.2, classGetattr own mro a.1⟩) ∧
      (∀ xs, f.2.attr ≠ some (.value (.list xs))) ∧ (∀ xs, f.2.attr ≠ some (.value (.dict xs))) ∧
      (f.2.attr = some .factory → (dictGet own a.1).isSome) := by
  unfold dataField at h
  split at h
  · cases h
  · cases h
  · next hg =>
    split at h
    · cases h
    · next hs => cases h; simp [hg, hs]
  · next hl hd hf =>
    cases h
    exact ⟨rfl, fun xs => hl xs, fun xs => hd xs, fun hfa => (hf hfa).elim⟩

theorem dataFields_ok {own : List (String × ClassAttr)} {mro : List PyClass}
    {as : List (String × String)} {fs : List (String × StdField)}
    (h : dataFields own mro as = .ok fs) :
    fs = as.map (fun a => (a.1, ⟨a.2, classGetattr own mro a.1⟩)) ∧
      ∀ f ∈ fs, (∀ xs, f.2.attr ≠ some (.value (.list xs))) ∧
        (∀ xs, f.2.attr ≠ some (.value (.dict xs))) := by
  induction as generalizing fs with
  | nil => cases h; simp
  | cons a as ih =>
    simp only [dataFields] at h
    split at h
    · cases h
    · next f hf =>
      split at h
      · cases h
      · next fs' hfs =>
        cases h
        obtain ⟨h1, h2, h3, _⟩ := dataField_ok hf
        obtain ⟨i1, i2⟩ := ih hfs
        refine ⟨by rw [i1, h1]; rfl, fun x hx => ?_⟩
        rcases List.mem_cons.mp hx with rfl | hx
        · exact ⟨h2, h3⟩
        · exact i2 x hx

/-- What a decorated class looks like. -/
theorem jsonClass_ok {annots : List (String × String)} {body : List (String × ClassAttr)}
    {mro : List PyClass} {c : PyClass} (h : jsonClass annots body mro = .ok c) :
    ∃ own, dataFields body mro annots = .ok own ∧ c.annots = annots ∧ c.body = body ∧
      c.mro = mro ∧ c.attrs = body.filter (fun x => !x.2.isFactory) ∧
      c.fields = some (dictUpdate (baseFields mro) own) := by
  unfold jsonClass at h
  split at h
  · cases h
  · next own ho =>
    split at h
    · cases h
    · cases h
      exact ⟨own, ho, rfl, rfl, rfl, rfl, rfl⟩

theorem own_keys {own : List (String × ClassAttr)} {mro : List PyClass}
    {as : List (String × String)} {fs : List (String × StdField)}
    (h : dataFields own mro as = .ok fs) : fs.map Prod.fst = as.map Prod.fst := by
  rw [(dataFields_ok h).1, List.map_map]; rfl

theorem baseFields_distinct (mro : List PyClass) : DistinctKeys (baseFields mro) := by
  induction mro with
  | nil => exact distinct_nil
  | cons b m ih =>
    rw [baseFields_cons]
    split
    · exact ih
    · exact distinct_dictUpdate ih _

theorem fieldsOf_line (c : PyClass) : fieldsOf c = (c :: c.mro).findSome? PyClass.fields := by
  simp only [fieldsOf, List.findSome?_cons]
  cases c.fields <;> rfl

theorem line_cons {c : PyClass} {m : List PyClass} (h : ClassLine (c :: m)) : c.mro = m ∧ ClassLine m := by
  cases h with
  | plain hm ha => exact ⟨rfl, hm⟩
  | json hm ha hc =>
    obtain ⟨_, _, _, _, h, _⟩ := jsonClass_ok hc
    exact ⟨h, hm⟩

theorem line_decl {c : PyClass} {m : List PyClass} (h : ClassLine (c :: m))
    {fs : List (String × StdField)} (hf : c.fields = some fs) :
    DistinctKeys c.annots ∧ ∃ own, dataFields c.body m c.annots = .ok own ∧
      DistinctKeys own ∧ fs = dictUpdate (baseFields m) own := by
  cases h with
  | plain hm ha => cases hf
  | json hm ha hc =>
    obtain ⟨own, ho, h1, h2, h3, _, h5⟩ := jsonClass_ok hc
    rw [h5] at hf
    cases hf
    rw [h1, h2]
    exact ⟨ha, own, ho, by unfold DistinctKeys; rw [own_keys ho]; exact ha, rfl⟩

/-- With single inheritance the fields collected from the base classes are those of the nearest
decorated one. -/
theorem baseFields_line {m : List PyClass} (h : ClassLine m) :
    baseFields m = (m.findSome? PyClass.fields).getD [] := by
  induction m with
  | nil => rfl
  | cons c m ih =>
    obtain ⟨hm, hl⟩ := line_cons h
    rw [baseFields_cons, fieldsOf_line, hm]
    cases hcf : c.fields with
    | some fs =>
      obtain ⟨ha, own, ho, hown, rfl⟩ := line_decl h hcf
      rw [List.findSome?_cons, hcf]
      exact dictUpdate_prefix _ _ (distinct_dictUpdate (baseFields_distinct _) _) _
        (dictUpdate_keys _ _ hown)
    | none =>
      rw [List.findSome?_cons, hcf]
      have hih := ih hl
      simp only
      cases hfm : m.findSome? PyClass.fields with
      | none => rw [hih, hfm]
      | some fs =>
        rw [hfm, Option.getD_some] at hih
        simp only [Option.getD_some]
        rw [hih]
        exact dictUpdate_prefix _ _ (hih ▸ baseFields_distinct m) [] (by simp)

/-- The fields seen from a class of a line. -/
theorem line_fields {m : List PyClass} (h : ClassLine m) (n : String) (d : StdField) :
    dictGet (baseFields m) n = some d ↔
      ∃ k above, MostDerived m n k above ∧ dictGet k.annots n = some d.ann ∧
        d.attr = Assigned k above n := by
  induction m with
  | nil =>
    constructor
    · intro h'; cases h'
    · rintro ⟨k, above, ⟨below, hl, _⟩, _⟩; simp at hl
  | cons c m ih =>
    obtain ⟨hm, hl⟩ := line_cons h
    have hbase := ih hl
    -- not annotated by the class: as in its base classes
    have skip : ¬ c.Annotates n → ((∃ k above, MostDerived m n k above ∧
        dictGet k.annots n = some d.ann ∧ d.attr = Assigned k above n) ↔
        ∃ k above, MostDerived (c :: m) n k above ∧ dictGet k.annots n = some d.ann ∧
          d.attr = Assigned k above n) := by
      intro hna
      constructor
      · rintro ⟨k, above, ⟨below, hl, hk, hb⟩, h2, h3⟩
        refine ⟨k, above, ⟨c :: below, by rw [hl]; rfl, hk, ?_⟩, h2, h3⟩
        intro x hx
        rcases List.mem_cons.mp hx with rfl | hx
        · exact hna
        · exact hb x hx
      · rintro ⟨k, above, ⟨below, hl, hk, hb⟩, h2, h3⟩
        cases below with
        | nil => cases hl; exact (hna hk).elim
        | cons x below =>
          simp only [List.cons_append, List.cons.injEq] at hl
          exact ⟨k, above, ⟨below, hl.2, hk, fun y hy => hb y (List.mem_cons_of_mem _ hy)⟩, h2, h3⟩
    rw [baseFields_line h, List.findSome?_cons]
    cases hcf : c.fields with
    | none =>
      have hna : ¬ c.Annotates n := by simp [PyClass.Annotates, hcf]
      rw [← skip hna, ← hbase, baseFields_line hl]
    | some fs =>
      obtain ⟨ha, own, ho, hown, rfl⟩ := line_decl h hcf
      simp only [Option.getD_some]
      rw [dictUpdate_get _ _ hown]
      by_cases hn : n ∈ c.annots.map Prod.fst
      · obtain ⟨a, hga⟩ : ∃ a, dictGet c.annots n = some a := by
          cases hg : dictGet c.annots n with
          | none => exact (dictGet_none_iff.mp hg hn).elim
          | some a => exact ⟨a, rfl⟩
        have hgo : dictGet own n = some ⟨a, Assigned c m n⟩ := by
          rw [← mem_iff_get hown, (dataFields_ok ho).1]
          exact List.mem_map.mpr ⟨(n, a), (mem_iff_get ha n a).mpr hga, rfl⟩
        have hann : c.Annotates n := ⟨by simp [hcf], hn⟩
        rw [hgo]
        simp only [Option.some_or, Option.some.injEq]
        constructor
        · rintro rfl
          exact ⟨c, m, ⟨[], rfl, hann, by simp⟩, hga, rfl⟩
        · rintro ⟨k, above, ⟨below, hl, hk, hb⟩, h2, h3⟩
          cases below with
          | nil =>
            cases hl
            rw [hga] at h2
            cases d
            simp_all
          | cons x below =>
            simp only [List.cons_append, List.cons.injEq] at hl
            exact (hb c (by rw [hl.1]; simp) hann).elim
      · have hgo : dictGet own n = none := by
          rw [dictGet_none_iff, own_keys ho]; exact hn
        rw [hgo, Option.none_or, hbase]
        exact skip (fun hc => hn hc.2)

/-! ### The theorems -/

/-- The fields of a JSON class are exactly those that it or a JSON class above it annotates, each
once, and the declaration of the most derived such class counts: its annotation, and what is
assigned in its body or else visible from there. -/
theorem most_derived_counts {c : PyClass} {m : List PyClass} (h : ClassLine (c :: m))
    {fs : List (String × StdField)} (hf : c.fields = some fs) :
    DistinctKeys fs ∧
    ∀ n d, (n, d) ∈ fs ↔ ∃ k above, MostDerived (c :: m) n k above ∧
      dictGet k.annots n = some d.ann ∧ d.attr = Assigned k above n := by
  have hd : DistinctKeys fs := by
    obtain ⟨_, own, _, _, rfl⟩ := line_decl h hf
    exact distinct_dictUpdate (baseFields_distinct _) _
  refine ⟨hd, fun n d => ?_⟩
  rw [mem_iff_get hd, ← line_fields h, baseFields_line h, List.findSome?_cons, hf]
  rfl

/-- The fields come in the order of the classes, base class first: those of the next JSON class
above (with undecorated classes in between), then the new ones in the order of the body. -/
theorem base_fields_first {c b : PyClass} {between above : List PyClass}
    (h : ClassLine (c :: (between ++ b :: above))) {fs bs : List (String × StdField)}
    (hf : c.fields = some fs) (hbt : ∀ x ∈ between, x.fields = none) (hb : b.fields = some bs) :
    fs.map Prod.fst = bs.map Prod.fst ++
      (c.annots.map Prod.fst).filter (fun n => !(bs.map Prod.fst).contains n) := by
  obtain ⟨ha, own, ho, hown, rfl⟩ := line_decl h hf
  rw [dictUpdate_keys _ _ hown, own_keys ho]
  have : baseFields (between ++ b :: above) = bs := by
    rw [baseFields_line (line_cons h).2, List.findSome?_append]
    have : between.findSome? PyClass.fields = none := by
      rw [List.findSome?_eq_none_iff]; exact hbt
    simp [this, hb]
  rw [this]

/-- The default is no list and no dict. -/
def StdField.Immutable (d : StdField) : Prop :=
  (∀ xs, d.attr ≠ some (.value (.list xs))) ∧ (∀ xs, d.attr ≠ some (.value (.dict xs)))

theorem base_immutable (m : List PyClass) (hm : ∀ b ∈ m, ∀ fs, fieldsOf b = some fs →
      DistinctKeys fs ∧ ∀ f ∈ fs, f.2.Immutable) :
    ∀ n d, dictGet (baseFields m) n = some d → d.Immutable := by
  induction m with
  | nil => intro n d h'; cases h'
  | cons b m ihm =>
    intro n d h'
    rw [baseFields_cons] at h'
    split at h'
    · exact ihm (fun b hb => hm b (List.mem_cons_of_mem _ hb)) n d h'
    · next fs' hfs =>
      obtain ⟨hd', hp⟩ := hm b (by simp) fs' hfs
      rw [dictUpdate_get _ _ hd'] at h'
      cases hgn : dictGet fs' n with
      | some x =>
        rw [hgn] at h'; cases h'
        exact hp _ ((mem_iff_get hd' n _).mpr hgn)
      | none =>
        rw [hgn] at h'
        exact ihm (fun b hb => hm b (List.mem_cons_of_mem _ hb)) n d h'

theorem stated_immutable {c : PyClass} (h : Stated c) : ∀ fs, fieldsOf c = some fs →
    DistinctKeys fs ∧ ∀ f ∈ fs, f.2.Immutable := by
  induction h with
  | @plain mro hm annots body ha ih =>
    intro fs hf
    simp only [fieldsOf, plainClass, PyClass.fields, PyClass.mro, Option.none_or] at hf
    obtain ⟨b, hb, hbf⟩ := List.exists_of_findSome?_eq_some hf
    exact ih b hb fs (by simp [fieldsOf, hbf])
  | @json mro hm annots body ha c hc ih =>
    intro fs hf
    obtain ⟨own, ho, _, _, _, _, h5⟩ := jsonClass_ok hc
    simp only [fieldsOf, h5, Option.some_or, Option.some.injEq] at hf
    subst hf
    have hown : DistinctKeys own := by unfold DistinctKeys; rw [own_keys ho]; exact ha
    have hd := distinct_dictUpdate (baseFields_distinct mro) own
    refine ⟨hd, fun f hfm => ?_⟩
    have hg := (mem_iff_get hd f.1 f.2).mp hfm
    rw [dictUpdate_get _ _ hown] at hg
    cases hgo : dictGet own f.1 with
    | some x =>
      rw [hgo] at hg
      cases hg
      exact (dataFields_ok ho).2 _ ((mem_iff_get hown f.1 _).mpr hgo)
    | none =>
      rw [hgo, Option.none_or] at hg
      exact base_immutable mro ih f.1 f.2 hg

/-- A default value in a field is never a list or a dict, with any inheritance: objects do not
share a mutable default. -/
theorem no_mutable_default {c : PyClass} (h : Stated c) : ∀ f ∈ jfields c,
    (∀ xs, f.2.2 ≠ .value (.list xs)) ∧ (∀ xs, f.2.2 ≠ .value (.dict xs)) := by
  intro f hf
  obtain ⟨x, hx, rfl⟩ := List.mem_map.mp hf
  cases hcf : c.fields with
  | none => rw [hcf] at hx; cases hx
  | some fs =>
    rw [hcf, Option.getD_some] at hx
    have := (stated_immutable h fs (by simp [fieldsOf, hcf])).2 x hx
    unfold StdField.Immutable at this
    unfold jfieldOf
    split <;> simp_all

theorem dictGet_some_of_mem {α : Type} {d : List (String × α)} {n : String}
    (h : n ∈ d.map Prod.fst) : ∃ v, dictGet d n = some v := by
  cases hg : dictGet d n with
  | none => exact (dictGet_none_iff.mp hg h).elim
  | some v => exact ⟨v, rfl⟩

theorem baseFields_get (m : List PyClass) (hm : ∀ b ∈ m, Stated b) (n : String) :
    dictGet (baseFields m) n = m.findSome? (fun b => (fieldsOf b).bind (fun fs => dictGet fs n)) := by
  induction m with
  | nil => rfl
  | cons b m ih =>
    have hih := ih (fun x hx => hm x (List.mem_cons_of_mem _ hx))
    rw [baseFields_cons, List.findSome?_cons]
    cases hf : fieldsOf b with
    | none => simpa using hih
    | some fs =>
      simp only [Option.bind_some]
      rw [dictUpdate_get _ _ (stated_immutable (hm b (by simp)) fs hf).1, hih]
      cases dictGet fs n <;> rfl

/-- With any inheritance: a name annotated in the body is declared there; another one is the field
of the first class in the method resolution order that has a field of this name (by itself or from
above). -/
theorem first_with_field {annots : List (String × String)} {body : List (String × ClassAttr)}
    {mro : List PyClass} {c : PyClass} (hm : ∀ b ∈ mro, Stated b) (ha : DistinctKeys annots)
    (hc : jsonClass annots body mro = .ok c) (n : String) :
    ∃ fs, c.fields = some fs ∧ DistinctKeys fs ∧
      (∀ a, dictGet annots n = some a →
        dictGet fs n = some ⟨a, (dictGet body n).or (mro.findSome? (fun b => dictGet b.attrs n))⟩) ∧
      (dictGet annots n = none →
        dictGet fs n = mro.findSome? (fun b => (fieldsOf b).bind (fun fs => dictGet fs n))) := by
  obtain ⟨own, ho, _, _, _, _, h5⟩ := jsonClass_ok hc
  have hown : DistinctKeys own := by unfold DistinctKeys; rw [own_keys ho]; exact ha
  refine ⟨_, h5, distinct_dictUpdate (baseFields_distinct _) _, fun a hga => ?_, fun hn => ?_⟩
  · have hgo : dictGet own n = some ⟨a, classGetattr body mro n⟩ := by
      rw [← mem_iff_get hown, (dataFields_ok ho).1]
      exact List.mem_map.mpr ⟨(n, a), (mem_iff_get ha n a).mpr hga, rfl⟩
    rw [dictUpdate_get _ _ hown, hgo]
    rfl
  · have hgo : dictGet own n = none := by
      rw [dictGet_none_iff, own_keys ho, ← dictGet_none_iff]; exact hn
    rw [dictUpdate_get _ _ hown, hgo, Option.none_or, baseFields_get mro hm]

/-- reached over base classes -/
inductive Above (c : PyClass) : PyClass → Prop
  | refl : Above c c
  | step {b a : PyClass} (h : Above c b) (ha : a ∈ b.mro) : Above c a

theorem above_trans {a b c : PyClass} (h1 : Above a b) (h2 : Above b c) : Above a c := by
  induction h2 with
  | refl => exact h1
  | step _ ha ih => exact .step ih ha

theorem field_from_above {c : PyClass} (h : Stated c) : ∀ fs, fieldsOf c = some fs →
    ∀ n d, dictGet fs n = some d → ∃ k, Above c k ∧ k.Annotates n := by
  induction h with
  | @plain mro hm annots body ha ih =>
    intro fs hf n d hd
    simp only [fieldsOf, plainClass, PyClass.fields, PyClass.mro, Option.none_or] at hf
    obtain ⟨b, hb, hbf⟩ := List.exists_of_findSome?_eq_some hf
    obtain ⟨k, hk, hn⟩ := ih b hb fs (by simp [fieldsOf, hbf]) n d hd
    exact ⟨k, above_trans (.step .refl hb) hk, hn⟩
  | @json mro hm annots body ha c hc ih =>
    intro fs hf n d hd
    obtain ⟨own, ho, h1, _, h3, _, h5⟩ := jsonClass_ok hc
    simp only [fieldsOf, h5, Option.some_or, Option.some.injEq] at hf
    obtain ⟨fs', hf', _, g1, g2⟩ := first_with_field hm ha hc n
    rw [h5, hf] at hf'
    cases hf'
    cases hga : dictGet annots n with
    | some a =>
      refine ⟨c, .refl, by simp [h5], ?_⟩
      rw [h1]
      exact List.mem_map.mpr ⟨(n, a), (mem_iff_get ha n a).mpr hga, rfl⟩
    | none =>
      rw [g2 hga] at hd
      obtain ⟨b, hb, hbd⟩ := List.exists_of_findSome?_eq_some hd
      obtain ⟨bs, hbs, hbn⟩ := Option.bind_eq_some_iff.mp hbd
      obtain ⟨k, hk, hn⟩ := ih b hb bs hbs n d hbn
      exact ⟨k, above_trans (.step .refl (h3 ▸ hb)) hk, hn⟩

/-- With any inheritance: the names of the fields are those that the class or a JSON class in its
method resolution order annotates. (With a class its method resolution order has all base classes
of it.) -/
theorem names_of_all_bases {annots : List (String × String)} {body : List (String × ClassAttr)}
    {mro : List PyClass} {c : PyClass} (hm : ∀ b ∈ mro, Stated b) (ha : DistinctKeys annots)
    (hcl : ∀ b ∈ mro, ∀ a ∈ b.mro, a ∈ mro) (hc : jsonClass annots body mro = .ok c) (n : String) :
    n ∈ (jfields c).map Prod.fst ↔ ∃ k ∈ c :: mro, k.Annotates n := by
  obtain ⟨own, ho, h1, _, h3, _, h5⟩ := jsonClass_ok hc
  obtain ⟨fs, hf, hd, g1, g2⟩ := first_with_field hm ha hc n
  have hmap : (jfields c).map Prod.fst = fs.map Prod.fst := by
    rw [jfields, hf, Option.getD_some, List.map_map]
    apply List.map_congr_left
    intro x _
    simp only [Function.comp, jfieldOf]
    split <;> rfl
  rw [hmap]
  constructor
  · intro hn
    obtain ⟨d, hgd⟩ := dictGet_some_of_mem hn
    obtain ⟨k, hk, hkn⟩ := field_from_above (.json hm ha hc) fs (by simp [fieldsOf, hf]) n d hgd
    refine ⟨k, ?_, hkn⟩
    clear hkn
    induction hk with
    | refl => simp
    | step h hmem ih =>
      rcases List.mem_cons.mp ih with rfl | hb
      · exact List.mem_cons_of_mem _ (h3 ▸ hmem)
      · exact List.mem_cons_of_mem _ (hcl _ hb _ hmem)
  · rintro ⟨k, hk, hks, hkn⟩
    by_contra hno
    have hnone : dictGet fs n = none := dictGet_none_iff.mpr hno
    cases hga : dictGet annots n with
    | some a => rw [g1 a hga] at hnone; cases hnone
    | none =>
      rcases List.mem_cons.mp hk with rfl | hk
      · rw [h1] at hkn
        exact dictGet_none_iff.mp hga hkn
      · rw [g2 hga, List.findSome?_eq_none_iff] at hnone
        have := hnone k hk
        obtain ⟨ks, hks⟩ := Option.isSome_iff_exists.mp hks
        have hfo : fieldsOf k = some ks := by simp [fieldsOf, hks]
        rw [hfo, Option.bind_some] at this
        -- the class has what it annotates
        cases hm k hk with
        | plain hm' ha' => cases hks
        | json hm' ha' hc' =>
          obtain ⟨own', ho', e1, _, _, _, e5⟩ := jsonClass_ok hc'
          obtain ⟨a, hga'⟩ := dictGet_some_of_mem hkn
          obtain ⟨fs', hf', _, q1, _⟩ := first_with_field hm' ha' hc' n
          rw [hks] at hf'
          cases hf'
          rw [q1 a (e1 ▸ hga')] at this
          cases this

/-- What the declaration that counts says about a field: a `types` declaration is used as it is,
and otherwise the annotation is; a value behind `=` is what the field of a new object starts
with. -/
theorem field_as_declared {c : PyClass} {m : List PyClass} (h : ClassLine (c :: m)) (hc : c.fields.isSome)
    {n : String} {k : PyClass} {above : List PyClass} (hk : MostDerived (c :: m) n k above)
    {ann : String} (ha : dictGet k.annots n = some ann) :
    (∀ i, Assigned k above n = some (.types i) → (n, .given i, .nothing) ∈ jfields c) ∧
    (Assigned k above n = none → (n, .annotation ann, .nothing) ∈ jfields c) ∧
    (∀ v, Assigned k above n = some (.value v) → v.isNone = false →
      (n, .annotation ann, .value v) ∈ jfields c) := by
  obtain ⟨fs, hf⟩ := Option.isSome_iff_exists.mp hc
  have hmem : (n, ⟨ann, Assigned k above n⟩) ∈ fs :=
    ((most_derived_counts h hf).2 n _).mpr ⟨k, above, hk, ha, rfl⟩
  have hj : jfieldOf (n, ⟨ann, Assigned k above n⟩) ∈ jfields c := by
    rw [jfields, hf]; exact List.mem_map_of_mem hmem
  refine ⟨fun i hi => ?_, fun hn => ?_, fun v hv hvn => ?_⟩
  · rw [hi] at hj; exact hj
  · rw [hn] at hj; exact hj
  · rw [hv] at hj
    cases v <;> first | exact hj | cases hvn

/-- A JSON class has no other fields. -/
theorem no_other_fields {c : PyClass} {m : List PyClass} (h : ClassLine (c :: m)) :
    ((jfields c).map Prod.fst).Nodup ∧
    ∀ f ∈ jfields c, ∃ k ∈ c :: m, k.Annotates f.1 := by
  cases hcf : c.fields with
  | none => simp [jfields, hcf]
  | some fs =>
    have hmap : (jfields c).map Prod.fst = fs.map Prod.fst := by
      rw [jfields, hcf, Option.getD_some, List.map_map]
      apply List.map_congr_left
      intro x _
      simp only [Function.comp, jfieldOf]
      split <;> rfl
    obtain ⟨hd, hall⟩ := most_derived_counts h hcf
    refine ⟨hmap ▸ hd, fun f hf => ?_⟩
    have : f.1 ∈ fs.map Prod.fst := hmap ▸ List.mem_map_of_mem hf
    obtain ⟨⟨n, d⟩, hx, hn⟩ := List.mem_map.mp this
    obtain ⟨k, above, ⟨below, hl, hk, _⟩, _⟩ := (hall n d).mp hx
    exact ⟨k, by rw [hl]; simp, hn ▸ hk⟩

end JC

/-! ### Cases -/

namespace JC.DeclareDemo

/-- `class Base: id: str = types...; name: str = 'a'; note: str` under `@jsonclass` -/
def base : PyClass := (jsonClass [("id", "str"), ("name", "str"), ("note", "str")]
  [("id", .types 1), ("name", .value (.str "a"))] []).toOption.getD (plainClass [] [] [])

/-- `class Mid(Base): hidden: str` without a decorator -/
def mid : PyClass := plainClass [("hidden", "str")] [("note", .value (.str "n"))] (base :: [])

/-- `class Sub(Mid): age: int = 3; id: str; note: str` under `@jsonclass` -/
def sub : PyClass := (jsonClass [("age", "int"), ("id", "int"), ("note", "str")]
  [("age", .value (.int 3))] (mid :: base :: [])).toOption.getD (plainClass [] [] [])

theorem sub_line : ClassLine [sub, mid, base] := by
  have hb : jsonClass [("id", "str"), ("name", "str"), ("note", "str")]
    [("id", .types 1), ("name", .value (.str "a"))] [] = .ok base := rfl
  have hs : jsonClass [("age", "int"), ("id", "int"), ("note", "str")]
    [("age", .value (.int 3))] (mid :: base :: []) = .ok sub := rfl
  exact .json (.plain (.json .nil (by unfold DistinctKeys; decide) hb)
    (by unfold DistinctKeys; decide)) (by unfold DistinctKeys; decide) hs

/-- The fields of the subclass: annotated again without a default, `id` keeps the `types` of the
base class, and `note` sees the attribute of the undecorated class. -/
example : jfields sub = [("id", .given 1, .nothing), ("name", .annotation "str", .value (.str "a")),
    ("note", .annotation "str", .value (.str "n")), ("age", .annotation "int", .value (.int 3))] :=
  rfl

example : MostDerived [sub, mid, base] "name" base [] :=
  ⟨[sub, mid], rfl, ⟨rfl, by decide⟩, by
    intro b hb
    rcases List.mem_cons.mp hb with rfl | hb
    · rintro ⟨_, h⟩
      exact absurd h (by decide)
    · cases List.mem_singleton.mp hb
      rintro ⟨h, _⟩
      exact absurd h (by decide)⟩

/-- A list as default is refused when the class is defined. -/
example : jsonClass [("tags", "list[str]")] [("tags", .value (.list []))] [] = .error .valueError :=
  rfl

/-- Violation: with `field(default_factory=list)` a new object gets the object
`dataclasses.MISSING` as value instead of what the factory makes. -/
theorem factory_not_called : ∃ c, jsonClass [("tags", "list[str]")] [("tags", .factory)] [] = .ok c ∧
    jfields c = [("tags", .annotation "list[str]", .missingObject)] := ⟨_, rfl, rfl⟩

/-- `class Root: x: str = types(1)` -/
def root : PyClass := (jsonClass [("x", "str")] [("x", .types 1)] []).toOption.getD (plainClass [] [] [])
/-- `class Left(Root): ...` -/
def left : PyClass := (jsonClass [] [] [root]).toOption.getD (plainClass [] [] [])
/-- `class Right(Root): x: int = types(2)` -/
def right : PyClass := (jsonClass [("x", "int")] [("x", .types 2)] [root]).toOption.getD (plainClass [] [] [])

/-- Violation with two base classes: `class Both(Left, Right)` takes the field of `Root` although
`Right` declares it again and `Both.x` is what `Right` assigns. -/
theorem two_bases_lose_override : ∃ c, jsonClass [] [] [left, right, root] = .ok c ∧
    jfields c = [("x", .given 1, .nothing)] ∧
    (classGetattr c.attrs c.mro "x") = some (.types 2) := ⟨_, rfl, rfl, rfl⟩

/-- The hypotheses of the theorems for any inheritance hold for it. -/
theorem two_bases_stated : (∀ b ∈ [left, right, root], Stated b) ∧
    ∀ b ∈ [left, right, root], ∀ a ∈ b.mro, a ∈ [left, right, root] := by
  have h0 : Stated root := .json (mro := []) (annots := [("x", "str")]) (body := [("x", .types 1)])
    (by simp) (by unfold DistinctKeys; decide) rfl
  have h1 : Stated left := .json (mro := [root]) (annots := []) (body := [])
    (by simpa using h0) (by unfold DistinctKeys; decide) rfl
  have h2 : Stated right := .json (mro := [root]) (annots := [("x", "int")])
    (body := [("x", .types 2)]) (by simpa using h0) (by unfold DistinctKeys; decide) rfl
  have m0 : root.mro = [] := rfl
  have m1 : left.mro = [root] := rfl
  have m2 : right.mro = [root] := rfl
  refine ⟨by simp [h0, h1, h2], ?_⟩
  simp [m0, m1, m2]

/-- The subclass uses the `Types` object of the base class, so that the ownership of the field
definition moves to the subclass (see C56). -/
theorem inherited_types_shared : ("id", TypesFrom.given 1, StartsWith.nothing) ∈ jfields base ∧
    ("id", TypesFrom.given 1, StartsWith.nothing) ∈ jfields sub :=
  ⟨List.mem_cons_self .., List.mem_cons_self ..⟩

end JC.DeclareDemo
