import Verif.Model.Relation
import Verif.Props.LocalKey
import Mathlib.Data.List.Nodup

/-
C56: the two ends of a declared relation find each other.
-/
namespace JC

/-! ### Specification: what the class bodies say -/

/-- A program: its classes in the order of their definition. -/
abbrev ProgramText := List (String × ClassDecl)

/-- Class `c` of the program declares the field `F`. -/
def Declares (p : ProgramText) (c : String) (F : RelDecl) : Prop := ∃ d, (c, d) ∈ p ∧ F ∈ d.fields

/-- The field holds objects of class `T`: one of them, or a list of them. -/
def RelDecl.Holds (F : RelDecl) (T : String) : Prop :=
  (F.base.ftype = .inst ∨ F.base.ftype = .list) ∧ F.target = some T

/-- Field `F` of class `S` and field `G` of class `T` are declared as two ends of one relation:
`F` holds objects of `T` and `G` objects of `S`; and `F` is `linkto` while `G` says that it is
linked by or through `F`, or `F` says that it is linked by or through `G`. -/
def EndOf (S : String) (F : RelDecl) (T : String) (G : RelDecl) : Prop :=
  F.Holds T ∧ G.Holds S ∧
    ((F.base.store = .localKey ∧ G.fkey = some F.base.name) ∨
     (F.base.store = .foreignKey ∧ F.fkey = some G.base.name))

/-- The relations of a program are declared properly. -/
structure WellDeclared (p : ProgramText) : Prop where
  /-- one class of a name -/
  classes : (p.map Prod.fst).Nodup
  /-- one field of a name -/
  names : ∀ c d, (c, d) ∈ p → (d.fields.map (fun F => F.base.name)).Nodup
  /-- no two classes share a `Types` object -/
  own : ∀ c F c' F', Declares p c F → Declares p c' F' → F.tid = F'.tid → c = c'
  /-- referenced classes exist -/
  closed : ∀ c F T, Declares p c F → F.Holds T → ∃ d, (T, d) ∈ p
  /-- only linked fields name an opposite field -/
  keyed : ∀ c F, Declares p c F → F.fkey ≠ none → F.base.store = .foreignKey
  /-- a field that is named by a linked field is `linkto`, or names that field -/
  back : ∀ S F T G, Declares p S F → Declares p T G → F.Holds T → G.Holds S → F.fkey = some G.base.name →
    G.base.store = .localKey ∨ G.fkey = some F.base.name
  /-- no two fields of a class are linked by the same field of the same class -/
  single : ∀ c F F' T k, Declares p c F → Declares p c F' → F.Holds T → F'.Holds T → F.fkey = some k → F'.fkey = some k →
    F = F'

/-- The reference keys of a class are neither fields nor primary keys, and belong to one field
each. -/
structure KeyNames (p : ProgramText) : Prop where
  notField : ∀ c F G, Declares p c F → Declares p c G → F.base.store = .localKey → F.base.refName ≠ G.base.name
  notPrimary : ∀ c d F, (c, d) ∈ p → F ∈ d.fields → F.base.store = .localKey → d.conf.primary ≠ some F.base.refName
  single : ∀ c F G, Declares p c F → Declares p c G → F.base.store = .localKey → G.base.store = .localKey →
    F.base.refName = G.base.refName → F = G

/-- The classes after the program has run. -/
def ran (p : ProgramText) : Registry := ({} : Registry).defineAll p

/-! ### Definitions -/

theorem defineAll_cls_of_not (p : ProgramText) (reg : Registry) {c : String} (h : c ∉ p.map Prod.fst) :
    (reg.defineAll p).cls c = reg.cls c := by
  induction p generalizing reg with
  | nil => rfl
  | cons x p ih =>
    obtain ⟨n, d⟩ := x
    simp only [List.map_cons, List.mem_cons, not_or] at h
    rw [Registry.defineAll, ih _ h.2]
    simp [Registry.define, h.1]

theorem defineAll_cls_of_mem (p : ProgramText) (reg : Registry) {c : String} {d : ClassDecl} (hn : (p.map Prod.fst).Nodup)
    (h : (c, d) ∈ p) : (reg.defineAll p).cls c = some d := by
  induction p generalizing reg with
  | nil => cases h
  | cons x p ih =>
    obtain ⟨n, e⟩ := x
    simp only [List.map_cons, List.nodup_cons] at hn
    rw [Registry.defineAll]
    rcases List.mem_cons.1 h with h | h
    · cases h
      rw [defineAll_cls_of_not _ _ hn.1]
      simp [Registry.define]
    · exact ih _ hn.2 h

theorem ran_cls {p : ProgramText} (hn : (p.map Prod.fst).Nodup) {c : String} {d : ClassDecl} :
    (ran p).cls c = some d ↔ (c, d) ∈ p := by
  constructor
  · intro h
    by_cases hc : c ∈ p.map Prod.fst
    · obtain ⟨⟨c', e⟩, he, rfl⟩ := List.mem_map.1 hc
      rw [ran, defineAll_cls_of_mem _ _ hn he] at h
      cases h; exact he
    · rw [ran, defineAll_cls_of_not _ _ hc] at h
      cases h
  · exact defineAll_cls_of_mem _ _ hn

theorem ran_fields {p : ProgramText} (hn : (p.map Prod.fst).Nodup) {c : String} {F : RelDecl} :
    F ∈ (ran p).fields c ↔ Declares p c F := by
  unfold Registry.fields Declares
  constructor
  · intro h
    split at h
    · next d hd => exact ⟨d, (ran_cls hn).1 hd, h⟩
    · cases h
  · rintro ⟨d, hd, hF⟩
    rw [(ran_cls hn).2 hd]; exact hF

theorem defineAll_owner_stays (p : ProgramText) (reg : Registry) {c : String} {t : Nat} (ho : reg.owner t = c)
    (h : ∀ c' F, Declares p c' F → F.tid = t → c' = c) : (reg.defineAll p).owner t = c := by
  induction p generalizing reg with
  | nil => exact ho
  | cons x p ih =>
    obtain ⟨n, d⟩ := x
    rw [Registry.defineAll]
    refine ih _ ?_ (fun c' F ⟨e, he, hF⟩ ht => h c' F ⟨e, List.mem_cons_of_mem _ he, hF⟩ ht)
    simp only [Registry.define]
    split
    · next ha =>
      obtain ⟨F, hF, ht⟩ := List.any_eq_true.1 ha
      exact h n F ⟨d, List.mem_cons_self, hF⟩ (of_decide_eq_true ht)
    · exact ho

theorem defineAll_owner (p : ProgramText) (reg : Registry) {c : String} {F : RelDecl} (hF : Declares p c F)
    (h : ∀ c' F', Declares p c' F' → F'.tid = F.tid → c' = c) : (reg.defineAll p).owner F.tid = c := by
  induction p generalizing reg with
  | nil => obtain ⟨d, hd, _⟩ := hF; cases hd
  | cons x p ih =>
    obtain ⟨n, d⟩ := x
    rw [Registry.defineAll]
    have h' : ∀ c' F', Declares p c' F' → F'.tid = F.tid → c' = c :=
      fun c' F' ⟨e, he, hF'⟩ ht => h c' F' ⟨e, List.mem_cons_of_mem _ he, hF'⟩ ht
    by_cases ht : ∃ F' ∈ d.fields, F'.tid = F.tid
    · obtain ⟨F', hF', ht⟩ := ht
      refine defineAll_owner_stays _ _ ?_ h'
      have : d.fields.any (fun f => f.tid = F.tid) = true := List.any_eq_true.2 ⟨F', hF', by simpa using ht⟩
      simp only [Registry.define, this, if_true]
      exact h n F' ⟨d, List.mem_cons_self, hF'⟩ ht
    · obtain ⟨e, he, hFe⟩ := hF
      rcases List.mem_cons.1 he with he | he
      · cases he; exact absurd ⟨F, hFe, rfl⟩ ht
      · exact ih _ ⟨e, he, hFe⟩ h'

theorem ran_owner {p : ProgramText} (W : WellDeclared p) {c : String} {F : RelDecl} (hF : Declares p c F) :
    (ran p).owner F.tid = c :=
  defineAll_owner p _ hF (fun _ _ h ht => W.own _ _ _ _ h hF ht)

/-! ### Lookup -/

theorem foreignClass_holds {p : ProgramText} (W : WellDeclared p) {c : String} {F : RelDecl} (hF : Declares p c F) :
    ∃ r, (ran p).foreignClass F = .ok r ∧ ∀ T, r = some T ↔ F.Holds T := by
  have key : F.base.ftype = .inst ∨ F.base.ftype = .list →
      ∃ r, (ran p).instCls F.target = .ok r ∧ ∀ T, r = some T ↔ F.Holds T := by
    intro hty
    cases ht : F.target with
    | none => exact ⟨none, rfl, fun T => by simp [RelDecl.Holds, ht]⟩
    | some t =>
      obtain ⟨d, hd⟩ := W.closed c F t hF ⟨hty, ht⟩
      refine ⟨some t, by simp [Registry.instCls, (ran_cls W.classes).2 hd], fun T => ?_⟩
      simp [RelDecl.Holds, ht, hty]
  unfold Registry.foreignClass
  cases hty : F.base.ftype with
  | inst => exact key (Or.inl hty)
  | list => exact key (Or.inr hty)
  | _ => exact ⟨none, rfl, fun T => by simp [RelDecl.Holds, hty]⟩

theorem rfield_ok {p : ProgramText} (W : WellDeclared p) {T S : String} {fn fk : Option String} (l : List RelDecl)
    (hl : ∀ G ∈ l, Declares p T G) :
    ∃ r, (ran p).rfield S fn fk l = .ok r ∧
      (∀ G, r = some G → G ∈ l ∧ G.Holds S ∧ rfieldHit fn fk G = true) ∧
      (r = none → ∀ G ∈ l, G.Holds S → rfieldHit fn fk G = false) := by
  induction l with
  | nil => exact ⟨none, rfl, fun G h => by (cases h), fun _ G h => by (cases h)⟩
  | cons G l ih =>
    obtain ⟨c, hc, hcT⟩ := foreignClass_holds W (hl G List.mem_cons_self)
    unfold Registry.rfield
    rw [hc]
    by_cases hh : c = some S ∧ rfieldHit fn fk G = true
    · refine ⟨some G, by simp [hh.1, hh.2], fun G' h => ?_, fun h => by (cases h)⟩
      cases h
      exact ⟨List.mem_cons_self, (hcT S).1 hh.1, hh.2⟩
    · obtain ⟨r, hr, h1, h2⟩ := ih (fun G' h => hl G' (List.mem_cons_of_mem _ h))
      refine ⟨r, ?_, fun G' h => ?_, fun h G' hG' hS => ?_⟩
      · have : (decide (c = some S) && rfieldHit fn fk G) = false := by
          by_cases h1 : c = some S
          · have : rfieldHit fn fk G = false := by
              cases hb : rfieldHit fn fk G with
              | false => rfl
              | true => exact absurd ⟨h1, hb⟩ hh
            simp [this]
          · simp [h1]
        simp only [this]
        exact hr
      · obtain ⟨a, b⟩ := h1 G' h
        exact ⟨List.mem_cons_of_mem _ a, b⟩
      · rcases List.mem_cons.1 hG' with rfl | hG'
        · cases hb : rfieldHit fn fk G' with
          | false => rfl
          | true => exact absurd ⟨(hcT S).2 hS, hb⟩ hh
        · exact h2 h G' hG' hS

theorem declares_name {p : ProgramText} (W : WellDeclared p) {c : String} {F G : RelDecl} (hF : Declares p c F)
    (hG : Declares p c G) (h : F.base.name = G.base.name) : F = G := by
  obtain ⟨d, hd, hF⟩ := hF
  obtain ⟨e, he, hG⟩ := hG
  have : d = e := Option.some.inj (((ran_cls W.classes).2 hd).symm.trans ((ran_cls W.classes).2 he))
  subst this
  exact List.inj_on_of_nodup_map (W.names c d hd) hF hG h

/-! ### Theorems -/

/-- **C56**, lookup: in a properly declared program, looking up the opposite of a field never
raises. Partial, here and below: the program has no two classes that share a `Types` object
(`WellDeclared.own`); with a subclass the claim is false, see `subclass_breaks_links`. -/
theorem opposite_total_partial {p : ProgramText} (W : WellDeclared p) {S : String} {F : RelDecl} (hF : Declares p S F) :
    ∃ r, (ran p).resolve F = .ok r := by
  obtain ⟨c, hc, _⟩ := foreignClass_holds W hF
  unfold Registry.resolve
  split
  · rw [hc]
    cases c with
    | none => exact ⟨_, rfl⟩
    | some T =>
      have hl : ∀ G ∈ (ran p).fields T, Declares p T G := fun G h => (ran_fields W.classes).1 h
      simp only
      split
      · obtain ⟨r, hr, _⟩ := rfield_ok W (S := (ran p).owner F.tid) (fn := none) (fk := some F.base.name) _ hl
        rw [hr]; cases r <;> exact ⟨_, rfl⟩
      · obtain ⟨r, hr, _⟩ := rfield_ok W (S := (ran p).owner F.tid) (fn := F.fkey) (fk := none) _ hl
        rw [hr]; cases r <;> exact ⟨_, rfl⟩
  · exact ⟨_, rfl⟩

/-- **C56**, lookup: the opposite of a field is the field declared as the other end of the
relation, and there is none exactly when no field is declared so. -/
theorem opposite_iff_partial {p : ProgramText} (W : WellDeclared p) {S : String} {F : RelDecl} (hF : Declares p S F) (T n : String) :
    (ran p).resolve F = .ok (some (T, n)) ↔ ∃ G, Declares p T G ∧ G.base.name = n ∧ EndOf S F T G := by
  obtain ⟨c, hc, hcT⟩ := foreignClass_holds W hF
  have ho := ran_owner W hF
  have hl : ∀ T, ∀ G ∈ (ran p).fields T, Declares p T G := fun T G h => (ran_fields W.classes).1 h
  by_cases hs : F.base.store = .localKey
  · have hr : F.base.isRef = true := by simp [Field.isRef, hs]
    unfold Registry.resolve
    simp only [hr, if_true, hc, ho, hs]
    cases c with
    | none =>
      constructor
      · intro h; cases h
      · rintro ⟨G, _, _, hT, _⟩; exact absurd ((hcT T).2 hT) (by simp)
    | some T' =>
      obtain ⟨r, hr, h1, h2⟩ := rfield_ok W (S := S) (fn := none) (fk := some F.base.name) _ (hl T')
      simp only [hr]
      constructor
      · intro h
        cases r with
        | none => cases h
        | some G =>
          injection h with h; injection h with h; injection h with ht hn
          subst ht
          obtain ⟨a, b, e⟩ := h1 G rfl
          refine ⟨G, hl _ G a, hn, (hcT _).1 rfl, b, Or.inl ⟨hs, ?_⟩⟩
          simpa [rfieldHit] using e
      · rintro ⟨G, hG, hn, hT, hGS, hk⟩
        have : T' = T := Option.some.inj ((hcT T).2 hT)
        subst this
        have hk : G.fkey = some F.base.name := by
          rcases hk with hk | hk
          · exact hk.2
          · rw [hs] at hk; cases hk.1
        cases r with
        | none =>
          have := h2 rfl G ((ran_fields W.classes).2 hG) hGS
          simp [rfieldHit, hk] at this
        | some G' =>
          obtain ⟨a, b, e⟩ := h1 G' rfl
          have := W.single T' G' G S F.base.name (hl _ _ a) hG b hGS (by simpa [rfieldHit] using e) hk
          subst this
          simp [foundIn, hn]
  · by_cases hs' : F.base.store = .foreignKey
    · have hr : F.base.isRef = true := by simp [Field.isRef, hs']
      unfold Registry.resolve
      simp only [hr, if_true, hc, ho, hs, if_false]
      cases c with
      | none =>
        constructor
        · intro h; cases h
        · rintro ⟨G, _, _, hT, _⟩; exact absurd ((hcT T).2 hT) (by simp)
      | some T' =>
        obtain ⟨r, hr, h1, h2⟩ := rfield_ok W (S := S) (fn := F.fkey) (fk := none) _ (hl T')
        simp only [hr]
        constructor
        · intro h
          cases r with
          | none => cases h
          | some G =>
            injection h with h; injection h with h; injection h with ht hn
            subst ht
            obtain ⟨a, b, e⟩ := h1 G rfl
            refine ⟨G, hl _ G a, hn, (hcT _).1 rfl, b, Or.inr ⟨hs', ?_⟩⟩
            unfold rfieldHit at e
            cases hk : F.fkey with
            | none => simp [hk] at e
            | some k => simp [hk] at e; rw [e]
        · rintro ⟨G, hG, hn, hT, hGS, hk⟩
          have : T' = T := Option.some.inj ((hcT T).2 hT)
          subst this
          have hk : F.fkey = some G.base.name := by
            rcases hk with hk | hk
            · exact absurd hk.1 hs
            · exact hk.2
          cases r with
          | none =>
            have := h2 rfl G ((ran_fields W.classes).2 hG) hGS
            simp [rfieldHit, hk] at this
          | some G' =>
            obtain ⟨a, b, e⟩ := h1 G' rfl
            have := declares_name W (hl _ _ a) hG (by simpa [rfieldHit, hk] using e)
            subst this
            simp [foundIn, hn]
    · have hr : F.base.isRef = false := by simp [Field.isRef, hs, hs']
      unfold Registry.resolve
      simp only [hr]
      constructor
      · intro h; cases h
      · rintro ⟨G, _, _, _, _, hk⟩
        rcases hk with hk | hk
        · exact absurd hk.1 hs
        · exact absurd hk.1 hs'

/-- In a properly declared program being the other end is mutual. -/
theorem EndOf.symm {p : ProgramText} (W : WellDeclared p) {S T : String} {F G : RelDecl} (hF : Declares p S F)
    (hG : Declares p T G) (h : EndOf S F T G) : EndOf T G S F := by
  obtain ⟨hT, hS, h⟩ := h
  refine ⟨hS, hT, ?_⟩
  rcases h with ⟨_, hk⟩ | ⟨_, hk⟩
  · exact Or.inr ⟨W.keyed T G hG (by simp [hk]), hk⟩
  · rcases W.back S F T G hF hG hT hS hk with h | h
    · exact Or.inl ⟨h, hk⟩
    · exact Or.inr ⟨W.keyed T G hG (by simp [h]), h⟩

/-- **C56**, mutual: when the opposite of `F` is a field `n` of `T`, then `T` declares such a
field, and its opposite is `F`. -/
theorem opposite_mutual_partial {p : ProgramText} (W : WellDeclared p) {S T n : String} {F : RelDecl} (hF : Declares p S F)
    (h : (ran p).resolve F = .ok (some (T, n))) :
    ∃ G, Declares p T G ∧ G.base.name = n ∧ (ran p).resolve G = .ok (some (S, F.base.name)) := by
  obtain ⟨G, hG, hn, hE⟩ := (opposite_iff_partial W hF T n).1 h
  exact ⟨G, hG, hn, (opposite_iff_partial W hG S _).2 ⟨F, hF, rfl, hE.symm W hF hG⟩⟩

theorem ran_classDef {p : ProgramText} (W : WellDeclared p) {c : String} {f : Field} :
    f ∈ ((ran p).classDef c).fields ↔ ∃ F, Declares p c F ∧ f = (ran p).field F := by
  unfold Registry.classDef
  constructor
  · intro h
    split at h
    · next d hd =>
      obtain ⟨F, hF, rfl⟩ := List.mem_map.1 h
      exact ⟨F, ⟨d, (ran_cls W.classes).1 hd, hF⟩, rfl⟩
    · cases h
  · rintro ⟨F, ⟨d, hd, hF⟩, rfl⟩
    rw [(ran_cls W.classes).2 hd]
    exact List.mem_map.2 ⟨F, hF, rfl⟩

theorem find_of_unique {α : Type} {q : α → Bool} {l : List α} {a : α} (ha : a ∈ l) (hq : q a = true)
    (hu : ∀ b ∈ l, q b = true → b = a) : l.find? q = some a := by
  cases h : l.find? q with
  | none => exact absurd hq (by simpa using List.find?_eq_none.1 h a ha)
  | some b => rw [hu b (List.mem_of_find?_eq_some h) (List.find?_some h)]

theorem ran_field? {p : ProgramText} (W : WellDeclared p) {c : String} {F : RelDecl} (hF : Declares p c F) :
    ((ran p).classDef c).field? F.base.name = some ((ran p).field F) := by
  refine find_of_unique ((ran_classDef W).2 ⟨F, hF, rfl⟩) (by simp [Registry.field]) (fun b hb hq => ?_)
  obtain ⟨G, hG, rfl⟩ := (ran_classDef W).1 hb
  have : G = F := declares_name W hG hF (of_decide_eq_true hq)
  rw [this]

theorem ran_localKey? {p : ProgramText} (W : WellDeclared p) {c n : String} {f : Field}
    (h : ((ran p).classDef c).localKey? n = some f) :
    ∃ F, Declares p c F ∧ f = (ran p).field F ∧ F.base.store = .localKey ∧ F.base.refName = n := by
  obtain ⟨F, hF, rfl⟩ := (ran_classDef W).1 (List.mem_of_find?_eq_some h)
  have := List.find?_some h
  have := (Bool.and_eq_true _ _).mp this
  exact ⟨F, hF, rfl, of_decide_eq_true this.1, of_decide_eq_true this.2⟩

/-- **C56**, all relations: properly declared classes satisfy everything that the theorems on
linked objects (C38, C39) ask of the relations of a program. -/
theorem relations_of_declarations_partial {p : ProgramText} (W : WellDeclared p) (K : KeyNames p) (e : Env) :
    Relations ((ran p).toEnv e) where
  opp := by
    rintro g og ⟨⟨c, hc⟩, hr, hf⟩
    have hc : g ∈ ((ran p).classDef c).fields := hc
    obtain ⟨F, hF, rfl⟩ := (ran_classDef W).1 hc
    have hf : (match ((ran p).field F).foreign with
      | some (c, n) => ((ran p).classDef c).field? n
      | none => none) = some og := hf
    obtain ⟨r, hr'⟩ := opposite_total_partial W hF
    have hfor : ((ran p).field F).foreign = r := by simp [Registry.field, hr']
    rw [hfor] at hf
    cases r with
    | none => cases hf
    | some x =>
      obtain ⟨T, n⟩ := x
      obtain ⟨G, hG, hn, hE⟩ := (opposite_iff_partial W hF T n).1 hr'
      have hG' := (opposite_iff_partial W hG c _).2 ⟨F, hF, rfl, hE.symm W hF hG⟩
      simp only at hf
      rw [← hn, ran_field? W hG] at hf
      cases hf
      refine ⟨⟨⟨T, (ran_classDef W).2 ⟨G, hG, rfl⟩⟩, ?_, ?_⟩, ?_⟩
      · have := (hE.symm W hF hG).2.2
        change G.base.isRef = true
        rcases this with h | h <;> simp [Field.isRef, h.1]
      · have hfor : ((ran p).field G).foreign = some (c, F.base.name) := by simp [Registry.field, hG']
        unfold Env.foreignField
        rw [hfor]
        exact ran_field? W hF
      · exact hE.1.1
  uniq := by
    intro c f hf
    obtain ⟨F, hF, rfl⟩ := (ran_classDef W).1 hf
    exact ran_field? W hF
  keys := by
    intro c n f g hl hf
    obtain ⟨F, hF, _, hs, hn⟩ := ran_localKey? W hl
    obtain ⟨G, hG, rfl⟩ := (ran_classDef W).1 (List.mem_of_find?_eq_some hf)
    have := List.find?_some hf
    have hn' : G.base.name = n := of_decide_eq_true this
    exact K.notField c F G hF hG hs (hn.trans hn'.symm)
  keyUniq := by
    intro c f hf hs
    obtain ⟨F, hF, rfl⟩ := (ran_classDef W).1 hf
    have hs : F.base.store = .localKey := hs
    refine find_of_unique hf (by simp [Registry.field, hs]) (fun b hb hq => ?_)
    obtain ⟨G, hG, rfl⟩ := (ran_classDef W).1 hb
    have hq := (Bool.and_eq_true _ _).mp hq
    rw [K.single c G F hG hF (of_decide_eq_true hq.1) hs (of_decide_eq_true hq.2)]
  prim := by
    intro c n hp
    cases h : (((ran p).toEnv e).cls c).localKey? n with
    | none => rfl
    | some f =>
      obtain ⟨F, hF, _, hs, hn⟩ := ran_localKey? W h
      obtain ⟨d, hd, hF⟩ := hF
      have hp : ((ran p).classDef c).primary = some n := hp
      unfold Registry.classDef at hp
      rw [(ran_cls W.classes).2 hd] at hp
      exact absurd (hn ▸ hp) (K.notPrimary c d F hd hF hs)

/-- **C56** with C38: in a properly declared program, after any history of assignments, list
and dict operations, `a` refers to `b` exactly when `b` refers to `a` through the opposite
field. Partial as `links_symmetric_partial` is. -/
theorem declared_links_symmetric_partial {p : ProgramText} (W : WellDeclared p) (K : KeyNames p) (e : Env)
    (ops : List (Nat × FOp)) {w w' : World} (hw : WellLinked ((ran p).toEnv e) w) (hs : Symmetric ((ran p).toEnv e) w)
    (h : History ((ran p).toEnv e) ops w w') {S T : String} {F G : RelDecl} (hF : Declares p S F) (hG : Declares p T G)
    (hE : EndOf S F T G) {a b : Nat} (ha : (w'.heap a).cls = S) (hb : (w'.heap b).cls = T) :
    Refers w' a F.base b ↔ Refers w' b G.base a := by
  have hsym := (links_symmetric_partial (relations_of_declarations_partial W K e) ops hw hs h).2
  have hr := (opposite_iff_partial W hF T _).2 ⟨G, hG, rfl, hE⟩
  have hasF : HasField ((ran p).toEnv e) w' a ((ran p).field F) := by
    unfold HasField World.cdef
    rw [ha]; exact ran_field? W hF
  have hasG : HasField ((ran p).toEnv e) w' b ((ran p).field G) := by
    unfold HasField World.cdef
    rw [hb]; exact ran_field? W hG
  refine hsym a b ((ran p).field F) ((ran p).field G) hasF hasG ⟨⟨S, (ran_classDef W).2 ⟨F, hF, rfl⟩⟩, ?_, ?_⟩
  · change F.base.isRef = true
    rcases hE.2.2 with h | h <;> simp [Field.isRef, h.1]
  · have hfor : ((ran p).field F).foreign = some (T, G.base.name) := by simp [Registry.field, hr]
    unfold Env.foreignField
    rw [hfor]
    exact ran_field? W hG

/-! ### When the lookup happens -/

theorem instCls_eq {reg : Registry} {t u : Option String} (h : reg.instCls t = .ok u) : u = t := by
  cases t with
  | none => injection h with h; exact h.symm
  | some t =>
    unfold Registry.instCls at h
    cases hc : reg.cls t with
    | none => simp [hc] at h
    | some d => simp only [hc] at h; injection h with h; exact h.symm

theorem instCls_defined {reg : Registry} {T : String} (h : reg.instCls (some T) = .ok (some T)) : reg.cls T ≠ none := by
  intro hc
  simp [Registry.instCls, hc] at h

theorem foreignClass_target {reg : Registry} {F : RelDecl} {T : String} (h : reg.foreignClass F = .ok (some T)) :
    F.Holds T ∧ reg.instCls (some T) = .ok (some T) := by
  have key : reg.instCls F.target = .ok (some T) → F.target = some T ∧ reg.instCls (some T) = .ok (some T) := by
    intro h
    have := instCls_eq h
    exact ⟨this.symm, this ▸ h⟩
  unfold Registry.foreignClass at h
  cases hty : F.base.ftype with
  | inst => simp only [hty] at h; exact ⟨⟨Or.inl hty, (key h).1⟩, (key h).2⟩
  | list => simp only [hty] at h; exact ⟨⟨Or.inr hty, (key h).1⟩, (key h).2⟩
  | _ => simp [hty] at h

theorem instCls_later {reg : Registry} {n : String} {d : ClassDecl} {t r : Option String}
    (h : reg.instCls t = .ok r) : (reg.define n d).instCls t = .ok r := by
  cases t with
  | none => exact h
  | some t =>
    unfold Registry.instCls at h ⊢
    cases hc : reg.cls t with
    | none => simp [hc] at h
    | some x =>
      simp only [hc] at h
      by_cases ht : t = n <;> simp [Registry.define, ht, hc, ← h]

theorem foreignClass_later {reg : Registry} {n : String} {d : ClassDecl} {F : RelDecl} {r : Option String}
    (h : reg.foreignClass F = .ok r) : (reg.define n d).foreignClass F = .ok r := by
  unfold Registry.foreignClass at h ⊢
  cases hty : F.base.ftype <;> rw [hty] at h <;> first | exact instCls_later h | exact h

theorem rfield_later {reg : Registry} {n : String} {d : ClassDecl} {S : String} {fn fk : Option String} (l : List RelDecl)
    {r : Option RelDecl} (h : reg.rfield S fn fk l = .ok r) : (reg.define n d).rfield S fn fk l = .ok r := by
  induction l with
  | nil => exact h
  | cons G l ih =>
    unfold Registry.rfield at h ⊢
    cases hc : reg.foreignClass G with
    | error e => simp [hc] at h
    | ok c =>
      rw [foreignClass_later hc]
      simp only [hc] at h
      simp only
      split
      · next hh => rw [if_pos hh] at h; exact h
      · next hh => rw [if_neg hh] at h; exact ih h

/-- **C56**, time: once the opposite of `F` can be looked up, defining another class does not
change the result, provided that class does not share the `Types` object of `F`. So it does
not matter when the first use takes place. -/
theorem resolve_later {reg : Registry} {n : String} {d : ClassDecl} {F : RelDecl} {r : Option (String × String)}
    (hn : reg.cls n = none) (ht : ∀ G ∈ d.fields, G.tid ≠ F.tid) (h : reg.resolve F = .ok r) :
    (reg.define n d).resolve F = .ok r := by
  have ho : (reg.define n d).owner F.tid = reg.owner F.tid := by
    have : d.fields.any (fun f => f.tid = F.tid) = false := by simpa using ht
    simp only [Registry.define, this]
    rfl
  unfold Registry.resolve at h ⊢
  split
  · next hr =>
    rw [if_pos hr] at h
    cases hc : reg.foreignClass F with
    | error e => simp [hc] at h
    | ok c =>
      rw [foreignClass_later hc]
      simp only [hc] at h
      cases c with
      | none => exact h
      | some T =>
        have hT : T ≠ n := by
          rintro rfl
          exact absurd (instCls_defined (foreignClass_target hc).2) (by simp [hn])
        have hfs : (reg.define n d).fields T = reg.fields T := by
          simp [Registry.fields, Registry.define, hT]
        simp only [ho, hfs]
        simp only at h
        split
        · next hs =>
          rw [if_pos hs] at h
          cases hf : reg.rfield (reg.owner F.tid) none (some F.base.name) (reg.fields T) with
          | error e => simp [hf, foundIn] at h
          | ok x => rw [rfield_later _ hf]; rw [hf] at h; exact h
        · next hs =>
          rw [if_neg hs] at h
          cases hf : reg.rfield (reg.owner F.tid) F.fkey none (reg.fields T) with
          | error e => simp [hf, foundIn] at h
          | ok x => rw [rfield_later _ hf]; rw [hf] at h; exact h
  · next hr => rw [if_neg hr] at h; exact h

/-- **C56**, violation: after a class has been defined that shares the `Types` object of `F`
(a subclass, for a field written with `types`), `F` has no opposite field any more, in the
base class and in the subclass, unless some field of `T` holds objects of the subclass. -/
theorem inherited_relation_lost {reg : Registry} {n T : String} {d : ClassDecl} {F : RelDecl}
    (ht : ∃ G ∈ d.fields, G.tid = F.tid) (hT : F.Holds T)
    (hn : ∀ G ∈ (reg.define n d).fields T, ¬ G.Holds n) {r : Option (String × String)}
    (h : (reg.define n d).resolve F = .ok r) : r = none := by
  have ho : (reg.define n d).owner F.tid = n := by
    obtain ⟨G, hG, hGt⟩ := ht
    have : d.fields.any (fun f => f.tid = F.tid) = true := List.any_eq_true.2 ⟨G, hG, by simpa using hGt⟩
    simp only [Registry.define, this]
    rfl
  have hno : ∀ fn fk l x, (∀ G ∈ l, ¬ G.Holds n) → (reg.define n d).rfield n fn fk l = .ok x → x = none := by
    intro fn fk l
    induction l with
    | nil => intro x _ h; injection h with h; exact h.symm
    | cons G l ih =>
      intro x hl h
      unfold Registry.rfield at h
      cases hc : (reg.define n d).foreignClass G with
      | error e => simp [hc] at h
      | ok c =>
        simp only [hc] at h
        have : c ≠ some n := by
          rintro rfl
          refine hl G List.mem_cons_self ?_
          exact (foreignClass_target hc).1
        simp only [this, decide_false, Bool.false_and] at h
        exact ih x (fun G' h' => hl G' (List.mem_cons_of_mem _ h')) h
  unfold Registry.resolve at h
  split at h
  · have hc : (reg.define n d).foreignClass F = (reg.define n d).instCls (some T) := by
      unfold Registry.foreignClass
      rcases hT.1 with h | h <;> rw [h, hT.2]
    rw [hc] at h
    cases hi : (reg.define n d).instCls (some T) with
    | error e => simp [hi] at h
    | ok c =>
      have := instCls_eq hi
      subst this
      simp only [hi, ho] at h
      split at h
      · cases hf : (reg.define n d).rfield n none (some F.base.name) ((reg.define n d).fields T) with
        | error e => simp [hf, foundIn] at h
        | ok x => have := hno _ _ _ _ hn hf; subst this; rw [hf] at h; injection h with h; exact h.symm
      · cases hf : (reg.define n d).rfield n F.fkey none ((reg.define n d).fields T) with
        | error e => simp [hf, foundIn] at h
        | ok x => have := hno _ _ _ _ hn hf; subst this; rw [hf] at h; injection h with h; exact h.symm
  · injection h with h; exact h.symm

end JC

/-! ### The demo program, written as declarations -/
namespace JC.RelationDemo
open JC
open JC.Demo (user post fId fName fSecret fTmp fFriend fPosts fAuthor)
open JC.SymDemo (refs okRun okRun_eq)

def dId : RelDecl := { base := fId, tid := 0 }
def dName : RelDecl := { base := fName, tid := 1 }
def dSecret : RelDecl := { base := fSecret, tid := 2 }
def dTmp : RelDecl := { base := fTmp, tid := 3 }
/-- `friend: User = types.instanceof('User').linkedby('friend')` -/
def dFriend : RelDecl := { base := { fFriend with foreign := none }, target := some "User", fkey := some "friend", tid := 4 }
/-- `posts: list[Post] = types.listof('Post').linkedby('author')` -/
def dPosts : RelDecl := { base := { fPosts with foreign := none }, target := some "Post", fkey := some "author", tid := 5 }
def eId : RelDecl := { base := fId, tid := 6 }
def eName : RelDecl := { base := fName, tid := 7 }
/-- `author: User = types.instanceof('User').linkto` -/
def dAuthor : RelDecl := { base := { fAuthor with foreign := none }, target := some "User", tid := 8 }

def cUser : ClassDecl := { conf := { primary := some "id" }, fields := [dId, dName, dSecret, dTmp, dFriend, dPosts] }
def cPost : ClassDecl := { conf := { primary := some "id" }, fields := [eId, eName, dAuthor] }

def prog : ProgramText := [("User", cUser), ("Post", cPost)]

theorem declares_cases {c : String} {F : RelDecl} (h : Declares prog c F) :
    (c = "User" ∧ (F = dId ∨ F = dName ∨ F = dSecret ∨ F = dTmp ∨ F = dFriend ∨ F = dPosts)) ∨
    (c = "Post" ∧ (F = eId ∨ F = eName ∨ F = dAuthor)) := by
  obtain ⟨d, hd, hF⟩ := h
  simp only [prog, List.mem_cons, List.not_mem_nil, or_false, Prod.mk.injEq] at hd
  rcases hd with ⟨rfl, rfl⟩ | ⟨rfl, rfl⟩
  · exact .inl ⟨rfl, by simpa [cUser] using hF⟩
  · exact .inr ⟨rfl, by simpa [cPost] using hF⟩

/-- the fields that name an opposite field -/
theorem fkey_cases {c : String} {F : RelDecl} (h : Declares prog c F) (hk : F.fkey ≠ none) :
    c = "User" ∧ (F = dFriend ∨ F = dPosts) := by
  rcases declares_cases h with ⟨rfl, hm⟩ | ⟨rfl, hm⟩
  · rcases hm with rfl | rfl | rfl | rfl | rfl | rfl
    · exact absurd rfl hk
    · exact absurd rfl hk
    · exact absurd rfl hk
    · exact absurd rfl hk
    · exact ⟨rfl, .inl rfl⟩
    · exact ⟨rfl, .inr rfl⟩
  · rcases hm with rfl | rfl | rfl <;> exact absurd rfl hk

theorem wellDeclared : WellDeclared prog where
  classes := by decide
  names := by
    intro c d h
    simp only [prog, List.mem_cons, List.not_mem_nil, or_false, Prod.mk.injEq] at h
    rcases h with ⟨rfl, rfl⟩ | ⟨rfl, rfl⟩ <;> decide
  own := by
    intro c F c' F' h h' ht
    rcases declares_cases h with ⟨rfl, hm⟩ | ⟨rfl, hm⟩ <;> rcases declares_cases h' with ⟨rfl, hm'⟩ | ⟨rfl, hm'⟩
    · rfl
    · exfalso
      rcases hm with rfl | rfl | rfl | rfl | rfl | rfl <;> rcases hm' with rfl | rfl | rfl <;> exact absurd ht (by decide)
    · exfalso
      rcases hm with rfl | rfl | rfl <;> rcases hm' with rfl | rfl | rfl | rfl | rfl | rfl <;> exact absurd ht (by decide)
    · rfl
  closed := by
    intro c F T h hT
    have ht : F.target = some T := hT.2
    rcases declares_cases h with ⟨_, hm⟩ | ⟨_, hm⟩
    · rcases hm with rfl | rfl | rfl | rfl | rfl | rfl <;> cases ht
      · exact ⟨cUser, by simp [prog]⟩
      · exact ⟨cPost, by simp [prog]⟩
    · rcases hm with rfl | rfl | rfl <;> cases ht
      exact ⟨cUser, by simp [prog]⟩
  keyed := by
    intro c F h hk
    rcases (fkey_cases h hk).2 with rfl | rfl <;> rfl
  back := by
    intro S F T G hF hG hT hS hk
    have hT : F.target = some T := hT.2
    obtain ⟨rfl, hF' | hF'⟩ := fkey_cases hF (by simp [hk])
    · subst hF'
      have hT : some "User" = some T := hT
      cases hT
      have hk : "friend" = G.base.name := Option.some.inj hk
      rcases declares_cases hG with ⟨_, h⟩ | ⟨h, _⟩
      · rcases h with rfl | rfl | rfl | rfl | rfl | rfl
        · exact absurd hk (by decide)
        · exact absurd hk (by decide)
        · exact absurd hk (by decide)
        · exact absurd hk (by decide)
        · exact .inr rfl
        · exact absurd hk (by decide)
      · exact absurd h (by decide)
    · subst hF'
      have hT : some "Post" = some T := hT
      cases hT
      have hk : "author" = G.base.name := Option.some.inj hk
      rcases declares_cases hG with ⟨h, _⟩ | ⟨_, h⟩
      · exact absurd h (by decide)
      · rcases h with rfl | rfl | rfl
        · exact absurd hk (by decide)
        · exact absurd hk (by decide)
        · exact .inl rfl
  single := by
    intro c F F' T k hF hF' _ _ hk hk'
    obtain ⟨_, h⟩ := fkey_cases hF (by simp [hk])
    obtain ⟨_, h'⟩ := fkey_cases hF' (by simp [hk'])
    have hkk := hk.trans hk'.symm
    rcases h with rfl | rfl <;> rcases h' with rfl | rfl
    · rfl
    · exact absurd hkk (by decide)
    · exact absurd hkk (by decide)
    · rfl

theorem local_cases {c : String} {F : RelDecl} (h : Declares prog c F) (hs : F.base.store = .localKey) :
    c = "Post" ∧ F = dAuthor := by
  rcases declares_cases h with ⟨rfl, hm⟩ | ⟨rfl, hm⟩
  · rcases hm with rfl | rfl | rfl | rfl | rfl | rfl <;> exact absurd hs (by decide)
  · rcases hm with rfl | rfl | rfl
    · exact absurd hs (by decide)
    · exact absurd hs (by decide)
    · exact ⟨rfl, rfl⟩

theorem keyNames : KeyNames prog where
  notField := by
    intro c F G hF hG hs hn
    obtain ⟨rfl, rfl⟩ := local_cases hF hs
    rcases declares_cases hG with ⟨h, _⟩ | ⟨_, h⟩
    · exact absurd h (by decide)
    · rcases h with rfl | rfl | rfl <;> exact absurd hn (by decide)
  notPrimary := by
    intro c d F hd hF hs
    obtain ⟨rfl, rfl⟩ := local_cases ⟨d, hd, hF⟩ hs
    simp only [prog, List.mem_cons, List.not_mem_nil, or_false, Prod.mk.injEq] at hd
    rcases hd with ⟨h, _⟩ | ⟨_, rfl⟩
    · exact absurd h (by decide)
    · decide
  single := by
    intro c F G hF hG hs hs' _
    rw [(local_cases hF hs).2, (local_cases hG hs').2]

theorem declares_posts : Declares prog "User" dPosts := ⟨cUser, by simp [prog], by simp [cUser]⟩
theorem declares_author : Declares prog "Post" dAuthor := ⟨cPost, by simp [prog], by simp [cPost]⟩
theorem declares_friend : Declares prog "User" dFriend := ⟨cUser, by simp [prog], by simp [cUser]⟩
theorem posts_author : EndOf "User" dPosts "Post" dAuthor :=
  ⟨⟨.inr rfl, rfl⟩, ⟨.inl rfl, rfl⟩, .inr ⟨rfl, rfl⟩⟩

/-- The hypotheses of `opposite_iff_partial`, `opposite_mutual_partial` and `opposite_total_partial` are met by `User.posts`,
`Post.author` and `User.friend`. -/
example : (ran prog).resolve dPosts = .ok (some ("Post", "author")) ∧
    (∃ G, Declares prog "User" G ∧ G.base.name = "posts" ∧ (ran prog).resolve G = .ok (some ("Post", "author"))) ∧
    (ran prog).resolve dFriend = .ok (some ("User", "friend")) :=
  ⟨(opposite_iff_partial wellDeclared declares_posts _ _).2 ⟨dAuthor, declares_author, rfl, posts_author⟩,
    opposite_mutual_partial wellDeclared declares_author (n := "posts") rfl, rfl⟩

/-- The declarations give the demo program of C38. -/
theorem demo_env : (ran prog).toEnv Demo.env = Demo.env := by
  unfold Registry.toEnv
  have : (ran prog).classDef = Demo.env.cls := by
    funext c
    by_cases h1 : c = "User"
    · subst h1; rfl
    · by_cases h2 : c = "Post"
      · subst h2; rfl
      · have : (ran prog).cls c = none := by
          rw [ran, defineAll_cls_of_not]
          simp [prog, h1, h2]
        simp [Registry.classDef, this, Demo.env, h1, h2]
  rw [this]

/-- The hypotheses of `relations_of_declarations_partial` and `declared_links_symmetric_partial` are met
by this program and the history of C38; at its end post 4 is user 0's. -/
example : (Refers SymDemo.w5 0 dPosts.base 4 ↔ Refers SymDemo.w5 4 dAuthor.base 0) ∧
    Refers SymDemo.w5 4 dAuthor.base 0 :=
  ⟨declared_links_symmetric_partial wellDeclared keyNames Demo.env
      [(1, SymDemo.op1), (1, SymDemo.op2), (4, SymDemo.op3), (0, SymDemo.op4), (0, SymDemo.op5)]
      (by rw [demo_env]; exact SymDemo.start_linked) (by rw [demo_env]; exact SymDemo.start_symmetric)
      (by rw [demo_env]; exact SymDemo.hist) declares_posts declares_author posts_author
      (by decide +kernel) (by decide +kernel), by unfold Refers; decide +kernel⟩

/-- The hypotheses of `resolve_later` are met by a class that is defined after `User.posts` was
used. -/
example : ((ran prog).define "Tag" { fields := [{ base := fName, tid := 9 }] }).resolve dPosts =
    .ok (some ("Post", "author")) :=
  resolve_later (by rw [ran, defineAll_cls_of_not _ _ (by decide)])
    (fun G h => by cases List.mem_singleton.1 h; decide) rfl

/-- `class Admin(User)` with one more field -/
def cAdmin : ClassDecl := { cUser with fields := cUser.fields ++ [{ base := { name := "rank", jsonName := "rank" }, tid := 9 }] }

/-- The hypotheses of `inherited_relation_lost` are met by `User.posts` after `Admin` is defined. -/
example : ((ran prog).define "Admin" cAdmin).resolve dPosts = .ok none := by
  obtain ⟨r, hr⟩ : ∃ r, ((ran prog).define "Admin" cAdmin).resolve dPosts = .ok r := ⟨_, rfl⟩
  have hp : ((ran prog).define "Admin" cAdmin).fields "Post" = [eId, eName, dAuthor] := rfl
  have := inherited_relation_lost (T := "Post") ⟨dPosts, by simp [cAdmin, cUser], rfl⟩ ⟨.inr rfl, rfl⟩
    (fun G hG hn => by
      rw [hp] at hG
      have hn : G.target = some "Admin" := hn.2
      simp only [List.mem_cons, List.not_mem_nil, or_false] at hG
      rcases hG with rfl | rfl | rfl <;> exact absurd hn (by decide)) hr
  rw [hr, this]

/-- the program with `Admin` -/
def progA : ProgramText := prog ++ [("Admin", cAdmin)]

def envA : Env := (ran progA).toEnv Demo.env

/-- `user1.posts = [post4]` -/
def afterA : World := (setAttr envA 1 "posts" (.list [.obj 4]) SymDemo.start).2

/-- the same without `Admin` -/
def afterB : World := (setAttr Demo.env 1 "posts" (.list [.obj 4]) SymDemo.start).2

end JC.RelationDemo

namespace JC
open JC.RelationDemo

/-- **C56**, violation: `User.posts` and `Post.author` are declared as the two ends of a relation,
and `Admin` is a subclass of `User`. Then `user.posts = [post]` completes and leaves
`post.author` empty, while without `Admin` the post refers to the user. -/
theorem subclass_breaks_links : ∃ p q S F T G w wp wq, q = p ++ [("Admin", cAdmin)] ∧ Declares p S F ∧ Declares p T G ∧
    EndOf S F T G ∧ WellDeclared p ∧
    setAttr ((ran p).toEnv Demo.env) 1 F.base.name (.list [.obj 4]) w = (.ok (), wp) ∧
    setAttr ((ran q).toEnv Demo.env) 1 F.base.name (.list [.obj 4]) w = (.ok (), wq) ∧
    Refers wp 1 F.base 4 ∧ Refers wp 4 G.base 1 ∧ Refers wq 1 F.base 4 ∧ ¬ Refers wq 4 G.base 1 := by
  refine ⟨prog, progA, "User", dPosts, "Post", dAuthor, SymDemo.start, afterB, afterA, rfl, declares_posts, declares_author,
    posts_author, wellDeclared, ?_, SymDemo.okRun_eq (by decide +kernel), ?_⟩
  · rw [demo_env]
    exact SymDemo.okRun_eq (by decide +kernel)
  · unfold Refers
    decide +kernel

/-- **C56**, limit: when two fields of a class are linked by the same field, both have it as
their opposite, but it has only the first as its own. -/
theorem ambiguous_relation_one_sided : ∃ p S F F' T G, Declares p S F ∧ Declares p S F' ∧ Declares p T G ∧
    EndOf S F T G ∧ EndOf S F' T G ∧ F.base.name ≠ F'.base.name ∧
    (ran p).resolve F = .ok (some (T, G.base.name)) ∧ (ran p).resolve F' = .ok (some (T, G.base.name)) ∧
    (ran p).resolve G = .ok (some (S, F.base.name)) :=
  let F' : RelDecl := { dPosts with base := { dPosts.base with name := "drafts" }, tid := 9 }
  ⟨[("User", { fields := [dPosts, F'] }), ("Post", cPost)], "User", dPosts, F', "Post", dAuthor,
    ⟨{ fields := [dPosts, F'] }, by simp, by simp⟩, ⟨{ fields := [dPosts, F'] }, by simp, by simp⟩, ⟨cPost, by simp, by simp [cPost]⟩,
    posts_author, ⟨⟨.inr rfl, rfl⟩, ⟨.inl rfl, rfl⟩, .inr ⟨rfl, rfl⟩⟩, by decide, rfl, rfl, rfl⟩

end JC
