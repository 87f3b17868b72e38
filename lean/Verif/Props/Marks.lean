import Verif.Model.Marks

/-
C62: a declaration means what its own row of marks says, whatever else the program declares.

The specification (`Row`, `IsLast`, `Decided`, `Describes`, `Table`) speaks about the methods
called on `types` in the source text. The tables from method to rule (`writeMark`, …) list the
documented meaning of each method.
-/
namespace JC

/-! ### Specification -/

/-- the `types.…` calls of a program, in order; the `k`-th makes `Types` number `k + 1`
(number 0 is `types` itself) -/
def derivs : List TCmd → List (Nat × Meth)
  | [] => []
  | .derive i m :: cs => (i, m) :: derivs cs
  | _ :: cs => derivs cs

/-- the number of classes a program defines -/
def classCount : List TCmd → Nat
  | [] => 0
  | .cls _ _ :: cs => classCount cs + 1
  | _ :: cs => classCount cs

/-- the row of methods that led to `Types` number `i` -/
inductive Row (ds : List (Nat × Meth)) : Nat → List Meth → Prop
  | root : Row ds 0 []
  | step (k i : Nat) (m : Meth) (ms : List Meth) : ds[k]? = some (i, m) → Row ds i ms →
      Row ds (k + 1) (ms ++ [m])

/-- `Types` number `j` is `Types` number `i` or one it was made from -/
inductive MadeFrom (ds : List (Nat × Meth)) (j : Nat) : Nat → Prop
  | self : MadeFrom ds j j
  | step (k i : Nat) (m : Meth) : ds[k]? = some (i, m) → MadeFrom ds j i → MadeFrom ds j (k + 1)

/-- the last method that has something to say says `a` -/
def IsLast {α : Type} (says : Meth → Option α) (ms : List Meth) (a : α) : Prop :=
  ∃ pre m post, ms = pre ++ m :: post ∧ says m = some a ∧ ∀ x ∈ post, says x = none

/-- no method has something to say -/
def Silent {α : Type} (says : Meth → Option α) (ms : List Meth) : Prop := ∀ x ∈ ms, says x = none

/-- the last method that says something decides, else the default holds -/
def Decided {α : Type} (says : Meth → Option α) (dflt : α) (ms : List Meth) (a : α) : Prop :=
  IsLast says ms a ∨ (Silent says ms ∧ a = dflt)

/-- the same for a value that may be missing -/
def LastSaid {α : Type} (says : Meth → Option α) (ms : List Meth) : Option α → Prop
  | some a => IsLast says ms a
  | none => Silent says ms

/-- who may write -/
def writeMark : Meth → Option WriteRule
  | .one .readonly => some .noWrite
  | .internal => some .noWrite
  | .one .readwrite => some .unlimited
  | .one .writeonce => some .writeOnce
  | .one .writenonnull => some .writeNonnull
  | _ => none

/-- is the field left out of the output -/
def hideMark : Meth → Option Bool
  | .one .writeonly => some true
  | .internal => some true
  | .one .readwrite => some false
  | _ => none

/-- how the field is stored -/
def storeMark : Meth → Option Store
  | .one .embedded => some .embedded
  | .one .temp => some .temp
  | .one (.getter _) => some .calculated
  | .one (.setter _) => some .calculated
  | .one .linkto => some .localKey
  | .one (.linkedby _) => some .foreignKey
  | .one (.linkedthru _) => some .foreignKey
  | .one (.linkedin _) => some .foreignKey
  | _ => none

/-- the methods that declare a relation -/
def linkMark : Meth → Bool
  | .one .linkto => true
  | .one (.linkedby _) => true
  | .one (.linkedthru _) => true
  | .one (.linkedin _) => true
  | _ => false

/-- what happens to the linked objects on deletion -/
def deleteMark : Meth → Option DeleteRule
  | .one .nullify => some .nullify
  | .one .cascade => some .cascade
  | .one .deny => some .deny
  | _ => none

/-- the type of the value -/
def typeMark : Meth → Option FKind
  | .one (.scalar k) => some k
  | .one (.enum _) => some .enum
  | .one (.listof _) => some .list
  | .one (.dictof _) => some .dict
  | .one (.union _) => some .union
  | .one (.objof _) => some .inst
  | _ => none

/-- the class of the object -/
def objMark : Meth → Option String
  | .one (.objof c) => some c
  | _ => none

/-- how an enum is written to JSON -/
def outMark : Meth → Option EnumOut
  | .one .outputname => some .name
  | .one .outputvalue => some .value
  | .one .outputlname => some .lname
  | _ => none

def isEnum : Meth → Bool
  | .one (.enum _) => true
  | _ => false

/-- the field on the other side -/
def keyMark : Meth → Option String
  | .one (.linkedby k) => some k
  | .one (.linkedthru k) => some k
  | _ => none

def joinMark : Meth → Option Bool
  | .one (.linkedby _) => some false
  | .one (.linkedthru _) => some true
  | .one (.linkedin _) => some true
  | _ => none

def joinClassMark : Meth → Option Nat
  | .one (.linkedin c) => some c
  | _ => none

def referrerMark : Meth → Option String
  | .one (.referrer k) => some k
  | _ => none

def refereeMark : Meth → Option String
  | .one (.referee k) => some k
  | _ => none

def getterMark : Meth → Option Nat
  | .one (.getter f) => some f
  | _ => none

def setterMark : Meth → Option Nat
  | .one (.setter f) => some f
  | _ => none

def queryMark : Meth → Option Bool
  | .one .queryable => some true
  | .one .unqueryable => some false
  | _ => none

def asopMark : Meth → Option Nat
  | .one (.asop f) => some f
  | _ => none

def authbyMark : Meth → Option Nat
  | .one (.authby c) => some c
  | _ => none

def subMark : Meth → Option FSub
  | .one .mongoid => some .mongoid
  | .one (.uploader _) => some .file
  | .uploader _ => some .file
  | _ => none

/-- the name of a compound index, if the method declares one -/
def compound (unique : Bool) : Meth → Option String
  | .one (.index u (some n)) => if u = unique ∧ n ≠ "" then some n else none
  | _ => none

/-- a single index: no name, or an empty one -/
def single (unique : Bool) : Meth → Bool
  | .one (.index u none) => u == unique
  | .one (.index u (some n)) => u == unique && n == ""
  | _ => false

/-- `t.unique`, `t.cunique('')` -/
abbrev isUnique : Meth → Bool := single true

/-- `t.required`, `t.present` -/
def isRequired : Meth → Bool
  | .one .required => true
  | .one .present => true
  | _ => false

/-- `t.asop(…)`, `t.asopd` -/
def isAsop : Meth → Bool
  | .one (.asop _) => true
  | .one .asopd => true
  | _ => false

def isAuthby : Meth → Bool
  | .one (.authby _) => true
  | _ => false

/-- the methods that make the pipeline eager: all transforms -/
def isEager : Meth → Bool
  | .one .eager => true
  | .transform _ => true
  | .uploader _ => true
  | _ => false

/-- the methods that make the old value be remembered -/
def isTracked : Meth → Bool
  | .one .reset => true
  | .primary => true
  | .tracked _ => true
  | _ => false

/-- the methods that act when the object is saved -/
def isOnSave : Meth → Bool
  | .one .preserialize => true
  | .setonsave _ => true
  | .fsetonsave _ => true
  | .tsupdated => true
  | _ => false

def isForced : Meth → Bool
  | .one (.fsetonsave _) => true
  | .fsetonsave _ => true
  | _ => false

/-- the delete rule: the last one named, else `nullify` for a relation -/
def DeleteIs (ms : List Meth) (r : Option DeleteRule) : Prop :=
  (∃ a, IsLast deleteMark ms a ∧ r = some a) ∨
  (Silent deleteMark ms ∧ ((∃ m ∈ ms, linkMark m = true) ∧ r = some .nullify ∨
    (∀ m ∈ ms, linkMark m = false) ∧ r = none))

/-- the output form: the last one named, else the name for an enum -/
def OutputIs (ms : List Meth) (o : Option EnumOut) : Prop :=
  (∃ a, IsLast outMark ms a ∧ o = some a) ∨
  (Silent outMark ms ∧ ((∃ m ∈ ms, isEnum m = true) ∧ o = some .name ∨
    (∀ m ∈ ms, isEnum m = false) ∧ o = none))

/-- The definition says what the row of methods says. -/
structure Describes (ms : List Meth) (d : FDef) : Prop where
  write : Decided writeMark .unlimited ms d.writeRule
  hide : Decided hideMark false ms d.noRead
  store : Decided storeMark .embedded ms d.store
  delete : DeleteIs ms d.deleteRule
  type : LastSaid typeMark ms d.ftype
  subtype : LastSaid subMark ms d.fsubtype
  object : LastSaid objMark ms d.rawInst
  output : OutputIs ms d.enumOutput
  key : LastSaid keyMark ms d.foreignKey
  join : LastSaid joinMark ms d.useJoin
  joinClass : LastSaid joinClassMark ms d.joinCls
  referrer : LastSaid referrerMark ms d.referrerKey
  referee : LastSaid refereeMark ms d.refereeKey
  getter : LastSaid getterMark ms d.getter
  setter : LastSaid setterMark ms d.setter
  query : LastSaid queryMark ms d.queryable
  asop : LastSaid asopMark ms d.opTransformer
  checker : LastSaid authbyMark ms d.authChecker
  cuniques : d.cuniqueNames = ms.filterMap (compound true)
  cindexes : d.cindexNames = ms.filterMap (compound false)
  cunique : d.cunique = true ↔ ∃ m ∈ ms, (compound true m).isSome = true
  cindex : d.cindex = true ↔ ∃ m ∈ ms, (compound false m).isSome = true
  unique : d.unique = true ↔ ∃ m ∈ ms, isUnique m = true
  index : d.index = true ↔ ∃ m ∈ ms, single false m = true
  primary : d.primary = true ↔ .primary ∈ ms ∨ .one .primary ∈ ms
  required : d.required = true ↔ ∃ m ∈ ms, isRequired m = true
  strict : d.strict = true ↔ .one .strict ∈ ms
  nocopy : d.nocopy = true ↔ .one .nocopy ∈ ms
  nonnull : d.collNull = .nonnull ↔ .one .nonnull ∈ ms
  nullable : d.itemNull = .nullable ↔ .one .nullable ∈ ms
  operator : d.opAssign = true ↔ ∃ m ∈ ms, isAsop m = true
  identity : d.authIdentity = true ↔ .one .authidentity ∈ ms
  authby : d.authBy = true ↔ ∃ m ∈ ms, isAuthby m = true
  forced : d.forceSetOnSave = true ↔ ∃ m ∈ ms, isForced m = true
  eager : d.hasEager = true ↔ ∃ m ∈ ms, isEager m = true
  tracked : d.hasReset = true ↔ ∃ m ∈ ms, isTracked m = true
  onSave : d.hasPre = true ↔ ∃ m ∈ ms, isOnSave m = true

/-- The names of exactly the fields whose own marks satisfy `p`, in order of declaration. -/
def Table (ds : List (Nat × Meth)) (fs : List (String × Nat)) (p : List Meth → Prop)
    (names : List String) : Prop :=
  ∃ keep : String × Nat → Bool, names = (fs.filter keep).map Prod.fst ∧
    ∀ f ∈ fs, keep f = true ↔ ∃ ms, Row ds f.2 ms ∧ p ms

/-- The last field of the class that is marked primary. -/
def PrimaryIs (ds : List (Nat × Meth)) (fs : List (String × Nat)) (r : Option String) : Prop :=
  let isP := fun f : String × Nat => ∃ ms, Row ds f.2 ms ∧ (Meth.primary ∈ ms ∨ .one .primary ∈ ms)
  (∃ pre n i post, fs = pre ++ (n, i) :: post ∧ isP (n, i) ∧ (∀ f ∈ post, ¬ isP f) ∧ r = some n) ∨
  ((∀ f ∈ fs, ¬ isP f) ∧ r = none)

/-! ### Folding the methods -/

/-- all the modifiers of a method -/
def Meth.apply (m : Meth) (d : FDef) : FDef := m.mods.foldl (fun d m => m.define d) d

theorem Silent.nil {α} (says : Meth → Option α) : Silent says [] := fun _ h => nomatch h

theorem isLast_snoc_some {α} {says : Meth → Option α} {ms : List Meth} {m : Meth} {a : α}
    (h : says m = some a) : IsLast says (ms ++ [m]) a :=
  ⟨ms, m, [], rfl, h, fun _ h => nomatch h⟩

theorem isLast_snoc_none {α} {says : Meth → Option α} {ms : List Meth} {m : Meth} {a : α}
    (h : says m = none) (hl : IsLast says ms a) : IsLast says (ms ++ [m]) a := by
  obtain ⟨pre, x, post, rfl, hx, hp⟩ := hl
  refine ⟨pre, x, post ++ [m], by simp, hx, fun y hy => ?_⟩
  rcases List.mem_append.1 hy with hy | hy
  · exact hp y hy
  · rw [List.mem_singleton.1 hy]; exact h

theorem silent_snoc {α} {says : Meth → Option α} {ms : List Meth} {m : Meth}
    (h : says m = none) (hl : Silent says ms) : Silent says (ms ++ [m]) := fun y hy => by
  rcases List.mem_append.1 hy with hy | hy
  · exact hl y hy
  · rw [List.mem_singleton.1 hy]; exact h

/-- `IsLast` holds of one value only, and not of a silent row -/
theorem isLast_unique {α} {says : Meth → Option α} {ms : List Meth} {a b : α}
    (ha : IsLast says ms a) (hb : IsLast says ms b) : a = b := by
  obtain ⟨p, m, q, e, hm, hq⟩ := ha
  obtain ⟨p', m', q', e', hm', hq'⟩ := hb
  rw [e] at e'
  rcases List.append_eq_append_iff.1 e' with ⟨x, h1, h2⟩ | ⟨x, h1, h2⟩
  · cases x with
    | nil => simp only [List.nil_append, List.cons.injEq] at h2; rw [h2.1, hm'] at hm; injection hm with hm; exact hm.symm
    | cons y ys =>
      simp only [List.cons_append, List.cons.injEq] at h2
      have := hq m' (by rw [h2.2]; simp)
      rw [this] at hm'; cases hm'
  · cases x with
    | nil => simp only [List.nil_append, List.cons.injEq] at h2; rw [h2.1, hm] at hm'; injection hm' with hm'
    | cons y ys =>
      simp only [List.cons_append, List.cons.injEq] at h2
      have := hq' m (by rw [h2.2]; simp)
      rw [this] at hm; cases hm

theorem isLast_not_silent {α} {says : Meth → Option α} {ms : List Meth} {a : α}
    (ha : IsLast says ms a) (hs : Silent says ms) : False := by
  obtain ⟨p, m, q, rfl, hm, _⟩ := ha
  have := hs m (by simp)
  rw [this] at hm; cases hm

/-- at most one value is decided -/
theorem decided_unique {α} {says : Meth → Option α} {dflt : α} {ms : List Meth} {a b : α}
    (ha : Decided says dflt ms a) (hb : Decided says dflt ms b) : a = b := by
  rcases ha with ha | ⟨ha, rfl⟩ <;> rcases hb with hb | ⟨hb, rfl⟩
  · exact isLast_unique ha hb
  · exact (isLast_not_silent ha hb).elim
  · exact (isLast_not_silent hb ha).elim
  · rfl

/-- induction from the end of a row -/
theorem snocInd {α : Type} {P : List α → Prop} (nil : P []) (snoc : ∀ l a, P l → P (l ++ [a])) :
    ∀ l, P l := by
  intro l
  rw [← List.reverse_reverse l]
  induction l.reverse with
  | nil => exact nil
  | cons a l ih => rw [List.reverse_cons]; exact snoc _ _ ih

/-- all the methods of a row -/
def applyAll (ms : List Meth) (d : FDef) : FDef := ms.foldl (fun d m => m.apply d) d

theorem applyAll_snoc (ms : List Meth) (m : Meth) (d : FDef) :
    applyAll (ms ++ [m]) d = m.apply (applyAll ms d) := by simp [applyAll]

theorem decided_of {α} (says : Meth → Option α) (proj : FDef → α)
    (h : ∀ m d, proj (m.apply d) = (says m).getD (proj d)) (ms : List Meth) :
    Decided says (proj {}) ms (proj (applyAll ms {})) := by
  induction ms using snocInd with
  | nil => exact .inr ⟨Silent.nil _, rfl⟩
  | snoc ms m ih =>
    rw [applyAll_snoc, h]
    cases e : says m with
    | some a => exact .inl (isLast_snoc_some e)
    | none => rcases ih with ih | ⟨ih, e2⟩
              · exact .inl (isLast_snoc_none e ih)
              · exact .inr ⟨silent_snoc e ih, e2⟩

theorem lastSaid_of {α} (says : Meth → Option α) (proj : FDef → Option α) (h0 : proj {} = none)
    (h : ∀ m d, proj (m.apply d) = (says m).or (proj d)) (ms : List Meth) :
    LastSaid says ms (proj (applyAll ms {})) := by
  induction ms using snocInd with
  | nil => change LastSaid says [] (proj {}); rw [h0]; exact Silent.nil _
  | snoc ms m ih =>
    rw [applyAll_snoc, h]
    cases e : says m with
    | some a => exact isLast_snoc_some e
    | none =>
      rw [Option.none_or]
      revert ih
      cases proj (applyAll ms {}) with
      | some a => exact isLast_snoc_none e
      | none => exact silent_snoc e

theorem flag_of (is : Meth → Bool) (proj : FDef → Bool) (h0 : proj {} = false)
    (h : ∀ m d, proj (m.apply d) = (is m || proj d)) (ms : List Meth) :
    proj (applyAll ms {}) = true ↔ ∃ m ∈ ms, is m = true := by
  induction ms using snocInd with
  | nil => change proj {} = true ↔ _; rw [h0]; simp
  | snoc ms m ih =>
    rw [applyAll_snoc, h, Bool.or_eq_true, ih]
    constructor
    · rintro (h | ⟨x, hx, h⟩)
      · exact ⟨m, by simp, h⟩
      · exact ⟨x, by simp [hx], h⟩
    · rintro ⟨x, hx, h⟩
      rcases List.mem_append.1 hx with hx | hx
      · exact .inr ⟨x, hx, h⟩
      · rw [List.mem_singleton.1 hx] at h; exact .inl h

theorem names_of (says : Meth → Option String) (proj : FDef → List String) (h0 : proj {} = [])
    (h : ∀ m d, proj (m.apply d) = proj d ++ (says m).toList) (ms : List Meth) :
    proj (applyAll ms {}) = ms.filterMap says := by
  induction ms using snocInd with
  | nil => exact h0
  | snoc ms m ih =>
    rw [applyAll_snoc, h, ih, List.filterMap_append]
    cases e : says m <;> simp [e]

/-- a value set by name, or to a default by another method unless it is set -/
theorem orDefault_of {α} (says : Meth → Option α) (also : Meth → Bool) (dv : α) (proj : FDef → Option α)
    (h0 : proj {} = none)
    (h : ∀ m d, proj (m.apply d) = (says m).or (if also m then some ((proj d).getD dv) else proj d))
    (ms : List Meth) :
    (∃ a, IsLast says ms a ∧ proj (applyAll ms {}) = some a) ∨
    (Silent says ms ∧ ((∃ m ∈ ms, also m = true) ∧ proj (applyAll ms {}) = some dv ∨
      (∀ m ∈ ms, also m = false) ∧ proj (applyAll ms {}) = none)) := by
  induction ms using snocInd with
  | nil => exact .inr ⟨Silent.nil _, .inr ⟨(fun _ h => nomatch h), h0⟩⟩
  | snoc ms m ih =>
    rw [applyAll_snoc, h]
    cases e : says m with
    | some a => exact .inl ⟨a, isLast_snoc_some e, rfl⟩
    | none =>
      simp only [Option.none_or]
      rcases ih with ⟨a, ih, e2⟩ | ⟨ih, ⟨⟨x, hx, hx2⟩, e2⟩ | ⟨hn, e2⟩⟩
      · refine .inl ⟨a, isLast_snoc_none e ih, ?_⟩
        rw [e2]; split <;> rfl
      · refine .inr ⟨silent_snoc e ih, .inl ⟨⟨x, by simp [hx], hx2⟩, ?_⟩⟩
        rw [e2]; split <;> rfl
      · refine .inr ⟨silent_snoc e ih, ?_⟩
        cases e3 : also m with
        | true => exact .inl ⟨⟨m, (by simp), e3⟩, (by rw [e2]; rfl)⟩
        | false =>
          refine .inr ⟨fun y hy => ?_, (by rw [e2]; rfl)⟩
          rcases List.mem_append.1 hy with hy | hy
          · exact hn y hy
          · rw [List.mem_singleton.1 hy]; exact e3

theorem exists_eq_iff (x : Meth) (ms : List Meth) : (∃ m ∈ ms, (m == x) = true) ↔ x ∈ ms := by
  constructor
  · rintro ⟨m, hm, e⟩; rw [← eq_of_beq e]; exact hm
  · intro h; exact ⟨x, h, by simp⟩

theorem orNullify_eq (o : Option DeleteRule) : orNullify o = some (o.getD .nullify) := by cases o <;> rfl

theorem orOutName_eq (o : Option EnumOut) : orOutName o = some (o.getD .name) := by cases o <;> rfl

theorem defineIndex_cases (u : Bool) (n : Option String) (d : FDef) :
    (∃ s, n = some s ∧ s ≠ "" ∧ u = true ∧
      defineIndex u n d = { d with cunique := true, cuniqueNames := d.cuniqueNames ++ [s] }) ∨
    (∃ s, n = some s ∧ s ≠ "" ∧ u = false ∧
      defineIndex u n d = { d with cindex := true, cindexNames := d.cindexNames ++ [s] }) ∨
    ((n = none ∨ n = some "") ∧ u = true ∧ defineIndex u n d = { d with unique := true }) ∨
    ((n = none ∨ n = some "") ∧ u = false ∧ defineIndex u n d = { d with index := true }) := by
  cases n with
  | none => cases u <;> simp [defineIndex]
  | some s => by_cases h : s = "" <;> cases u <;> simp [defineIndex, h]

/-- case analysis on the method -/
macro "by_meth" : tactic => `(tactic| (
  intro m d
  cases m with
  | one m =>
    cases m with
    | index u n =>
      change _ = _
      have e : Meth.apply (.one (.index u n)) d = defineIndex u n d := rfl
      rw [e]
      rcases defineIndex_cases u n d with ⟨s, h1, h2, h3, h4⟩ | ⟨s, h1, h2, h3, h4⟩ | ⟨h1 | h1, h3, h4⟩ | ⟨h1 | h1, h3, h4⟩ <;>
        (rw [h4]; subst h1; subst h3; first | rfl | simp [*, compound, single])
    | _ => first | rfl | exact (List.append_nil _).symm | simp [compound, single, Meth.apply, Meth.mods, DMod.define, deleteMark, linkMark,
        outMark, isEnum, orNullify_eq, orOutName_eq]
  | _ => first | rfl | exact (List.append_nil _).symm | simp [compound, single, Meth.apply, Meth.mods, DMod.define]))

theorem linkedList_eq (d : FDef) (h : d.collNull ≠ .undefined) : linkedList d = d.collNull := by
  unfold linkedList orNonnull
  split
  · split <;> simp_all
  · rfl

theorem listNull_eq (d : FDef) (h : d.collNull ≠ .undefined) : listNull d = d.collNull := by
  unfold listNull orNonnull
  split
  · split <;> simp_all
  · rfl

/-- the nullability of a collection never is undefined -/
theorem collNull_defined (ms : List Meth) :
    (applyAll ms {}).collNull = .nonnull ∧ .one .nonnull ∈ ms ∨
    (applyAll ms {}).collNull = .nullable ∧ .one .nonnull ∉ ms := by
  induction ms using snocInd with
  | nil => exact .inr ⟨rfl, fun h => nomatch h⟩
  | snoc ms m ih =>
    rw [applyAll_snoc]
    have hd : (applyAll ms {}).collNull ≠ .undefined := by
      rcases ih with ⟨h, _⟩ | ⟨h, _⟩ <;> rw [h] <;> exact fun h => nomatch h
    have key : (m.apply (applyAll ms {})).collNull =
        if m = .one .nonnull then .nonnull else (applyAll ms {}).collNull := by
      generalize applyAll ms {} = d at hd ⊢
      cases m with
      | one m =>
        cases m with
        | index u n =>
          have e : Meth.apply (.one (.index u n)) d = defineIndex u n d := rfl
          rw [e]
          rcases defineIndex_cases u n d with ⟨s, _, _, _, h⟩ | ⟨s, _, _, _, h⟩ | ⟨_, _, h⟩ | ⟨_, _, h⟩ <;>
            rw [h] <;> rfl
        | linkto => exact linkedList_eq d hd
        | linkedby k => exact linkedList_eq d hd
        | linkedthru k => exact linkedList_eq d hd
        | listof t => exact listNull_eq d hd
        | _ => rfl
      | _ => rfl
    rw [key]
    by_cases hm : m = .one .nonnull
    · rw [if_pos hm]; exact .inl ⟨rfl, by simp [hm]⟩
    · rw [if_neg hm]
      rcases ih with ⟨h, h2⟩ | ⟨h, h2⟩
      · exact .inl ⟨h, by simp [h2]⟩
      · refine .inr ⟨h, fun hc => ?_⟩
        rcases List.mem_append.1 hc with hc | hc
        · exact h2 hc
        · exact hm (List.mem_singleton.1 hc).symm

theorem apply_step0 (m : Meth) (d : FDef) :
    (m.apply d).writeRule = (writeMark m).getD (d.writeRule) := by revert m d; by_meth

theorem apply_step1 (m : Meth) (d : FDef) :
    (m.apply d).noRead = (hideMark m).getD (d.noRead) := by revert m d; by_meth

theorem apply_step2 (m : Meth) (d : FDef) :
    (m.apply d).store = (storeMark m).getD (d.store) := by revert m d; by_meth

theorem apply_step3 (m : Meth) (d : FDef) :
    (m.apply d).deleteRule = (deleteMark m).or (if linkMark m then some ((d.deleteRule).getD .nullify) else d.deleteRule) := by revert m d; by_meth

theorem apply_step4 (m : Meth) (d : FDef) :
    (m.apply d).ftype = (typeMark m).or (d.ftype) := by revert m d; by_meth

theorem apply_step5 (m : Meth) (d : FDef) :
    (m.apply d).fsubtype = (subMark m).or (d.fsubtype) := by revert m d; by_meth

theorem apply_step6 (m : Meth) (d : FDef) :
    (m.apply d).rawInst = (objMark m).or (d.rawInst) := by revert m d; by_meth

theorem apply_step7 (m : Meth) (d : FDef) :
    (m.apply d).enumOutput = (outMark m).or (if isEnum m then some ((d.enumOutput).getD .name) else d.enumOutput) := by revert m d; by_meth

theorem apply_step8 (m : Meth) (d : FDef) :
    (m.apply d).foreignKey = (keyMark m).or (d.foreignKey) := by revert m d; by_meth

theorem apply_step9 (m : Meth) (d : FDef) :
    (m.apply d).useJoin = (joinMark m).or (d.useJoin) := by revert m d; by_meth

theorem apply_step10 (m : Meth) (d : FDef) :
    (m.apply d).joinCls = (joinClassMark m).or (d.joinCls) := by revert m d; by_meth

theorem apply_step11 (m : Meth) (d : FDef) :
    (m.apply d).referrerKey = (referrerMark m).or (d.referrerKey) := by revert m d; by_meth

theorem apply_step12 (m : Meth) (d : FDef) :
    (m.apply d).refereeKey = (refereeMark m).or (d.refereeKey) := by revert m d; by_meth

theorem apply_step13 (m : Meth) (d : FDef) :
    (m.apply d).getter = (getterMark m).or (d.getter) := by revert m d; by_meth

theorem apply_step14 (m : Meth) (d : FDef) :
    (m.apply d).setter = (setterMark m).or (d.setter) := by revert m d; by_meth

theorem apply_step15 (m : Meth) (d : FDef) :
    (m.apply d).queryable = (queryMark m).or (d.queryable) := by revert m d; by_meth

theorem apply_step16 (m : Meth) (d : FDef) :
    (m.apply d).opTransformer = (asopMark m).or (d.opTransformer) := by revert m d; by_meth

theorem apply_step17 (m : Meth) (d : FDef) :
    (m.apply d).authChecker = (authbyMark m).or (d.authChecker) := by revert m d; by_meth

theorem apply_step18 (m : Meth) (d : FDef) :
    (m.apply d).cuniqueNames = d.cuniqueNames ++ ((compound true) m).toList := by revert m d; by_meth

theorem apply_step19 (m : Meth) (d : FDef) :
    (m.apply d).cindexNames = d.cindexNames ++ ((compound false) m).toList := by revert m d; by_meth

theorem apply_step20 (m : Meth) (d : FDef) :
    (m.apply d).cunique = (((compound true m).isSome) || d.cunique) := by revert m d; by_meth

theorem apply_step21 (m : Meth) (d : FDef) :
    (m.apply d).cindex = (((compound false m).isSome) || d.cindex) := by revert m d; by_meth

theorem apply_step22 (m : Meth) (d : FDef) :
    (m.apply d).unique = (isUnique m || d.unique) := by revert m d; by_meth

theorem apply_step23 (m : Meth) (d : FDef) :
    (m.apply d).index = ((single false) m || d.index) := by revert m d; by_meth

theorem apply_step24 (m : Meth) (d : FDef) :
    (m.apply d).primary = ((m == .primary || m == .one .primary) || d.primary) := by revert m d; by_meth

theorem apply_step25 (m : Meth) (d : FDef) :
    (m.apply d).required = (isRequired m || d.required) := by revert m d; by_meth

theorem apply_step26 (m : Meth) (d : FDef) :
    (m.apply d).strict = ((m == .one .strict) || d.strict) := by revert m d; by_meth

theorem apply_step27 (m : Meth) (d : FDef) :
    (m.apply d).nocopy = ((m == .one .nocopy) || d.nocopy) := by revert m d; by_meth

theorem apply_step28 (m : Meth) (d : FDef) :
    ((m.apply d).itemNull == .nullable) = ((m == .one .nullable) || (d.itemNull == .nullable)) := by revert m d; by_meth

theorem apply_step29 (m : Meth) (d : FDef) :
    (m.apply d).opAssign = (isAsop m || d.opAssign) := by revert m d; by_meth

theorem apply_step30 (m : Meth) (d : FDef) :
    (m.apply d).authIdentity = ((m == .one .authidentity) || d.authIdentity) := by revert m d; by_meth

theorem apply_step31 (m : Meth) (d : FDef) :
    (m.apply d).authBy = (isAuthby m || d.authBy) := by revert m d; by_meth

theorem apply_step32 (m : Meth) (d : FDef) :
    (m.apply d).forceSetOnSave = (isForced m || d.forceSetOnSave) := by revert m d; by_meth

theorem apply_step33 (m : Meth) (d : FDef) :
    (m.apply d).hasEager = (isEager m || d.hasEager) := by revert m d; by_meth

theorem apply_step34 (m : Meth) (d : FDef) :
    (m.apply d).hasReset = (isTracked m || d.hasReset) := by revert m d; by_meth

theorem apply_step35 (m : Meth) (d : FDef) :
    (m.apply d).hasPre = (isOnSave m || d.hasPre) := by revert m d; by_meth

/-- the definition made by a row of methods says what the row says -/
theorem describes_applyAll (ms : List Meth) : Describes ms (applyAll ms {}) where
  write := decided_of writeMark (·.writeRule) apply_step0 ms
  hide := decided_of hideMark (·.noRead) apply_step1 ms
  store := decided_of storeMark (·.store) apply_step2 ms
  delete := orDefault_of deleteMark linkMark .nullify (·.deleteRule) rfl apply_step3 ms
  type := lastSaid_of typeMark (·.ftype) rfl apply_step4 ms
  subtype := lastSaid_of subMark (·.fsubtype) rfl apply_step5 ms
  object := lastSaid_of objMark (·.rawInst) rfl apply_step6 ms
  output := orDefault_of outMark isEnum .name (·.enumOutput) rfl apply_step7 ms
  key := lastSaid_of keyMark (·.foreignKey) rfl apply_step8 ms
  join := lastSaid_of joinMark (·.useJoin) rfl apply_step9 ms
  joinClass := lastSaid_of joinClassMark (·.joinCls) rfl apply_step10 ms
  referrer := lastSaid_of referrerMark (·.referrerKey) rfl apply_step11 ms
  referee := lastSaid_of refereeMark (·.refereeKey) rfl apply_step12 ms
  getter := lastSaid_of getterMark (·.getter) rfl apply_step13 ms
  setter := lastSaid_of setterMark (·.setter) rfl apply_step14 ms
  query := lastSaid_of queryMark (·.queryable) rfl apply_step15 ms
  asop := lastSaid_of asopMark (·.opTransformer) rfl apply_step16 ms
  checker := lastSaid_of authbyMark (·.authChecker) rfl apply_step17 ms
  cuniques := names_of (compound true) (·.cuniqueNames) rfl apply_step18 ms
  cindexes := names_of (compound false) (·.cindexNames) rfl apply_step19 ms
  cunique := flag_of (fun m => (compound true m).isSome) (·.cunique) rfl apply_step20 ms
  cindex := flag_of (fun m => (compound false m).isSome) (·.cindex) rfl apply_step21 ms
  unique := flag_of isUnique (·.unique) rfl apply_step22 ms
  index := flag_of (single false) (·.index) rfl apply_step23 ms
  primary := by
    rw [flag_of (fun m => m == .primary || m == .one .primary) (·.primary) rfl apply_step24 ms]
    simp only [Bool.or_eq_true, beq_iff_eq, exists_or, and_or_left]
    simp
  required := flag_of isRequired (·.required) rfl apply_step25 ms
  strict := (flag_of (· == .one .strict) (·.strict) rfl apply_step26 ms).trans (exists_eq_iff _ _)
  nocopy := (flag_of (· == .one .nocopy) (·.nocopy) rfl apply_step27 ms).trans (exists_eq_iff _ _)
  nonnull := by
    rcases collNull_defined ms with ⟨h, h2⟩ | ⟨h, h2⟩ <;> rw [h] <;> simp [h2]
  nullable := by
    have := flag_of (· == .one .nullable) (fun d => d.itemNull == .nullable) rfl apply_step28 ms
    rw [beq_iff_eq] at this
    exact this.trans (exists_eq_iff _ _)
  operator := flag_of isAsop (·.opAssign) rfl apply_step29 ms
  identity := (flag_of (· == .one .authidentity) (·.authIdentity) rfl apply_step30 ms).trans (exists_eq_iff _ _)
  authby := flag_of isAuthby (·.authBy) rfl apply_step31 ms
  forced := flag_of isForced (·.forceSetOnSave) rfl apply_step32 ms
  eager := flag_of isEager (·.hasEager) rfl apply_step33 ms
  tracked := flag_of isTracked (·.hasReset) rfl apply_step34 ms
  onSave := flag_of isOnSave (·.hasPre) rfl apply_step35 ms

/-! ### Programs -/

/-- a definition without what classes and lookups write to it -/
def FDef.core (d : FDef) : FDef := { d with cdef := none, instCls := none }

theorem core_define (m : DMod) (d : FDef) : (m.define d).core = m.define d.core := by
  cases m with
  | index u n =>
    change (defineIndex u n d).core = defineIndex u n d.core
    unfold defineIndex
    cases n with
    | none => cases u <;> rfl
    | some x => by_cases h : x = "" <;> cases u <;> simp only [h, ne_eq, not_true_eq_false, not_false_eq_true, if_true, if_false] <;> rfl
  | _ => rfl

theorem core_defines (ms : List DMod) (d : FDef) :
    (ms.foldl (fun d m => m.define d) d).core = ms.foldl (fun d m => m.define d) d.core := by
  induction ms generalizing d with
  | nil => rfl
  | cons m ms ih => rw [List.foldl_cons, List.foldl_cons, ih, core_define]

theorem cdef_define (m : DMod) (d : FDef) :
    (m.define d).cdef = d.cdef ∧ (m.define d).instCls = d.instCls := by
  cases m with
  | index u n =>
    rcases defineIndex_cases u n d with ⟨s, _, _, _, h⟩ | ⟨s, _, _, _, h⟩ | ⟨_, _, h⟩ | ⟨_, _, h⟩ <;>
      (change (defineIndex u n d).cdef = _ ∧ (defineIndex u n d).instCls = _; rw [h]; exact ⟨rfl, rfl⟩)
  | _ => exact ⟨rfl, rfl⟩

theorem cdef_apply (m : Meth) (d : FDef) :
    (m.apply d).cdef = d.cdef ∧ (m.apply d).instCls = d.instCls := by
  unfold Meth.apply
  induction m.mods generalizing d with
  | nil => exact ⟨rfl, rfl⟩
  | cons x xs ih =>
    rw [List.foldl_cons, (ih _).1, (ih _).2]
    exact cdef_define x d

theorem put_self (s : TState) (r : Nat) : s.put r (s.fdefs r) = s := by
  unfold TState.put
  have : (fun k => if k = r then s.fdefs r else s.fdefs k) = s.fdefs := by
    funext k; split
    · rename_i h; rw [h]
    · rfl
  rw [this]

theorem put_put (s : TState) (r : Nat) (a b : FDef) : (s.put r a).put r b = s.put r b := by
  unfold TState.put
  congr 1
  funext k
  by_cases h : k = r <;> simp [h]

theorem put_at (s : TState) (r : Nat) (a : FDef) : (s.put r a).fdefs r = a := by simp [TState.put]

theorem put_ne (s : TState) (r k : Nat) (a : FDef) (h : k ≠ r) : (s.put r a).fdefs k = s.fdefs k := by
  simp [TState.put, h]

theorem defineLoop_eq (r : Nat) (ms : List DMod) : ∀ (s : TState) (vs : List DMod),
    defineLoop r s vs ms = (s.put r (ms.foldl (fun d m => m.define d) (s.fdefs r)), vs ++ ms) := by
  induction ms with
  | nil => intro s vs; simp [defineLoop, put_self]
  | cons m ms ih =>
    intro s vs
    rw [defineLoop, ih, put_put, put_at, List.foldl_cons, List.append_assoc, List.singleton_append]

/-- `Types` number `i` has definition number `i` -/
structure RefsOk (s : TState) : Prop where
  count : s.nfd = s.types.length
  refs : ∀ (i : Nat) (t : TypesObj), s.types[i]? = some t → t.fdef = i

theorem refsOk_start : RefsOk TState.start where
  count := rfl
  refs := fun i t h => by
    cases i with
    | zero => injection h with h; rw [← h]
    | succ i => cases h

/-- a derivation, in one step -/
theorem derive_eq {s : TState} (g : RefsOk s) (i : Nat) (m : Meth) :
    s.derive i m = match s.types[i]? with
      | none => none
      | some t => some { fdefs := fun k => if k = s.types.length then m.apply (s.fdefs i) else s.fdefs k,
                         nfd := s.types.length + 1,
                         types := s.types ++ [⟨s.types.length, t.vs ++ m.mods⟩],
                         classes := s.classes } := by
  unfold TState.derive
  cases e : s.types[i]? with
  | none => rfl
  | some t =>
    simp only [defineLoop_eq, g.count, g.refs i t e]
    congr 1
    unfold TState.put
    simp only [if_true]
    congr 1
    funext k
    by_cases h : k = s.types.length
    · simp [h, Meth.apply]
    · simp [h]

theorem derive_some {s s' : TState} (g : RefsOk s) {i : Nat} {m : Meth} (h : s.derive i m = some s') :
    ∃ t, s.types[i]? = some t ∧ i < s.types.length ∧ s'.types = s.types ++ [⟨s.types.length, t.vs ++ m.mods⟩] ∧
      s'.classes = s.classes ∧ RefsOk s' ∧ s'.fdefs s.types.length = m.apply (s.fdefs i) ∧
      ∀ k, k < s.types.length → s'.fdefs k = s.fdefs k := by
  rw [derive_eq g] at h
  cases e : s.types[i]? with
  | none => rw [e] at h; cases h
  | some t =>
    rw [e] at h
    injection h with h
    subst h
    have hi : i < s.types.length := by
      rcases Nat.lt_or_ge i s.types.length with h | h
      · exact h
      · rw [List.getElem?_eq_none h] at e; cases e
    refine ⟨t, rfl, hi, rfl, rfl, ⟨by simp, fun j u hj => ?_⟩, by simp, fun k hk => ?_⟩
    · rcases Nat.lt_or_ge j s.types.length with h | h
      · rw [List.getElem?_append_left h] at hj; exact g.refs j u hj
      · rw [List.getElem?_append_right h] at hj
        cases e2 : j - s.types.length with
        | zero =>
          rw [e2] at hj; injection hj with hj; rw [← hj]
          change s.types.length = j
          omega
        | succ n => rw [e2] at hj; cases hj
    · simp [Nat.ne_of_lt hk]

theorem add_core (c : CTables) (n : String) (d : FDef) : c.add n d = c.add n d.core := rfl

/-- the class loop, in one step -/
theorem classLoop_some (k : Nat) (fs : List (String × Nat)) : ∀ {s s' : TState} {c c' : CTables}, RefsOk s →
    classLoop k s c fs = some (s', c') →
    s'.types = s.types ∧ s'.classes = s.classes ∧ RefsOk s' ∧
    (∀ r, (s'.fdefs r).core = (s.fdefs r).core) ∧ (∀ r, (s'.fdefs r).instCls = (s.fdefs r).instCls) ∧
    (∀ r, (s'.fdefs r).cdef = if r ∈ fs.map Prod.snd then some k else (s.fdefs r).cdef) ∧
    (∀ f ∈ fs, f.2 < s.types.length) ∧
    c' = fs.foldl (fun c f => c.add f.1 (s.fdefs f.2).core) c := by
  induction fs with
  | nil =>
    intro s s' c c' g h
    injection h with h
    injection h with h1 h2
    subst h1; subst h2
    exact ⟨rfl, rfl, g, fun _ => rfl, fun _ => rfl, fun _ => rfl, (fun _ h => nomatch h), rfl⟩
  | cons f fs ih =>
    intro s s' c c' g h
    obtain ⟨n, i⟩ := f
    rw [classLoop] at h
    cases e : s.types[i]? with
    | none => rw [e] at h; cases h
    | some t =>
      rw [e] at h
      simp only [g.refs i t e] at h
      have hi : i < s.types.length := by
        rcases Nat.lt_or_ge i s.types.length with h | h
        · exact h
        · rw [List.getElem?_eq_none h] at e; cases e
      have g1 : RefsOk (s.put i { s.fdefs i with cdef := some k }) := ⟨g.count, g.refs⟩
      obtain ⟨h1, h2, h3, h4, h5, h6, h7, h8⟩ := ih g1 h
      have hc : ∀ r, ((s.put i { s.fdefs i with cdef := some k }).fdefs r).core = (s.fdefs r).core := by
        intro r
        by_cases hr : r = i
        · rw [hr, put_at]; rfl
        · rw [put_ne _ _ _ _ hr]
      refine ⟨h1, h2, h3, fun r => (h4 r).trans (hc r), fun r => ?_, fun r => ?_, fun f hf => ?_, ?_⟩
      · rw [h5]
        by_cases hr : r = i
        · rw [hr, put_at]
        · rw [put_ne _ _ _ _ hr]
      · rw [h6]
        by_cases hr : r = i
        · rw [hr, put_at]; simp
        · rw [put_ne _ _ _ _ hr]; have e : (r ∈ List.map Prod.snd ((n, i) :: fs)) = (r ∈ List.map Prod.snd fs) := by simp [hr]
          simp only [e]
      · rcases List.mem_cons.1 hf with rfl | hf
        · exact hi
        · exact h7 f hf
      · rw [h8]
        simp only [hc, List.foldl_cons]
        rw [add_core c n { s.fdefs i with cdef := some k }]
        rfl

theorem addClass_some {s s' : TState} {g : Nat} {fs : List (String × Nat)} (hg : RefsOk s)
    (h : s.addClass g fs = some s') :
    s'.types = s.types ∧ RefsOk s' ∧ (∀ r, (s'.fdefs r).core = (s.fdefs r).core) ∧
    (∀ r, (s'.fdefs r).instCls = (s.fdefs r).instCls) ∧
    (∀ r, (s'.fdefs r).cdef = if r ∈ fs.map Prod.snd then some s.classes.length else (s.fdefs r).cdef) ∧
    (∀ f ∈ fs, f.2 < s.types.length) ∧
    s'.classes = s.classes ++ [fs.foldl (fun c f => c.add f.1 (s.fdefs f.2).core) { graph := g }] := by
  unfold TState.addClass at h
  cases e : classLoop s.classes.length s { graph := g } fs with
  | none => rw [e] at h; cases h
  | some r =>
    obtain ⟨s1, c⟩ := r
    rw [e] at h
    injection h with h
    subst h
    obtain ⟨h1, h2, h3, h4, h5, h6, h7, h8⟩ := classLoop_some _ _ hg e
    exact ⟨h1, ⟨h3.count, h3.refs⟩, h4, h5, h6, h7, by simp only [h2, h8]⟩

/-- a lookup changes nothing but what it remembers -/
theorem instCls_state {s : TState} (g : RefsOk s) (find : Nat → String → Option Nat) (i : Nat) :
    let s' := (s.instCls find i).2
    s'.types = s.types ∧ s'.classes = s.classes ∧ RefsOk s' ∧ (∀ r, (s'.fdefs r).core = (s.fdefs r).core) ∧
    (∀ r, (s'.fdefs r).cdef = (s.fdefs r).cdef) ∧
    (∀ r, r ≠ i → (s'.fdefs r).instCls = (s.fdefs r).instCls) := by
  have trivial' : s.types = s.types ∧ s.classes = s.classes ∧ RefsOk s ∧ (∀ r, (s.fdefs r).core = (s.fdefs r).core) ∧
    (∀ r, (s.fdefs r).cdef = (s.fdefs r).cdef) ∧ (∀ r, r ≠ i → (s.fdefs r).instCls = (s.fdefs r).instCls) :=
    ⟨rfl, rfl, g, fun _ => rfl, fun _ => rfl, fun _ _ => rfl⟩
  unfold TState.instCls
  cases e : s.types[i]? with
  | none => exact trivial'
  | some t =>
    simp only [g.refs i t e]
    split
    · exact trivial'
    · split
      · exact trivial'
      · split
        · exact trivial'
        · split
          · exact trivial'
          · split
            · exact trivial'
            · rename_i x _
              refine ⟨rfl, rfl, ⟨g.count, g.refs⟩, fun r => ?_, fun r => ?_, fun r hr => ?_⟩
              · by_cases hr : r = i
                · rw [hr, put_at]; rfl
                · rw [put_ne _ _ _ _ hr]
              · by_cases hr : r = i
                · rw [hr, put_at]
                · rw [put_ne _ _ _ _ hr]
              · rw [put_ne _ _ _ _ hr]

theorem run_append (cs ds : List TCmd) : ∀ s : TState,
    s.run (cs ++ ds) = (s.run cs).bind (fun s' => s'.run ds) := by
  induction cs with
  | nil => intro s; rfl
  | cons c cs ih =>
    intro s
    rw [List.cons_append, TState.run, TState.run]
    cases s.step c with
    | none => rfl
    | some s' => exact ih s'

theorem run_snoc {cs : List TCmd} {c : TCmd} {s0 s' : TState} (h : s0.run (cs ++ [c]) = some s') :
    ∃ s, s0.run cs = some s ∧ s.step c = some s' := by
  rw [run_append] at h
  cases e : s0.run cs with
  | none => rw [e] at h; cases h
  | some s =>
    rw [e] at h
    refine ⟨s, rfl, ?_⟩
    change s.run [c] = some s' at h
    rw [TState.run] at h
    cases e2 : s.step c with
    | none => rw [e2] at h; cases h
    | some x => rw [e2] at h; injection h with h; rw [← h]

theorem derivs_append (cs ds : List TCmd) : derivs (cs ++ ds) = derivs cs ++ derivs ds := by
  induction cs with
  | nil => rfl
  | cons c cs ih => cases c <;> simp [derivs, ih]

theorem classCount_append (cs ds : List TCmd) : classCount (cs ++ ds) = classCount cs + classCount ds := by
  induction cs with
  | nil => simp [classCount]
  | cons c cs ih => cases c <;> simp [classCount, ih] <;> omega

/-- every call is made on a `Types` made before -/
def Ordered (ds : List (Nat × Meth)) : Prop := ∀ (k i : Nat) (m : Meth), ds[k]? = some (i, m) → i ≤ k

theorem Row.mono {ds es : List (Nat × Meth)} {i : Nat} {ms : List Meth} (h : Row ds i ms) :
    Row (ds ++ es) i ms := by
  induction h with
  | root => exact .root
  | step k i m ms hk _ ih =>
    refine .step k i m ms ?_ ih
    have : k < ds.length := by
      rcases Nat.lt_or_ge k ds.length with h | h
      · exact h
      · rw [List.getElem?_eq_none h] at hk; cases hk
    rw [List.getElem?_append_left this, hk]

theorem Row.restrict {ds es : List (Nat × Meth)} (ho : Ordered (ds ++ es)) {i : Nat} {ms : List Meth}
    (h : Row (ds ++ es) i ms) : i ≤ ds.length → Row ds i ms := by
  induction h with
  | root => exact fun _ => .root
  | step k i m ms hk _ ih =>
    intro hl
    rw [List.getElem?_append_left (by omega)] at hk
    have := ho k i m (by rw [List.getElem?_append_left (by omega)]; exact hk)
    exact .step k i m ms hk (ih (by omega))

theorem MadeFrom.mono {ds es : List (Nat × Meth)} {i j : Nat} (h : MadeFrom ds j i) :
    MadeFrom (ds ++ es) j i := by
  induction h with
  | self => exact .self
  | step k i m hk _ ih =>
    refine .step k i m ?_ ih
    have : k < ds.length := by
      rcases Nat.lt_or_ge k ds.length with h | h
      · exact h
      · rw [List.getElem?_eq_none h] at hk; cases hk
    rw [List.getElem?_append_left this, hk]

/-- A `Types` has one row of methods. -/
theorem row_unique {ds : List (Nat × Meth)} {i : Nat} {ms : List Meth} (h : Row ds i ms) :
    ∀ {ns : List Meth}, Row ds i ns → ms = ns := by
  induction h with
  | root => intro ns h; cases h; rfl
  | step k i m ms hk _ ih =>
    intro ns h
    cases h with
    | step _ i' m' ms' hk' h' =>
      rw [hk] at hk'
      injection hk' with hk'
      injection hk' with h1 h2
      subst h1; subst h2
      rw [ih h']

theorem Ordered.row {ds : List (Nat × Meth)} (ho : Ordered ds) (i : Nat) (hi : i ≤ ds.length) :
    ∃ ms, Row ds i ms := by
  induction i using Nat.strongRecOn with
  | ind i ih =>
    cases i with
    | zero => exact ⟨[], .root⟩
    | succ k =>
      obtain ⟨⟨j, m⟩, hk⟩ : ∃ p, ds[k]? = some p := ⟨ds[k], List.getElem?_eq_getElem (by omega)⟩
      have := ho k j m hk
      obtain ⟨ms, hm⟩ := ih j (by omega) (by omega)
      exact ⟨ms ++ [m], .step k j m ms hk hm⟩

/-- What holds after a program. -/
structure RunInv (cs : List TCmd) (s : TState) : Prop where
  good : RefsOk s
  len : s.types.length = (derivs cs).length + 1
  classes : s.classes.length = classCount cs
  ordered : Ordered (derivs cs)
  rows : ∀ i ms, Row (derivs cs) i ms → ∃ t, s.types[i]? = some t ∧ t.vs = ms.flatMap Meth.mods ∧
    (s.fdefs i).core = (applyAll ms {}).core
  cached : ∀ i, i < s.types.length → (s.fdefs i).instCls ≠ none →
    ∃ j f, .inst j f ∈ cs ∧ MadeFrom (derivs cs) j i

theorem run_inv (cs : List TCmd) : ∀ s, TState.start.run cs = some s → RunInv cs s := by
  induction cs using snocInd with
  | nil =>
    intro s h
    injection h with h
    subst h
    refine ⟨refsOk_start, rfl, rfl, fun k i m h => by simp [derivs] at h, fun i ms h => ?_, fun i _ h => (h rfl).elim⟩
    cases h with
    | root => exact ⟨⟨0, []⟩, rfl, rfl, rfl⟩
    | step k i m ms hk => simp [derivs] at hk
  | snoc cs c ih =>
    intro s' h
    obtain ⟨s, hs, hc⟩ := run_snoc h
    have inv := ih s hs
    cases c with
    | derive j m =>
      obtain ⟨t, ht, hj, h1, h2, h3, h4, h5⟩ := derive_some inv.good hc
      have hd : derivs (cs ++ [.derive j m]) = derivs cs ++ [(j, m)] := by rw [derivs_append]; rfl
      have hl := inv.len
      have ho : Ordered (derivs cs ++ [(j, m)]) := by
        intro k i x hk
        rcases Nat.lt_or_ge k (derivs cs).length with h | h
        · rw [List.getElem?_append_left h] at hk; exact inv.ordered k i x hk
        · rw [List.getElem?_append_right h] at hk
          cases e2 : k - (derivs cs).length with
          | zero => rw [e2] at hk; injection hk with hk; injection hk with hk _; omega
          | succ n => rw [e2] at hk; cases hk
      refine ⟨h3, ?_, ?_, ?_, fun i ms hr => ?_, fun i hi hn => ?_⟩
      · rw [h1, hd]; simp [inv.len]
      · rw [h2, inv.classes, classCount_append]; rfl
      · rw [hd]; exact ho
      · rw [hd] at hr
        rcases Nat.lt_or_ge (derivs cs).length i with hi | hi
        · cases hr with
          | root => omega
          | step k i' m' ms' hk hr' =>
            have hk2 : k = (derivs cs).length := by
              rcases Nat.lt_or_ge k (derivs cs ++ [(j, m)]).length with h | h
              · simp at h; omega
              · rw [List.getElem?_eq_none h] at hk; cases hk
            subst hk2
            rw [List.getElem?_append_right (Nat.le_refl _)] at hk
            simp only [Nat.sub_self, List.getElem?_cons_zero] at hk
            injection hk with hk
            injection hk with e1 e2
            subst e1; subst e2
            obtain ⟨u, hu, hv, hcore⟩ := inv.rows j ms' (hr'.restrict ho (by omega))
            rw [ht] at hu
            injection hu with hu
            subst hu
            rw [← inv.len]
            refine ⟨⟨s.types.length, t.vs ++ m.mods⟩, ?_, ?_, ?_⟩
            · rw [h1, List.getElem?_append_right (Nat.le_refl _)]; simp
            · simp [hv]
            · rw [h4, applyAll_snoc]
              unfold Meth.apply
              rw [core_defines, core_defines, hcore]
        · obtain ⟨u, hu, hv, hcore⟩ := inv.rows i ms (hr.restrict ho hi)
          exact ⟨u, by rw [h1, List.getElem?_append_left (by omega)]; exact hu, hv, by rw [h5 i (by omega)]; exact hcore⟩
      · rw [hd]
        rw [h1] at hi
        simp only [List.length_append, List.length_cons, List.length_nil] at hi
        by_cases e : i = s.types.length
        · rw [e, h4, (cdef_apply m _).2] at hn
          obtain ⟨a, f, ha, hm⟩ := inv.cached j hj hn
          refine ⟨a, f, by simp [ha], ?_⟩
          rw [e, inv.len]
          refine .step _ j m ?_ hm.mono
          rw [List.getElem?_append_right (Nat.le_refl _)]; simp
        · rw [h5 i (by omega)] at hn
          obtain ⟨a, f, ha, hm⟩ := inv.cached i (by omega) hn
          exact ⟨a, f, by simp [ha], hm.mono⟩
    | cls g fs =>
      obtain ⟨h1, h2, h3, h4, h5, h6, h7⟩ := addClass_some inv.good hc
      have hd : derivs (cs ++ [.cls g fs]) = derivs cs := by rw [derivs_append]; simp [derivs]
      refine ⟨h2, ?_, ?_, ?_, fun i ms hr => ?_, fun i hi hn => ?_⟩
      · rw [h1, hd, inv.len]
      · rw [h7, classCount_append]; simp [inv.classes, classCount]
      · rw [hd]; exact inv.ordered
      · rw [hd] at hr
        rw [h1, h3]; exact inv.rows i ms hr
      · rw [h1] at hi
        rw [h4] at hn
        obtain ⟨a, f, ha, hm⟩ := inv.cached i hi hn
        exact ⟨a, f, by simp [ha], by rw [hd]; exact hm⟩
    | inst j f =>
      injection hc with hc
      subst hc
      obtain ⟨h1, h2, h3, h4, h5, h6⟩ := instCls_state inv.good f j
      have hd : derivs (cs ++ [.inst j f]) = derivs cs := by rw [derivs_append]; simp [derivs]
      refine ⟨h3, ?_, ?_, ?_, fun i ms hr => ?_, fun i hi hn => ?_⟩
      · rw [h1, hd, inv.len]
      · rw [h2, classCount_append, inv.classes]; rfl
      · rw [hd]; exact inv.ordered
      · rw [hd] at hr
        rw [h1, h4]; exact inv.rows i ms hr
      · rw [h1] at hi
        rw [hd]
        by_cases e : i = j
        · exact ⟨j, f, by simp, e ▸ .self⟩
        · rw [h6 i e] at hn
          obtain ⟨a, f', ha, hm⟩ := inv.cached i hi hn
          exact ⟨a, f', by simp [ha], hm⟩

/-! ### C62 -/

theorem describes_core {ms : List Meth} {d e : FDef} (h : Describes ms d) (he : e.core = d.core) :
    Describes ms e := by
  have h1 : Describes ms d.core := by cases h; constructor <;> assumption
  rw [← he] at h1
  cases h1
  constructor <;> assumption

/-- Whatever else a program declares, before or after, from the same `Types` or others: each
declaration has the modifiers of its own row of methods, in order, and its definition says what
that row says. -/
theorem declared {cs : List TCmd} {s : TState} {i : Nat} {ms : List Meth}
    (hs : TState.start.run cs = some s) (hr : Row (derivs cs) i ms) :
    ∃ t d, s.types[i]? = some t ∧ t.vs = ms.flatMap Meth.mods ∧ s.fdefOf i = some d ∧ Describes ms d := by
  have inv := run_inv cs s hs
  obtain ⟨t, ht, hv, hc⟩ := inv.rows i ms hr
  refine ⟨t, s.fdefs i, ht, hv, ?_, describes_core (describes_applyAll ms) hc⟩
  rw [TState.fdefOf, ht, Option.map_some, inv.good.refs i t ht]

/-- Every `Types` of a program has a row. -/
theorem row_exists {cs : List TCmd} {s : TState} {i : Nat} (hs : TState.start.run cs = some s)
    {t : TypesObj} (ht : s.types[i]? = some t) : ∃ ms, Row (derivs cs) i ms := by
  have inv := run_inv cs s hs
  refine inv.ordered.row i ?_
  have := inv.len
  rcases Nat.lt_or_ge i s.types.length with h | h
  · omega
  · rw [List.getElem?_eq_none h] at ht; cases ht

/-- Two declarations with the same row of methods get the same definition, up to the class they
are used in, wherever in the program they are made. -/
theorem same_row_same_definition {cs : List TCmd} {s : TState} {i j : Nat} {ms : List Meth}
    (hs : TState.start.run cs = some s) (hi : Row (derivs cs) i ms) (hj : Row (derivs cs) j ms) :
    ∃ d e, s.fdefOf i = some d ∧ s.fdefOf j = some e ∧
      d = { e with cdef := d.cdef, instCls := d.instCls } := by
  have inv := run_inv cs s hs
  obtain ⟨t, ht, _, hc⟩ := inv.rows i ms hi
  obtain ⟨u, hu, _, hc'⟩ := inv.rows j ms hj
  refine ⟨s.fdefs i, s.fdefs j, ?_, ?_, ?_⟩
  · rw [TState.fdefOf, ht, Option.map_some, inv.good.refs i t ht]
  · rw [TState.fdefOf, hu, Option.map_some, inv.good.refs j u hu]
  · have e : (s.fdefs i).core = (s.fdefs j).core := hc.trans hc'.symm
    calc s.fdefs i = { (s.fdefs i).core with cdef := (s.fdefs i).cdef, instCls := (s.fdefs i).instCls } := rfl
      _ = _ := by rw [e]; rfl

/-- Nothing a program does later changes a declaration: not the methods called on it, not the
classes that use it, not the lookups (which only fill in the class and what they found). -/
theorem declaration_kept {cs more : List TCmd} {s s' : TState} {i : Nat} {t : TypesObj}
    (hs : TState.start.run cs = some s) (hs' : TState.start.run (cs ++ more) = some s')
    (ht : s.types[i]? = some t) :
    s'.types[i]? = some t ∧ ∃ d e, s.fdefOf i = some d ∧ s'.fdefOf i = some e ∧
      e = { d with cdef := e.cdef, instCls := e.instCls } := by
  have inv := run_inv cs s hs
  have inv' := run_inv _ s' hs'
  obtain ⟨ms, hr⟩ := row_exists hs ht
  obtain ⟨u, hu, hv, hc⟩ := inv.rows i ms hr
  have hr' : Row (derivs (cs ++ more)) i ms := by rw [derivs_append]; exact hr.mono
  obtain ⟨u', hu', hv', hc'⟩ := inv'.rows i ms hr'
  rw [ht] at hu
  injection hu with hu
  subst hu
  have e1 : u' = t := by
    have h1 := inv.good.refs i t ht
    have h2 := inv'.good.refs i u' hu'
    cases t; cases u'
    simp_all
  subst e1
  refine ⟨hu', s.fdefs i, s'.fdefs i, ?_, ?_, ?_⟩
  · rw [TState.fdefOf, ht, Option.map_some, inv.good.refs i _ ht]
  · rw [TState.fdefOf, hu', Option.map_some, inv'.good.refs i _ hu']
  · have e : (s'.fdefs i).core = (s.fdefs i).core := hc'.trans hc.symm
    calc s'.fdefs i = { (s'.fdefs i).core with cdef := (s'.fdefs i).cdef, instCls := (s'.fdefs i).instCls } := rfl
      _ = _ := by rw [e]; rfl

/-! #### Class tables -/

theorem table_fold (tab : CTables → List String) (p : FDef → Bool)
    (h : ∀ c n d, tab (c.add n d) = tabIf (p d) n (tab c)) (D : Nat → FDef) (fs : List (String × Nat)) :
    ∀ c, tab (fs.foldl (fun c f => c.add f.1 (D f.2)) c) =
      tab c ++ (fs.filter (fun f => p (D f.2))).map Prod.fst := by
  induction fs with
  | nil => intro c; simp
  | cons f fs ih =>
    intro c
    rw [List.foldl_cons, ih, h, tabIf]
    cases e : p (D f.2) <;> simp [e]

theorem names_fold (D : Nat → FDef) (fs : List (String × Nat)) :
    ∀ c : CTables, (fs.foldl (fun c f => c.add f.1 (D f.2)) c).names = c.names ++ fs.map Prod.fst ∧
      (fs.foldl (fun c f => c.add f.1 (D f.2)) c).graph = c.graph := by
  induction fs with
  | nil => intro c; simp
  | cons f fs ih =>
    intro c
    rw [List.foldl_cons, (ih _).1, (ih _).2]
    simp [CTables.add]

theorem primary_fold (D : Nat → FDef) (fs : List (String × Nat)) :
    (∃ pre n i post, fs = pre ++ (n, i) :: post ∧ (D i).primary = true ∧ (∀ f ∈ post, (D f.2).primary = false) ∧
      ∀ c : CTables, (fs.foldl (fun c f => c.add f.1 (D f.2)) c).primary = some n) ∨
    ((∀ f ∈ fs, (D f.2).primary = false) ∧
      ∀ c : CTables, (fs.foldl (fun c f => c.add f.1 (D f.2)) c).primary = c.primary) := by
  induction fs with
  | nil => exact .inr ⟨(fun _ h => nomatch h), fun _ => rfl⟩
  | cons f fs ih =>
    rcases ih with ⟨pre, n, i, post, rfl, h1, h2, h3⟩ | ⟨h1, h2⟩
    · exact .inl ⟨f :: pre, n, i, post, rfl, h1, h2, fun c => by rw [List.foldl_cons, h3]⟩
    · cases e : (D f.2).primary with
      | true => exact .inl ⟨[], f.1, f.2, fs, rfl, e, h1, fun c => by
          rw [List.foldl_cons, h2]; simp [CTables.add, e]⟩
      | false =>
        refine .inr ⟨fun g hg => ?_, fun c => by rw [List.foldl_cons, h2]; simp [CTables.add, e]⟩
        rcases List.mem_cons.1 hg with rfl | hg
        · exact e
        · exact h1 g hg

/-- later commands keep a class -/
theorem classes_kept (more : List TCmd) : ∀ {cs : List TCmd} {s s' : TState}, RunInv cs s →
    TState.start.run cs = some s → s.run more = some s' → ∀ (k : Nat) (c : CTables), s.classes[k]? = some c → s'.classes[k]? = some c := by
  induction more using snocInd with
  | nil => intro cs s s' _ _ h k c hk; injection h with h; rw [← h]; exact hk
  | snoc more x ih =>
    intro cs s s' inv hs h k c hk
    obtain ⟨s1, h1, h2⟩ := run_snoc h
    have hk1 := ih inv hs h1 k c hk
    have inv1 : RunInv (cs ++ more) s1 := run_inv _ _ (by rw [run_append, hs]; exact h1)
    cases x with
    | derive i m =>
      obtain ⟨_, _, _, _, hc, _⟩ := derive_some inv1.good h2
      rw [hc]; exact hk1
    | cls g fs =>
      obtain ⟨_, _, _, _, _, _, hc⟩ := addClass_some inv1.good h2
      rw [hc, List.getElem?_append_left]
      · exact hk1
      · rcases Nat.lt_or_ge k s1.classes.length with h | h
        · exact h
        · rw [List.getElem?_eq_none h] at hk1; cases hk1
    | inst i f =>
      injection h2 with h2
      obtain ⟨_, hc, _⟩ := instCls_state inv1.good f i
      rw [← h2, hc]; exact hk1

/-- the run of a program split at a command -/
theorem run_split {pre post : List TCmd} {c : TCmd} {s : TState}
    (h : TState.start.run (pre ++ c :: post) = some s) :
    ∃ s1 s2, TState.start.run pre = some s1 ∧ s1.step c = some s2 ∧ s2.run post = some s ∧
      TState.start.run (pre ++ [c]) = some s2 := by
  rw [run_append] at h
  cases e : TState.start.run pre with
  | none => rw [e] at h; cases h
  | some s1 =>
    rw [e] at h
    change s1.run (c :: post) = some s at h
    rw [TState.run] at h
    cases e2 : s1.step c with
    | none => rw [e2] at h; cases h
    | some s2 =>
      rw [e2] at h
      refine ⟨s1, s2, rfl, e2, h, ?_⟩
      rw [run_append, e]
      change s1.run [c] = some s2
      rw [TState.run, e2]; rfl

/-- The tables of a class name the fields whose own declarations say so, in order. -/
structure TablesRight (ds : List (Nat × Meth)) (g : Nat) (fs : List (String × Nat)) (c : CTables) : Prop where
  graph : c.graph = g
  names : c.names = fs.map Prod.fst
  primary : PrimaryIs ds fs c.primary
  calcs : Table ds fs (fun ms => Decided storeMark .embedded ms .calculated) c.calcs
  setters : Table ds fs (fun ms => ∃ f, .one (.setter f) ∈ ms) c.setters
  deny : Table ds fs (fun ms => DeleteIs ms (some .deny)) c.deny
  nullify : Table ds fs (fun ms => DeleteIs ms (some .nullify)) c.nullify
  cascade : Table ds fs (fun ms => DeleteIs ms (some .cascade)) c.cascade
  unique : Table ds fs (fun ms => ∃ m ∈ ms, isUnique m = true) c.unique
  operator : Table ds fs (fun ms => ∃ m ∈ ms, isAsop m = true) c.opAssign
  identity : Table ds fs (fun ms => .one .authidentity ∈ ms) c.authIdentity
  authby : Table ds fs (fun ms => ∃ m ∈ ms, isAuthby m = true) c.authBy

theorem deleteIs_unique {ms : List Meth} {a b : Option DeleteRule} (ha : DeleteIs ms a) (hb : DeleteIs ms b) :
    a = b := by
  rcases ha with ⟨x, hx, rfl⟩ | ⟨hs, ha⟩ <;> rcases hb with ⟨y, hy, rfl⟩ | ⟨hs', hb⟩
  · rw [isLast_unique hx hy]
  · exact (isLast_not_silent hx hs').elim
  · exact (isLast_not_silent hy hs).elim
  · rcases ha with ⟨⟨m, hm, hl⟩, rfl⟩ | ⟨hn, rfl⟩ <;> rcases hb with ⟨⟨m', hm', hl'⟩, rfl⟩ | ⟨hn', rfl⟩
    · rfl
    · rw [hn' m hm] at hl; cases hl
    · rw [hn m' hm'] at hl'; cases hl'
    · rfl

theorem setter_mem {ms : List Meth} {o : Option Nat} (h : LastSaid setterMark ms o) :
    o.isSome = true ↔ ∃ f, .one (.setter f) ∈ ms := by
  cases o with
  | none =>
    refine ⟨(fun h => nomatch h), fun ⟨f, hf⟩ => ?_⟩
    have : setterMark (.one (.setter f)) = none := h _ hf
    cases this
  | some a =>
    obtain ⟨p, m, q, e, hm, _⟩ := h
    refine ⟨fun _ => ⟨a, ?_⟩, fun _ => rfl⟩
    have : m = .one (.setter a) := by
      cases m with
      | one m => cases m <;> first | (cases hm; rfl) | cases hm
      | _ => cases hm
    rw [e, this]; simp

/-- C62, classes: in any program, the tables of every class are right. -/
theorem class_tables {pre post : List TCmd} {g : Nat} {fs : List (String × Nat)} {s : TState}
    (hs : TState.start.run (pre ++ .cls g fs :: post) = some s) :
    ∃ c, s.classes[classCount pre]? = some c ∧ TablesRight (derivs (pre ++ .cls g fs :: post)) g fs c := by
  obtain ⟨s1, s2, h1, h2, h3, h4⟩ := run_split hs
  have inv1 := run_inv _ _ h1
  obtain ⟨_, _, _, _, _, hlt, hcl⟩ := addClass_some inv1.good h2
  have inv2 := run_inv _ _ h4
  refine ⟨fs.foldl (fun c f => c.add f.1 (s1.fdefs f.2).core) { graph := g }, ?_, ?_⟩
  · refine classes_kept post inv2 h4 h3 _ _ ?_
    rw [hcl, ← inv1.classes, List.getElem?_append_right (Nat.le_refl _)]; simp
  · have hd : derivs (pre ++ .cls g fs :: post) = derivs pre ++ derivs post := by
      rw [derivs_append]; rfl
    rw [hd]
    have look : ∀ f ∈ fs, ∃ ms, Row (derivs pre ++ derivs post) f.2 ms ∧ Describes ms (s1.fdefs f.2).core ∧
        ∀ ns, Row (derivs pre ++ derivs post) f.2 ns → ns = ms := by
      intro f hf
      obtain ⟨ms, hr⟩ := inv1.ordered.row f.2 (by have := hlt f hf; have := inv1.len; omega)
      obtain ⟨t, ht, _, hc⟩ := inv1.rows f.2 ms hr
      exact ⟨ms, hr.mono, describes_core (describes_applyAll ms) (by rw [← hc]; rfl),
        fun ns hn => row_unique hn hr.mono⟩
    have tab : ∀ (tab : CTables → List String) (p : FDef → Bool) (q : List Meth → Prop),
        (∀ c n d, tab (c.add n d) = tabIf (p d) n (tab c)) → tab { graph := g } = [] →
        (∀ ms d, Describes ms d → (p d = true ↔ q ms)) →
        Table (derivs pre ++ derivs post) fs q
          (tab (fs.foldl (fun c f => c.add f.1 (s1.fdefs f.2).core) { graph := g })) := by
      intro tab p q hadd h0 hq
      refine ⟨fun f => p (s1.fdefs f.2).core, ?_, fun f hf => ?_⟩
      · rw [table_fold tab p hadd (fun r => (s1.fdefs r).core), h0, List.nil_append]
      · obtain ⟨ms, hr, hdsc, huniq⟩ := look f hf
        constructor
        · intro h; exact ⟨ms, hr, (hq ms _ hdsc).1 h⟩
        · rintro ⟨ns, hn, h⟩
          rw [huniq ns hn] at h
          exact (hq ms _ hdsc).2 h
    have prim : ∀ f ∈ fs, ((∃ ms, Row (derivs pre ++ derivs post) f.2 ms ∧ (Meth.primary ∈ ms ∨ .one .primary ∈ ms)) ↔
        (s1.fdefs f.2).core.primary = true) := by
      intro f hf
      obtain ⟨ms, hr, hdsc, huniq⟩ := look f hf
      constructor
      · rintro ⟨ns, hn, h⟩
        rw [huniq ns hn] at h
        exact hdsc.primary.2 h
      · intro h; exact ⟨ms, hr, hdsc.primary.1 h⟩
    constructor
    · exact (names_fold (fun r => (s1.fdefs r).core) fs _).2
    · exact (names_fold (fun r => (s1.fdefs r).core) fs _).1
    · rcases primary_fold (fun r => (s1.fdefs r).core) fs with ⟨p, n, i, q, e, hp, hq, hr⟩ | ⟨hn, hr⟩
      · refine .inl ⟨p, n, i, q, e, ?_, fun f hf hc => ?_, hr _⟩
        · exact (prim (n, i) (by rw [e]; simp)).2 hp
        · have := hq f hf
          rw [(prim f (by rw [e]; simp [hf])).1 hc] at this; cases this
      · refine .inr ⟨fun f hf hc => ?_, hr _⟩
        have := hn f hf
        rw [(prim f hf).1 hc] at this; cases this
    · refine tab (·.calcs) (fun d => d.store = .calculated) _ (fun _ _ _ => rfl) rfl (fun ms d h => ?_)
      simp only [decide_eq_true_eq]
      exact ⟨fun e => e ▸ h.store, fun e => decided_unique h.store e⟩
    · refine tab (·.setters) (·.setter.isSome) _ (fun _ _ _ => rfl) rfl (fun ms d h => setter_mem h.setter)
    · refine tab (·.deny) (fun d => d.deleteRule = some .deny) _ (fun _ _ _ => rfl) rfl (fun ms d h => ?_)
      simp only [decide_eq_true_eq]
      exact ⟨fun e => e ▸ h.delete, fun e => deleteIs_unique h.delete e⟩
    · refine tab (·.nullify) (fun d => d.deleteRule = some .nullify) _ (fun _ _ _ => rfl) rfl (fun ms d h => ?_)
      simp only [decide_eq_true_eq]
      exact ⟨fun e => e ▸ h.delete, fun e => deleteIs_unique h.delete e⟩
    · refine tab (·.cascade) (fun d => d.deleteRule = some .cascade) _ (fun _ _ _ => rfl) rfl (fun ms d h => ?_)
      simp only [decide_eq_true_eq]
      exact ⟨fun e => e ▸ h.delete, fun e => deleteIs_unique h.delete e⟩
    · exact tab (·.unique) (·.unique) _ (fun _ _ _ => rfl) rfl (fun ms d h => h.unique)
    · exact tab (·.opAssign) (·.opAssign) _ (fun _ _ _ => rfl) rfl (fun ms d h => h.operator)
    · exact tab (·.authIdentity) (·.authIdentity) _ (fun _ _ _ => rfl) rfl (fun ms d h => h.identity)
    · exact tab (·.authBy) (·.authBy) _ (fun _ _ _ => rfl) rfl (fun ms d h => h.authby)

/-! #### The class a field belongs to -/

/-- no class of the commands declares a field with this `Types` -/
def NotUsed (cs : List TCmd) (i : Nat) : Prop := ∀ g fs, TCmd.cls g fs ∈ cs → i ∉ fs.map Prod.snd

theorem cdef_kept (more : List TCmd) : ∀ {cs : List TCmd} {s s' : TState}, RunInv cs s →
    TState.start.run cs = some s → s.run more = some s' → ∀ i, i < s.types.length → NotUsed more i →
    (s'.fdefs i).cdef = (s.fdefs i).cdef ∧ i < s'.types.length := by
  induction more using snocInd with
  | nil => intro cs s s' _ _ h i hi _; injection h with h; rw [← h]; exact ⟨rfl, hi⟩
  | snoc more x ih =>
    intro cs s s' inv hs h i hi hu
    obtain ⟨s1, h1, h2⟩ := run_snoc h
    obtain ⟨e1, l1⟩ := ih inv hs h1 i hi (fun g fs hm => hu g fs (by simp [hm]))
    have inv1 : RunInv (cs ++ more) s1 := run_inv _ _ (by rw [run_append, hs]; exact h1)
    rw [← e1]
    cases x with
    | derive j m =>
      obtain ⟨_, _, _, ht, _, _, _, hk⟩ := derive_some inv1.good h2
      rw [hk i l1]
      exact ⟨rfl, by rw [ht]; simp; omega⟩
    | cls g fs =>
      obtain ⟨ht, _, _, _, hc, _⟩ := addClass_some inv1.good h2
      rw [hc, if_neg (hu g fs (by simp)), ht]
      exact ⟨rfl, l1⟩
    | inst j f =>
      injection h2 with h2
      obtain ⟨ht, _, _, _, hc, _⟩ := instCls_state inv1.good f j
      rw [← h2, hc, ht]
      exact ⟨rfl, l1⟩

/-- A declaration belongs to the last class that used it. -/
theorem owner_is_last_user {pre post : List TCmd} {g : Nat} {fs : List (String × Nat)} {s : TState} {i : Nat}
    (hs : TState.start.run (pre ++ .cls g fs :: post) = some s) (hi : i ∈ fs.map Prod.snd)
    (hu : NotUsed post i) : ∃ d, s.fdefOf i = some d ∧ d.cdef = some (classCount pre) := by
  obtain ⟨s1, s2, h1, h2, h3, h4⟩ := run_split hs
  have inv1 := run_inv _ _ h1
  have inv2 := run_inv _ _ h4
  have inv := run_inv _ _ hs
  obtain ⟨ht, _, _, _, hc, hlt, _⟩ := addClass_some inv1.good h2
  obtain ⟨f, hf, hfi⟩ := List.mem_map.1 hi
  have hl := hlt f hf
  rw [hfi] at hl
  obtain ⟨e, l⟩ := cdef_kept post inv2 h4 h3 i (by rw [ht]; exact hl) hu
  have hx : s.types[i]? = some s.types[i] := List.getElem?_eq_getElem l
  refine ⟨s.fdefs i, ?_, ?_⟩
  · rw [TState.fdefOf, hx, Option.map_some, inv.good.refs i _ hx]
  · rw [e, hc, if_pos hi, inv1.classes]

/-- The class a field names is looked up in the class graph of the class that declares the
field. Proved for declarations which no later class uses again, before the first lookup on the
declaration or one it is made from. The full claim, without these two conditions, is false:
`shared_declaration_broken`, `MarksDemo.stale_class_broken`. -/
theorem named_class_partial {pre post : List TCmd} {g : Nat} {fs : List (String × Nat)} {s : TState} {i : Nat}
    {ms : List Meth} {n : String} {find : Nat → String → Option Nat} {x : Nat}
    (hs : TState.start.run (pre ++ .cls g fs :: post) = some s) (hi : i ∈ fs.map Prod.snd)
    (hu : NotUsed post i)
    (hread : ∀ j f, TCmd.inst j f ∈ pre ++ .cls g fs :: post → ¬ MadeFrom (derivs (pre ++ .cls g fs :: post)) j i)
    (hr : Row (derivs (pre ++ .cls g fs :: post)) i ms) (hn : IsLast objMark ms n) (hf : find g n = some x) :
    (s.instCls find i).1 = .ok (some x) := by
  have inv := run_inv _ _ hs
  obtain ⟨d, hd, hcd⟩ := owner_is_last_user hs hi hu
  obtain ⟨t, d', ht, _, hd', hdsc⟩ := declared hs hr
  rw [hd] at hd'
  injection hd' with hd'
  subst hd'
  have hx := inv.good.refs i t ht
  have e : s.fdefs i = d := by
    rw [TState.fdefOf, ht, Option.map_some, hx] at hd
    injection hd
  obtain ⟨c, hc, htab⟩ := class_tables hs
  have hl : i < s.types.length := by
    rcases Nat.lt_or_ge i s.types.length with h | h
    · exact h
    · rw [List.getElem?_eq_none h] at ht; cases ht
  have hnone : d.instCls = none := by
    cases e3 : d.instCls with
    | none => rfl
    | some y =>
      obtain ⟨j, f, hj, hm⟩ := inv.cached i hl (by rw [e, e3]; exact fun h => nomatch h)
      exact (hread j f hj hm).elim
  have hraw : d.rawInst = some n := by
    have := hdsc.object
    cases e4 : d.rawInst with
    | none => rw [e4] at this; exact (isLast_not_silent hn this).elim
    | some y => rw [e4] at this; rw [isLast_unique this hn]
  unfold TState.instCls
  simp only [ht, hx, e, hnone, hraw, hcd, hc, htab.graph, hf]

/-- A field that names no class has none, wherever it is used. -/
theorem unnamed_class {cs : List TCmd} {s : TState} {i : Nat} {ms : List Meth} {find : Nat → String → Option Nat}
    (hs : TState.start.run cs = some s)
    (hread : ∀ j f, TCmd.inst j f ∈ cs → ¬ MadeFrom (derivs cs) j i)
    (hr : Row (derivs cs) i ms) (hn : Silent objMark ms) : (s.instCls find i).1 = .ok none := by
  have inv := run_inv _ _ hs
  obtain ⟨t, d, ht, _, hd, hdsc⟩ := declared hs hr
  have hx := inv.good.refs i t ht
  have e : s.fdefs i = d := by
    rw [TState.fdefOf, ht, Option.map_some, hx] at hd
    injection hd
  have hl : i < s.types.length := by
    rcases Nat.lt_or_ge i s.types.length with h | h
    · exact h
    · rw [List.getElem?_eq_none h] at ht; cases ht
  have hnone : d.instCls = none := by
    cases e3 : d.instCls with
    | none => rfl
    | some y =>
      obtain ⟨j, f, hj, hm⟩ := inv.cached i hl (by rw [e, e3]; exact fun h => nomatch h)
      exact (hread j f hj hm).elim
  have hraw : d.rawInst = none := by
    have := hdsc.object
    cases e4 : d.rawInst with
    | none => rfl
    | some y => rw [e4] at this; exact (isLast_not_silent this hn).elim
  unfold TState.instCls
  simp only [ht, hx, e, hnone, hraw]

/-- Once a lookup succeeded, later ones give the same class, whatever the graphs hold by then. -/
theorem named_class_remembered {cs : List TCmd} {s : TState} {i x : Nat} {find find' : Nat → String → Option Nat}
    (hs : TState.start.run cs = some s) (h : (s.instCls find i).1 = .ok (some x)) :
    ((s.instCls find i).2.instCls find' i).1 = .ok (some x) := by
  have inv := run_inv _ _ hs
  unfold TState.instCls at h ⊢
  cases e : s.types[i]? with
  | none => rw [e] at h; cases h
  | some t =>
    have hx := inv.good.refs i t e
    simp only [e, hx] at h ⊢
    cases e1 : (s.fdefs i).instCls with
    | some c => rw [e1] at h; simp only [e, hx, e1]; exact h
    | none =>
      rw [e1] at h
      cases e2 : (s.fdefs i).rawInst with
      | none => rw [e2] at h; cases h
      | some n =>
        rw [e2] at h
        cases e3 : (s.fdefs i).cdef with
        | none => rw [e3] at h; cases h
        | some k =>
          rw [e3] at h
          simp only at h
          cases e4 : s.classes[k]? with
          | none => rw [e4] at h; cases h
          | some c =>
            rw [e4] at h
            simp only at h
            cases e5 : find c.graph n with
            | none => rw [e5] at h; cases h
            | some y =>
              rw [e5] at h
              simp only [e4, e5]
              have e6 : ∀ d, (s.put i d).types[i]? = some t := fun _ => e
              simp only [e6, hx, put_at]
              exact h

/-! #### Where marks do not mean what they say -/

/-- The full claim "the name is looked up in the graph of the class that declares the field"
is false: when one `Types` declares a field in two classes, the field of the first class is
looked up in the graph of the second. -/
theorem shared_declaration_broken {pre mid post : List TCmd} {g1 g2 : Nat} {fs1 fs2 : List (String × Nat)}
    {s : TState} {i : Nat} {ms : List Meth} {n : String} {find : Nat → String → Option Nat} {x : Nat}
    (hs : TState.start.run (pre ++ .cls g1 fs1 :: (mid ++ .cls g2 fs2 :: post)) = some s)
    (_h1 : i ∈ fs1.map Prod.snd) (h2 : i ∈ fs2.map Prod.snd) (hu : NotUsed post i)
    (hread : ∀ j f, TCmd.inst j f ∉ pre ++ .cls g1 fs1 :: (mid ++ .cls g2 fs2 :: post))
    (hr : Row (derivs (pre ++ .cls g1 fs1 :: (mid ++ .cls g2 fs2 :: post))) i ms) (hn : IsLast objMark ms n)
    (hf : find g2 n = some x) : (s.instCls find i).1 = .ok (some x) := by
  have e : pre ++ .cls g1 fs1 :: (mid ++ .cls g2 fs2 :: post) =
      (pre ++ .cls g1 fs1 :: mid) ++ .cls g2 fs2 :: post := by simp
  rw [e] at hs hr hread
  exact named_class_partial hs h2 hu (fun j f hj => (hread j f hj).elim) hr hn hf

/-- A list relation declared without `nonnull` may be null: the marks `linkto`, `linkedby`,
`linkedthru` and `listof` never make it nonnull, although their code says so. -/
theorem list_relation_nullable_broken {cs : List TCmd} {s : TState} {i : Nat} {ms : List Meth}
    (hs : TState.start.run cs = some s) (hr : Row (derivs cs) i ms) (hn : .one .nonnull ∉ ms) :
    ∃ d, s.fdefOf i = some d ∧ d.collNull ≠ .nonnull := by
  obtain ⟨_, d, _, _, hd, h⟩ := declared hs hr
  exact ⟨d, hd, fun e => hn (h.nonnull.1 e)⟩

/-- `asopd` after `asop` does not assign the operator directly: the transformer stays. -/
theorem asopd_after_asop_broken {cs : List TCmd} {s : TState} {i f : Nat} {ms : List Meth}
    (hs : TState.start.run cs = some s) (hr : Row (derivs cs) i (ms ++ [.one (.asop f), .one .asopd])) :
    ∃ d, s.fdefOf i = some d ∧ d.opAssign = true ∧ d.opTransformer = some f := by
  obtain ⟨_, d, _, _, hd, h⟩ := declared hs hr
  refine ⟨d, hd, h.operator.2 ⟨.one .asopd, by simp, rfl⟩, ?_⟩
  have h1 : IsLast asopMark (ms ++ [.one (.asop f), .one .asopd]) f :=
    ⟨ms, .one (.asop f), [.one .asopd], rfl, rfl, fun x hx => by rw [List.mem_singleton.1 hx]; rfl⟩
  have := h.asop
  cases e : d.opTransformer with
  | none => rw [e] at this; exact (isLast_not_silent h1 this).elim
  | some y => rw [e] at this; rw [isLast_unique this h1]

/-- A field marked `temp` and then declared a relation is stored: the mark is lost. -/
theorem temp_lost_broken {cs : List TCmd} {s : TState} {i : Nat} {ms : List Meth}
    (hs : TState.start.run cs = some s) (hr : Row (derivs cs) i (ms ++ [.one .temp, .one .linkto])) :
    ∃ d, s.fdefOf i = some d ∧ d.store = .localKey := by
  obtain ⟨_, d, _, _, hd, h⟩ := declared hs hr
  exact ⟨d, hd, decided_unique h.store (.inl ⟨ms ++ [.one .temp], .one .linkto, [], by simp, rfl, fun _ h => nomatch h⟩)⟩

/-- A field declared `linkedby` and then `linkto` keeps the foreign key of a relation it no
longer is. -/
theorem stale_foreign_key_broken {cs : List TCmd} {s : TState} {i : Nat} {ms : List Meth} {k : String}
    (hs : TState.start.run cs = some s) (hr : Row (derivs cs) i (ms ++ [.one (.linkedby k), .one .linkto])) :
    ∃ d, s.fdefOf i = some d ∧ d.store = .localKey ∧ d.foreignKey = some k := by
  obtain ⟨_, d, _, _, hd, h⟩ := declared hs hr
  refine ⟨d, hd, decided_unique h.store (.inl ⟨ms ++ [.one (.linkedby k)], .one .linkto, [], by simp, rfl,
    fun _ h => nomatch h⟩), ?_⟩
  have h1 : IsLast keyMark (ms ++ [.one (.linkedby k), .one .linkto]) k :=
    ⟨ms, .one (.linkedby k), [.one .linkto], rfl, rfl, fun x hx => by rw [List.mem_singleton.1 hx]; rfl⟩
  have := h.key
  cases e : d.foreignKey with
  | none => rw [e] at this; exact (isLast_not_silent h1 this).elim
  | some y => rw [e] at this; rw [isLast_unique this h1]

end JC

namespace JC.MarksDemo
open JC

/-- ```
text = types.str
name = text.required.unique
secret = text.internal.required
owner = types.objof('User').linkto.cascade
class Post (graph 0): name, secret, owner
class Draft (graph 1): name (its own), owner (the same Types)
``` -/
def program : List TCmd :=
  [.derive 0 (.one (.scalar .str)),            -- 1
   .derive 1 (.one .required),                 -- 2
   .derive 2 (.one (.index true none)),        -- 3  name
   .derive 1 .internal,                        -- 4
   .derive 4 (.one .required),                 -- 5  secret
   .derive 0 (.one (.objof "User")),           -- 6
   .derive 6 (.one .linkto),                   -- 7
   .derive 7 (.one .cascade),                  -- 8  owner
   .cls 0 [("name", 3), ("secret", 5), ("owner", 8)],
   .derive 3 .primary,                         -- 9
   .cls 1 [("name", 9), ("owner", 8)]]

theorem program_runs : ∃ s, TState.start.run program = some s := ⟨_, rfl⟩

theorem secret_row : Row (derivs program) 5 [.one (.scalar .str), .internal, .one .required] :=
  .step 4 4 _ [.one (.scalar .str), .internal] rfl (.step 3 1 _ [.one (.scalar .str)] rfl (.step 0 0 _ [] rfl .root))

theorem name_row : Row (derivs program) 3 [.one (.scalar .str), .one .required, .one (.index true none)] :=
  .step 2 2 _ [.one (.scalar .str), .one .required] rfl (.step 1 1 _ [.one (.scalar .str)] rfl (.step 0 0 _ [] rfl .root))

theorem owner_row : Row (derivs program) 8 [.one (.objof "User"), .one .linkto, .one .cascade] :=
  .step 7 7 _ [.one (.objof "User"), .one .linkto] rfl (.step 6 6 _ [.one (.objof "User")] rfl (.step 5 0 _ [] rfl .root))

/-- `declared`: the secret cannot be written or read from outside -/
example : ∃ s d, TState.start.run program = some s ∧ s.fdefOf 5 = some d ∧ d.writeRule = .noWrite ∧
    d.noRead = true ∧ d.required = true ∧ d.unique = false := by
  obtain ⟨s, hs⟩ := program_runs
  obtain ⟨_, d, _, _, hd, h⟩ := declared hs secret_row
  refine ⟨s, d, hs, hd, ?_, ?_, ?_, ?_⟩
  · exact decided_unique h.write (.inl ⟨[.one (.scalar .str)], .internal, [.one .required], rfl, rfl, by simp [writeMark]⟩)
  · exact decided_unique h.hide (.inl ⟨[.one (.scalar .str)], .internal, [.one .required], rfl, rfl, by simp [hideMark]⟩)
  · exact h.required.2 ⟨.one .required, by simp, rfl⟩
  · cases e : d.unique with
    | false => rfl
    | true =>
      obtain ⟨m, hm, h2⟩ := h.unique.1 e
      simp at hm
      rcases hm with rfl | rfl | rfl <;> cases h2

/-- `declaration_kept`: `name` is not changed by the `primary` made from it -/
example : ∃ s d, TState.start.run program = some s ∧ s.fdefOf 3 = some d ∧ d.primary = false := by
  obtain ⟨s, hs⟩ := program_runs
  obtain ⟨_, d, _, _, hd, h⟩ := declared hs name_row
  refine ⟨s, d, hs, hd, ?_⟩
  cases e : d.primary with
  | false => rfl
  | true => rcases h.primary.1 e with h | h <;> simp at h

/-- `class_tables`: both classes -/
example : ∃ s c c', TState.start.run program = some s ∧ s.classes[0]? = some c ∧ s.classes[1]? = some c' ∧
    c.unique = ["name"] ∧ c.cascade = ["owner"] ∧ c.primary = none ∧ c'.primary = some "name" ∧ c'.graph = 1 :=
  ⟨_, _, _, rfl, rfl, rfl, rfl, rfl, rfl, rfl, rfl⟩

/-- users of the two graphs -/
def users : Nat → String → Option Nat
  | 0, "User" => some 10
  | 1, "User" => some 20
  | _, "Account" => some 30
  | _, _ => none

/-- `shared_declaration_broken`: the owner of a `Post` of graph 0 is looked up in graph 1 -/
example : ∃ s, TState.start.run program = some s ∧ (s.instCls users 8).1 = .ok (some 20) := by
  obtain ⟨s, hs⟩ := program_runs
  refine ⟨s, hs, ?_⟩
  refine shared_declaration_broken (pre := program.take 8) (mid := [.derive 3 .primary]) (post := [])
    (g1 := 0) (g2 := 1) (fs1 := [("name", 3), ("secret", 5), ("owner", 8)]) (fs2 := [("name", 9), ("owner", 8)])
    (n := "User") hs (by simp) (by simp) (fun _ _ h => nomatch h) (fun j f h => ?_) owner_row
    ⟨[], _, _, rfl, rfl, by simp [objMark]⟩ rfl
  simp [program] at h

theorem owner_row9 : Row (derivs (program.take 9)) 8 [.one (.objof "User"), .one .linkto, .one .cascade] :=
  .step 7 7 _ [.one (.objof "User"), .one .linkto] rfl (.step 6 6 _ [.one (.objof "User")] rfl (.step 5 0 _ [] rfl .root))

/-- `named_class_partial`: without the second class, in its own graph -/
example : ∃ s, TState.start.run (program.take 9) = some s ∧ (s.instCls users 8).1 = .ok (some 10) := by
  refine ⟨_, rfl, ?_⟩
  refine named_class_partial (pre := program.take 8) (post := []) (g := 0)
    (fs := [("name", 3), ("secret", 5), ("owner", 8)]) (i := 8) (n := "User") rfl (by simp) (fun _ _ h => nomatch h)
    (fun j f h => ?_) owner_row9 ⟨[], _, _, rfl, rfl, by simp [objMark]⟩ rfl
  simp [program] at h

/-- The full claim of `named_class_partial` is false also for a declaration used once: a lookup
on the declaration it is made from is copied along. `account = owner.objof('Account')`, made
after a first use of `owner`, stands for users. -/
theorem stale_class_broken : ∃ s,
    TState.start.run [.derive 0 (.one (.objof "User")), .cls 0 [("owner", 1)], .inst 1 users,
      .derive 1 (.one (.objof "Account")), .cls 0 [("account", 2)]] = some s ∧
    Row (derivs [.derive 0 (.one (.objof "User")), .cls 0 [("owner", 1)], .inst 1 users,
      .derive 1 (.one (.objof "Account")), .cls 0 [("account", 2)]]) 2 [.one (.objof "User"), .one (.objof "Account")] ∧
    users 0 "Account" = some 30 ∧ (s.instCls users 2).1 = .ok (some 10) :=
  ⟨_, rfl, .step 1 1 _ [.one (.objof "User")] rfl (.step 0 0 _ [] rfl .root), rfl, rfl⟩

/-- `asopd_after_asop_broken`, `temp_lost_broken`, `stale_foreign_key_broken`,
`list_relation_nullable_broken`: the rows exist -/
example : ∃ s, TState.start.run [.derive 0 (.one (.asop 7)), .derive 1 (.one .asopd)] = some s ∧
    Row (derivs [.derive 0 (.one (.asop 7)), .derive 1 (.one .asopd)]) 2 [.one (.asop 7), .one .asopd] :=
  ⟨_, rfl, .step 1 1 _ [.one (.asop 7)] rfl (.step 0 0 _ [] rfl .root)⟩

example : ∃ s, TState.start.run [.derive 0 (.one .temp), .derive 1 (.one .linkto)] = some s ∧
    Row (derivs [.derive 0 (.one .temp), .derive 1 (.one .linkto)]) 2 [.one .temp, .one .linkto] :=
  ⟨_, rfl, .step 1 1 _ [.one .temp] rfl (.step 0 0 _ [] rfl .root)⟩

example : ∃ s, TState.start.run [.derive 0 (.one (.linkedby "a")), .derive 1 (.one .linkto)] = some s ∧
    Row (derivs [.derive 0 (.one (.linkedby "a")), .derive 1 (.one .linkto)]) 2 [.one (.linkedby "a"), .one .linkto] :=
  ⟨_, rfl, .step 1 1 _ [.one (.linkedby "a")] rfl (.step 0 0 _ [] rfl .root)⟩

example : ∃ s, TState.start.run [.derive 0 (.one (.listof 0)), .derive 1 (.one (.linkedby "a"))] = some s ∧
    Row (derivs [.derive 0 (.one (.listof 0)), .derive 1 (.one (.linkedby "a"))]) 2
      [.one (.listof 0), .one (.linkedby "a")] ∧ Meth.one .nonnull ∉ [.one (.listof 0), .one (.linkedby "a")] :=
  ⟨_, rfl, .step 1 1 _ [.one (.listof 0)] rfl (.step 0 0 _ [] rfl .root), by simp⟩

/-- `same_row_same_definition`: two rows with the same methods -/
example : ∃ s, TState.start.run [.derive 0 (.one .readonly), .derive 0 (.one .readonly), .cls 0 [("a", 1)]] = some s ∧
    Row (derivs [.derive 0 (.one .readonly), .derive 0 (.one .readonly), .cls 0 [("a", 1)]]) 1 [.one .readonly] ∧
    Row (derivs [.derive 0 (.one .readonly), .derive 0 (.one .readonly), .cls 0 [("a", 1)]]) 2 [.one .readonly] :=
  ⟨_, rfl, .step 0 0 _ [] rfl .root, .step 1 0 _ [] rfl .root⟩

/-- `unnamed_class`: the name of a post -/
example : ∃ s, TState.start.run program = some s ∧ (s.instCls users 3).1 = .ok none :=
  ⟨_, rfl, unnamed_class (cs := program) rfl (fun j f h => by simp [program] at h) name_row
    (fun x hx => by simp at hx; rcases hx with rfl | rfl | rfl <;> rfl)⟩

/-- `named_class_remembered` -/
example : ∃ s, TState.start.run (program.take 9) = some s ∧ (s.instCls users 8).1 = .ok (some 10) ∧
    ((s.instCls users 8).2.instCls (fun _ _ => none) 8).1 = .ok (some 10) :=
  ⟨_, rfl, rfl, named_class_remembered (cs := program.take 9) (find := users) rfl rfl⟩

end JC.MarksDemo
