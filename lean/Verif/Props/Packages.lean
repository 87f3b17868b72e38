import Verif.Model.Packages
import Verif.Props.Keypath
import Verif.Props.Equality

/-!
C95: declaring a type that needs a missing package installs the package and lists it in
`requirements.txt`, where nothing else changes.
-/

namespace JC

/-! ### Specification -/

/-- The text of a file with these lines, each one ended. -/
def textOf (lines : List (List Char)) : List Char := (lines.map (· ++ ['\n'])).flatten

/-- one line -/
def OneLine (s : List Char) : Prop := '\n' ∉ s

/-- The text occurs in one of the lines. -/
def OccursIn (s : List Char) (lines : List (List Char)) : Prop :=
  ∃ l ∈ lines, ∃ a b, l = a ++ s ++ b

/-- From `lines`, `added` lines are appended for the packages `ps`, in order: a package gets the line
of its name and version if its name occurs in no line so far. -/
inductive LinesAdded : List (List Char) → List PyPackage → List (List Char) → Prop
  | nil (ls) : LinesAdded ls [] ls
  | known {ls ps ls'} (p : PyPackage) (h : OccursIn p.name ls) (hr : LinesAdded ls ps ls') :
      LinesAdded ls (p :: ps) ls'
  | new {ls ps ls'} (p : PyPackage) (h : ¬ OccursIn p.name ls)
      (hr : LinesAdded (ls ++ [p.name ++ p.version]) ps ls') : LinesAdded ls (p :: ps) ls'

/-! ### Lines -/

theorem textOf_append (a b : List (List Char)) : textOf (a ++ b) = textOf a ++ textOf b := by
  simp [textOf]

theorem fileLines_textOf (ls : List (List Char)) (h : ∀ l ∈ ls, OneLine l) :
    fileLines (textOf ls) = ls ++ [[]] := by
  induction ls with
  | nil => rfl
  | cons l ls ih =>
    have h1 : ∀ c ∈ l, (c == '\n') = false := by
      intro c hc
      have : c ≠ '\n' := fun e => h l (by simp) (e ▸ hc)
      simpa using this
    have : textOf (l :: ls) = l ++ '\n' :: textOf ls := by simp [textOf]
    rw [this, fileLines, splitP_word_sep _ _ _ _ (by rfl) h1]
    have := ih (fun x hx => h x (List.mem_cons_of_mem _ hx))
    rw [fileLines] at this
    rw [this]; rfl

/-- A name that is not empty is looked for in the lines. -/
theorem mentioned_iff (ls : List (List Char)) (h : ∀ l ∈ ls, OneLine l) (n : List Char)
    (hn : n ≠ []) : mentioned n (textOf ls) = true ↔ OccursIn n ls := by
  rw [mentioned, fileLines_textOf ls h, List.any_eq_true]
  constructor
  · rintro ⟨l, hl, hi⟩
    obtain ⟨a, b, he⟩ := isInfixB_iff.mp hi
    rcases List.mem_append.mp hl with hl | hl
    · exact ⟨l, hl, a, b, he⟩
    · cases List.mem_singleton.mp hl
      have h' := he.symm
      simp only [List.append_eq_nil_iff] at h'
      exact (hn h'.1.2).elim
  · rintro ⟨l, hl, a, b, he⟩
    exact ⟨l, List.mem_append_left _ hl, isInfixB_iff.mpr ⟨a, b, he⟩⟩

/-! ### The theorems -/

/-- When every module is there, nothing happens. -/
theorem nothing_missing (pip : List Char → Option (List (List Char))) (ps : List PyPackage)
    (m : Machine) (h : ∀ p ∈ ps, p.mod ∈ m.importable) :
    checkAndInstall pip (some ps) m = (.ok (), m) := by
  simp only [checkAndInstall]
  induction ps with
  | nil => rfl
  | cons p ps ih =>
    have : m.importable.contains p.mod = true := by simpa using h p (by simp)
    rw [installLoop, if_pos this]
    exact ih (fun q hq => h q (List.mem_cons_of_mem _ hq))

theorem importable_grows (pip : List Char → Option (List (List Char))) (p : PyPackage)
    (m m' : Machine) (r : Except Exc Unit) (h : installPackage pip p m = (r, m')) :
    (∀ x ∈ m.importable, x ∈ m'.importable) ∧ m'.pips = m.pips ++ [p.param] ∧
      (∀ t, m.requirements = some t → ∃ s, m'.requirements = some (t ++ s)) := by
  unfold installPackage at h
  split at h
  · cases h; exact ⟨fun x hx => hx, rfl, fun t ht => ⟨[], by simpa using ht⟩⟩
  · simp only at h
    split at h
    · next hr => cases h; exact ⟨fun x hx => List.mem_append_left _ hx, rfl, fun t ht => by simp_all⟩
    · next content hr =>
      split at h
      · cases h; exact ⟨fun x hx => List.mem_append_left _ hx, rfl, fun t ht => ⟨[], by simpa using ht⟩⟩
      · cases h
        refine ⟨fun x hx => List.mem_append_left _ hx, rfl, fun t ht => ?_⟩
        rw [hr] at ht; cases ht
        exact ⟨_, rfl⟩

/-- Whatever happens, also when pip fails: the text of the file stays and can only grow at its end,
no module disappears, and pip is only called for packages of the list whose module was missing, in
their order. -/
theorem install_only_adds (pip : List Char → Option (List (List Char))) (ps : List PyPackage)
    (m : Machine) :
    let m' := (checkAndInstall pip (some ps) m).2
    (∀ t, m.requirements = some t → ∃ s, m'.requirements = some (t ++ s)) ∧
    (∀ x ∈ m.importable, x ∈ m'.importable) ∧
    ∃ called : List PyPackage, called.Sublist ps ∧ (∀ p ∈ called, p.mod ∉ m.importable) ∧
      m'.pips = m.pips ++ called.map (fun p => p.name ++ p.version) := by
  simp only [checkAndInstall]
  induction ps generalizing m with
  | nil => exact ⟨fun t ht => ⟨[], by simpa [installLoop] using ht⟩, fun x hx => hx,
      [], .slnil, by simp, by simp [installLoop]⟩
  | cons p ps ih =>
    rw [installLoop]
    split
    · obtain ⟨h1, h2, called, h3, h4, h5⟩ := ih m
      exact ⟨h1, h2, called, h3.cons _, h4, h5⟩
    · next hc =>
      have hnot : p.mod ∉ m.importable := by simpa using hc
      split
      · next e m' he =>
        obtain ⟨g1, g2, g3⟩ := importable_grows pip p m m' _ he
        refine ⟨g3, g1, [p], by simp, ?_, by rw [g2]; rfl⟩
        intro q hq
        cases List.mem_singleton.mp hq
        exact hnot
      · next m' he =>
        obtain ⟨g1, g2, g3⟩ := importable_grows pip p m m' _ he
        obtain ⟨h1, h2, called, h3, h4, h5⟩ := ih m'
        refine ⟨fun t ht => ?_, fun x hx => h2 x (g1 x hx), p :: called, h3.cons_cons _, ?_, ?_⟩
        · obtain ⟨s, hs⟩ := g3 t ht
          obtain ⟨s', hs'⟩ := h1 _ hs
          exact ⟨s ++ s', by rw [hs', List.append_assoc]⟩
        · intro q hq
          rcases List.mem_cons.mp hq with rfl | hq
          · exact hnot
          · exact fun hm => h4 q hq (g1 _ hm)
        · rw [h5, g2, List.append_assoc]; rfl

/-- A call that succeeds on a file of ended lines: pip was called for packages of the list whose
module was missing, at least for every module that is still missing, and the file has its lines plus a line for each of them
whose name occurred in no line. -/
theorem missing_listed (pip : List Char → Option (List (List Char))) (ps : List PyPackage)
    (m : Machine) (ls : List (List Char)) (hl : ∀ l ∈ ls, OneLine l)
    (hp : ∀ p ∈ ps, p.name ≠ [] ∧ OneLine p.name ∧ OneLine p.version)
    (hr : m.requirements = some (textOf ls))
    (hok : (checkAndInstall pip (some ps) m).1 = .ok ()) :
    ∃ called ls', (called.Sublist ps ∧ ∀ p ∈ called, p.mod ∉ m.importable) ∧ LinesAdded ls called ls' ∧
      (checkAndInstall pip (some ps) m).2.requirements = some (textOf ls') ∧
      (checkAndInstall pip (some ps) m).2.pips =
        m.pips ++ called.map (fun p => p.name ++ p.version) ∧
      (∀ p ∈ ps, p.mod ∉ (checkAndInstall pip (some ps) m).2.importable → p ∈ called) := by
  simp only [checkAndInstall] at hok ⊢
  induction ps generalizing m ls with
  | nil => exact ⟨[], ls, ⟨.slnil, by simp⟩, .nil ls, hr, by simp [installLoop], by simp⟩
  | cons p ps ih =>
    have hps := fun q hq => hp q (List.mem_cons_of_mem _ hq)
    obtain ⟨hne, hn1, hv1⟩ := hp p (by simp)
    rw [installLoop] at hok ⊢
    by_cases hc : m.importable.contains p.mod = true
    · simp only [if_pos hc] at hok ⊢
      obtain ⟨called, ls', ⟨h1, h0⟩, h2, h3, h4, h5⟩ := ih m ls hl hps hr hok
      refine ⟨called, ls', ⟨h1.cons _, h0⟩, h2, h3, h4, fun q hq hm => ?_⟩
      rcases List.mem_cons.mp hq with rfl | hq
      · have hin : q.mod ∈ m.importable := by simpa using hc
        exact (hm ((install_only_adds pip ps m).2.1 _ hin)).elim
      · exact h5 q hq hm
    · simp only [if_neg hc] at hok ⊢
      cases hpi : installPackage pip p m with
      | mk r m' =>
        rw [hpi] at hok
        cases r with
        | error e => cases hok
        | ok u =>
          simp only at hok ⊢
          obtain ⟨g1, g2, _⟩ := importable_grows pip p m m' _ hpi
          have hcall : ∀ called : List PyPackage, (∀ q ∈ called, q.mod ∉ m'.importable) →
              ∀ q ∈ p :: called, q.mod ∉ m.importable := by
            intro called h0 q hq
            rcases List.mem_cons.mp hq with rfl | hq
            · simpa using hc
            · exact fun hm => h0 q hq (g1 _ hm)
          -- the file after this package
          have step : (OccursIn p.name ls ∧ m'.requirements = some (textOf ls)) ∨
              (¬ OccursIn p.name ls ∧
                m'.requirements = some (textOf (ls ++ [p.name ++ p.version]))) := by
            unfold installPackage at hpi
            split at hpi
            · cases hpi
            · simp only [hr] at hpi
              by_cases hm : mentioned p.name (textOf ls) = true
              · rw [if_pos hm] at hpi
                cases hpi
                exact .inl ⟨(mentioned_iff ls hl _ hne).mp hm, rfl⟩
              · rw [if_neg hm] at hpi
                cases hpi
                refine .inr ⟨fun ho => hm ((mentioned_iff ls hl _ hne).mpr ho), ?_⟩
                rw [textOf_append]
                simp [textOf, PyPackage.param]
          rcases step with ⟨ho, hr'⟩ | ⟨ho, hr'⟩
          · obtain ⟨called, ls', ⟨h1, h0⟩, h2, h3, h4, h5⟩ := ih m' ls hl hps hr' hok
            refine ⟨p :: called, ls', ⟨h1.cons_cons _, hcall called h0⟩, .known p ho h2, h3, ?_, fun q hq hm => ?_⟩
            · rw [h4, g2, List.append_assoc]; rfl
            · rcases List.mem_cons.mp hq with rfl | hq
              · simp
              · exact List.mem_cons_of_mem _ (h5 q hq hm)
          · have hl' : ∀ l ∈ ls ++ [p.name ++ p.version], OneLine l := by
              intro l hlm
              rcases List.mem_append.mp hlm with hlm | hlm
              · exact hl l hlm
              · cases List.mem_singleton.mp hlm
                simp only [OneLine, List.mem_append, not_or]
                exact ⟨hn1, hv1⟩
            obtain ⟨called, ls', ⟨h1, h0⟩, h2, h3, h4, h5⟩ := ih m' _ hl' hps hr' hok
            refine ⟨p :: called, ls', ⟨h1.cons_cons _, hcall called h0⟩, .new p ho h2, h3, ?_, fun q hq hm => ?_⟩
            · rw [h4, g2, List.append_assoc]; rfl
            · rcases List.mem_cons.mp hq with rfl | hq
              · simp
              · exact List.mem_cons_of_mem _ (h5 q hq hm)

theorem occursIn_mono {s : List Char} {a b : List (List Char)} (h : OccursIn s a) :
    OccursIn s (a ++ b) := by
  obtain ⟨l, hl, r⟩ := h
  exact ⟨l, List.mem_append_left _ hl, r⟩

/-- What `LinesAdded` gives: the old lines come first, every package occurs, and every line is an old
one or the line of a package. -/
theorem listed_facts {ls ls' : List (List Char)} {ps : List PyPackage} (h : LinesAdded ls ps ls') :
    (∃ added, ls' = ls ++ added ∧ added.Sublist (ps.map (fun p => p.name ++ p.version))) ∧
      (∀ p ∈ ps, OccursIn p.name ls') := by
  induction h with
  | nil ls => exact ⟨⟨[], by simp, by simp⟩, by simp⟩
  | known p h hr ih =>
    obtain ⟨⟨added, rfl, hs⟩, ho⟩ := ih
    refine ⟨⟨added, rfl, hs.cons _⟩, fun q hq => ?_⟩
    rcases List.mem_cons.mp hq with rfl | hq
    · exact occursIn_mono h
    · exact ho q hq
  | @new ls ps ls' p h hr ih =>
    obtain ⟨⟨added, rfl, hs⟩, ho⟩ := ih
    refine ⟨⟨[p.name ++ p.version] ++ added, by simp, hs.cons_cons _⟩, fun q hq => ?_⟩
    rcases List.mem_cons.mp hq with rfl | hq
    · exact occursIn_mono ⟨q.name ++ q.version, by simp, [], q.version, by simp⟩
    · exact ho q hq

/-- A package whose name occurs in the file adds nothing. -/
theorem occurring_adds_nothing (pip : List Char → Option (List (List Char))) (ps : List PyPackage)
    (m : Machine) (ls : List (List Char)) (hl : ∀ l ∈ ls, OneLine l)
    (hp : ∀ p ∈ ps, p.name ≠ [])
    (hr : m.requirements = some (textOf ls))
    (ho : ∀ p ∈ ps, p.mod ∉ m.importable → OccursIn p.name ls) :
    (checkAndInstall pip (some ps) m).2.requirements = some (textOf ls) := by
  simp only [checkAndInstall]
  induction ps generalizing m with
  | nil => exact hr
  | cons p ps ih =>
    rw [installLoop]
    have hps := fun q hq => hp q (List.mem_cons_of_mem _ hq)
    split
    · exact ih m hps hr (fun q hq => ho q (List.mem_cons_of_mem _ hq))
    · next hc =>
      have hocc := ho p (by simp) (by simpa using hc)
      have hm : mentioned p.name (textOf ls) = true := (mentioned_iff ls hl _ (hp p (by simp))).mpr hocc
      have hreq : (installPackage pip p m).2.requirements = some (textOf ls) := by
        unfold installPackage
        split
        · exact hr
        · simp only [hr, if_pos hm]
      split
      · next e m' he => rw [he] at hreq; exact hreq
      · next m' he =>
        rw [he] at hreq
        have g := importable_grows pip p m m' _ he
        exact ih m' hps hreq (fun q hq hn => ho q (List.mem_cons_of_mem _ hq) (fun hi => hn (g.1 _ hi)))

/-- Declaring the same types again, in the same or a later run, leaves the file as it is: no package
is listed twice. -/
theorem listed_once (pip pip' : List Char → Option (List (List Char))) (ps : List PyPackage)
    (m : Machine) (ls : List (List Char)) (hl : ∀ l ∈ ls, OneLine l)
    (hp : ∀ p ∈ ps, p.name ≠ [] ∧ OneLine p.name ∧ OneLine p.version)
    (hr : m.requirements = some (textOf ls))
    (hok : (checkAndInstall pip (some ps) m).1 = .ok ()) :
    (checkAndInstall pip' (some ps) (checkAndInstall pip (some ps) m).2).2.requirements =
      (checkAndInstall pip (some ps) m).2.requirements := by
  obtain ⟨called, ls', ⟨h1, _⟩, h2, h3, _, h5⟩ := missing_listed pip ps m ls hl hp hr hok
  obtain ⟨⟨added, rfl, hs⟩, hocc⟩ := listed_facts h2
  rw [h3]
  refine occurring_adds_nothing pip' ps _ _ ?_ (fun p hpm => (hp p hpm).1) h3
    (fun p hpm hn => hocc p (h5 p hpm hn))
  intro l hlm
  rcases List.mem_append.mp hlm with hlm | hlm
  · exact hl l hlm
  · obtain ⟨p, hpc, rfl⟩ := List.mem_map.mp (hs.subset hlm)
    obtain ⟨_, a, b⟩ := hp p (h1.subset hpc)
    simp only [OneLine, List.mem_append, not_or]
    exact ⟨a, b⟩

end JC

/-! ### Cases -/

namespace JC.PackagesDemo

/-- what `types.str.salt` needs -/
def bcrypt : PyPackage := ⟨"bcrypt".toList, "bcrypt".toList, ">=3.2.0,<4.0.0".toList⟩
/-- what an S3 uploader needs -/
def boto3 : PyPackage := ⟨"boto3".toList, "boto3".toList, ">=1.18.61,<2.0.0".toList⟩

/-- pip makes the packages importable -/
def pip : List Char → Option (List (List Char)) := fun s =>
  if s = bcrypt.param then some ["bcrypt".toList] else if s = boto3.param then some ["boto3".toList]
  else none

/-- a file with one line; nothing can be imported -/
def start : Machine := ⟨[], some (textOf ["flask==2.0".toList]), []⟩

/-- Both packages are installed and listed. -/
theorem both_listed : checkAndInstall pip (some [bcrypt, boto3]) start = (.ok (),
    ⟨["bcrypt".toList, "boto3".toList],
     some (textOf ["flask==2.0".toList, "bcrypt>=3.2.0,<4.0.0".toList, "boto3>=1.18.61,<2.0.0".toList]),
     ["bcrypt>=3.2.0,<4.0.0".toList, "boto3>=1.18.61,<2.0.0".toList]⟩) := by rfl

/-- The hypotheses of the theorems hold for it. -/
example : (∀ l ∈ ["flask==2.0".toList], OneLine l) ∧
    (∀ p ∈ [bcrypt, boto3], p.name ≠ [] ∧ OneLine p.name ∧ OneLine p.version) ∧
    (checkAndInstall pip (some [bcrypt, boto3]) start).1 = .ok () := by
  refine ⟨?_, ?_, by rw [both_listed]⟩
  · unfold OneLine; decide
  · unfold OneLine
    intro p hp
    rcases List.mem_cons.mp hp with rfl | hp
    · decide
    · cases List.mem_singleton.mp hp
      decide

/-- Violation: with a package in the file whose name contains the name, the package is installed
but not listed. -/
theorem longer_name_hides : (checkAndInstall pip (some [bcrypt])
    ⟨[], some (textOf ["flask-bcrypt==1.0".toList]), []⟩) = (.ok (),
      ⟨["bcrypt".toList], some (textOf ["flask-bcrypt==1.0".toList]), [bcrypt.param]⟩) := by rfl

/-- Violation: when the last line of the file is not ended, the new line is joined to it, and the
file asks for neither package as before. -/
theorem unended_line_joined : (checkAndInstall pip (some [bcrypt])
    ⟨[], some "flask==2.0".toList, []⟩).2.requirements =
      some (textOf ["flask==2.0bcrypt>=3.2.0,<4.0.0".toList]) := by rfl

/-- Violation: without the file the declaration raises FileNotFoundError although the package was
just installed; the same declaration succeeds the next time and the package is never listed. -/
theorem no_file_raises :
    checkAndInstall pip (some [bcrypt]) ⟨[], none, []⟩ =
      (.error (.other 2), ⟨["bcrypt".toList], none, [bcrypt.param]⟩) ∧
    checkAndInstall pip (some [bcrypt]) ⟨["bcrypt".toList], none, [bcrypt.param]⟩ =
      (.ok (), ⟨["bcrypt".toList], none, [bcrypt.param]⟩) := ⟨by rfl, by rfl⟩

end JC.PackagesDemo
