import Verif.Model.Annot
import Verif.Props.Keypath

/-
C53: a field annotation written as text means what it spells.
-/
namespace JC

/-! ### Specification -/

/-- how a relation is kept -/
inductive Lnk where
  | linkto
  | linkedby (k : Txt)
  | linkedthru (k : Txt)

/-- The annotations a class author writes. `cap` chooses `List`/`Dict` over `list`/`dict`;
`null` is `None`, a member of a union; `pipe` is `X | Y`. -/
inductive Ann where
  | prim (p : Prim)
  | name (n : Txt)
  | null
  | list (cap : Bool) (a : Ann)
  | dict (cap : Bool) (a : Ann)
  | opt (a : Ann)
  | union (as : List Ann)
  | pipe (as : List Ann)
  | link (a : Ann) (l : Lnk)

/-- the source text of a built-in type -/
def Prim.text : Prim → Txt
  | .str => c!"str"
  | .int => c!"int"
  | .float => c!"float"
  | .bool => c!"bool"
  | .date => c!"date"
  | .datetime => c!"datetime"
  | .any => c!"Any"

/-- the source text of a link -/
def Lnk.text : Lnk → Txt
  | .linkto => c!"linkto"
  | .linkedby k => c!"linkedby('" ++ k ++ c!"')"
  | .linkedthru k => c!"linkedthru('" ++ k ++ c!"')"

mutual
/-- the source text -/
def Ann.text : Ann → Txt
  | .prim p => p.text
  | .name n => n
  | .null => c!"None"
  | .list cap a => (if cap then c!"List[" else c!"list[") ++ (a.text ++ c!"]")
  | .dict cap a => (if cap then c!"Dict[" else c!"dict[") ++ (c!"str, " ++ (a.text ++ c!"]"))
  | .opt a => c!"Optional[" ++ (a.text ++ c!"]")
  | .union as => c!"Union[" ++ (Ann.commas as ++ c!"]")
  | .pipe as => Ann.bars as
  | .link a l => c!"Annotated[" ++ (a.text ++ (c!", " ++ (l.text ++ c!"]")))

/-- `a, b, c` -/
def Ann.commas : List Ann → Txt
  | [] => []
  | a :: as => a.text ++ Ann.commasMore as

/-- `, b, c` -/
def Ann.commasMore : List Ann → Txt
  | [] => []
  | a :: as => c!", " ++ (a.text ++ Ann.commasMore as)

/-- `a | b | c` -/
def Ann.bars : List Ann → Txt
  | [] => []
  | a :: as => a.text ++ Ann.barsMore as

/-- ` | b | c` -/
def Ann.barsMore : List Ann → Txt
  | [] => []
  | a :: as => c!" | " ++ (a.text ++ Ann.barsMore as)
end

mutual
/-- does the annotation admit `None` (`Any` does not count) -/
def Ann.admitsNone : Ann → Bool
  | .null => true
  | .opt _ => true
  | .union as => Ann.anyAdmits as
  | .pipe as => Ann.anyAdmits as
  | .link a _ => a.admitsNone
  | _ => false

/-- does one of them -/
def Ann.anyAdmits : List Ann → Bool
  | [] => false
  | a :: as => a.admitsNone || Ann.anyAdmits as
end

def Ann.isNull : Ann → Bool
  | .null => true
  | _ => false

def Ann.isPipe : Ann → Bool
  | .pipe _ => true
  | _ => false

def Ann.isDict : Ann → Bool
  | .dict _ _ => true
  | _ => false

mutual
/-- is it a list, whether or not `None` is admitted -/
def Ann.isList : Ann → Bool
  | .list _ _ => true
  | .opt a => a.isList
  | .link a _ => a.isList
  | .pipe as => (as.filter (fun a => !a.isNull)).length = 1 && Ann.hasList as
  | _ => false

/-- is one of them a list -/
def Ann.hasList : List Ann → Bool
  | [] => false
  | a :: as => a.isList || Ann.hasList as
end

/-- what a name stands for: nothing yet, a class or an enum -/
inductive Named where
  | unresolved
  | cls (c : Nat)
  | enum (e : Nat)

/-- its modifier -/
def Named.tmod (n : Txt) : Named → TMod
  | .unresolved => .unresolved n
  | .cls c => .objof c
  | .enum e => .enum e

/-- no name is known -/
def noNames (_ : Txt) : Named := .unresolved

mutual
/-- The definition an annotation stands for. `o`: the surroundings admit `None`, or it does
not matter. Items of lists and dicts, and the field itself, are required unless the
annotation admits `None`; alternatives of a union are not required one by one. -/
def Ann.means (ν : Txt → Named) : Ann → Bool → List TMod
  | .prim p, o => reqIf o [.prim p]
  | .name n, o => reqIf o [(ν n).tmod n]
  | .null, _ => []
  | .list _ a, o => reqIf o [.listof (a.means ν false)]
  | .dict _ a, o => reqIf o [.dictof (a.means ν false)]
  | .opt a, _ => a.means ν true
  | .union as, o => reqIf (o || Ann.anyAdmits as) [.union (Ann.meansL ν as)]
  | .pipe as, o => match Ann.meansL ν as with
    | [t] => t
    | ts => reqIf (o || Ann.anyAdmits as) [.union ts]
  | .link a .linkto, o => a.means ν o ++ [.linkto]
  | .link a (.linkedby k), o => a.means ν o ++ (if a.isList then [.nonnull, .linkedby k] else [.linkedby k])
  | .link a (.linkedthru k), o => a.means ν o ++ [.nonnull, .linkedthru k]

/-- the alternatives other than `None` -/
def Ann.meansL (ν : Txt → Named) : List Ann → List (List TMod)
  | [] => []
  | .null :: as => Ann.meansL ν as
  | a :: as => a.means ν true :: Ann.meansL ν as
end

/-- characters of names and keys -/
def nameChar (c : Char) : Bool := c ≠ '[' && c ≠ ']' && c ≠ '|' && c ≠ ',' && !isSpace c

/-- a class or enum name -/
def IsName (n : Txt) : Prop := n ≠ [] ∧ (∀ c ∈ n, nameChar c = true) ∧ (∀ p : Prim, n ≠ p.text) ∧ n ≠ c!"None"

/-- the key of a link is a field name -/
def Lnk.Good : Lnk → Prop
  | .linkto => True
  | .linkedby k => k ≠ [] ∧ ∀ c ∈ k, nameChar c = true
  | .linkedthru k => k ≠ [] ∧ ∀ c ∈ k, nameChar c = true

mutual
/-- The annotations read correctly: no comma inside the items of a dict, no comma inside the
members of `Union[...]` except that of a dict, no `None` in `Union[...]`, and `None` admitted
by an alternative only where the union has `None` itself. (Beyond that the code goes wrong, see
`annot_nested_dict`, `annot_union_none`, `annot_union_nested`, `annot_pipe_optional`.) -/
def Ann.Good : Ann → Prop
  | .prim _ => True
  | .name n => IsName n
  | .null => False
  | .list _ a => a.Good
  | .dict _ a => a.Good ∧ ',' ∉ a.text
  | .opt a => a.Good
  | .union as => as ≠ [] ∧ Ann.GoodMembers as
  | .pipe as => 2 ≤ as.length ∧ Ann.GoodAlts as ∧ (∃ a ∈ as, a.isNull = false) ∧
      ((∃ a ∈ as, a.isNull = true) ∨ Ann.anyAdmits as = false)
  | .link a l => a.Good ∧ l.Good

/-- members of `Union[...]` -/
def Ann.GoodMembers : List Ann → Prop
  | [] => True
  | a :: as => (a.Good ∧ a.admitsNone = false ∧ (',' ∉ a.text ∨ a.isDict = true)) ∧ Ann.GoodMembers as

/-- members of `a | b` -/
def Ann.GoodAlts : List Ann → Prop
  | [] => True
  | a :: as => (a.isNull = true ∨ (a.Good ∧ a.isPipe = false)) ∧ Ann.GoodAlts as
end

/-! ### Texts -/

theorem after_append (p s : Txt) : after? p (p ++ s) = some s := by
  unfold after?
  rw [if_pos (List.isPrefixOf_iff_prefix.2 ⟨s, rfl⟩), List.drop_left]

theorem uptoLast_append (t : Txt) : uptoLast (t ++ c!"]") = some t := by
  unfold uptoLast
  simp

/-- reading inside brackets: the text leaves depth and piece alone -/
def Inner (t : Txt) : Prop := ∀ (d : Int) (cur r : Txt), 1 ≤ d → uSplit d cur (t ++ r) = uSplit d (t.reverse ++ cur) r

/-- reading anywhere -/
def Solid (t : Txt) : Prop := ∀ (d : Int) (cur r : Txt), 0 ≤ d → uSplit d cur (t ++ r) = uSplit d (t.reverse ++ cur) r

theorem Solid.inner {t : Txt} (h : Solid t) : Inner t := fun d cur r hd => h d cur r (by omega)

theorem inner_append {s t : Txt} (hs : Inner s) (ht : Inner t) : Inner (s ++ t) := fun d cur r hd => by
  rw [List.append_assoc, hs d cur _ hd, ht d _ r hd]; simp

theorem solid_append {s t : Txt} (hs : Solid s) (ht : Solid t) : Solid (s ++ t) := fun d cur r hd => by
  rw [List.append_assoc, hs d cur _ hd, ht d _ r hd]; simp

theorem solid_chars {t : Txt} (h : ∀ c ∈ t, c ≠ '[' ∧ c ≠ ']' ∧ c ≠ '|') : Solid t := by
  intro d cur r hd
  induction t generalizing cur with
  | nil => rfl
  | cons c cs ih =>
    obtain ⟨h1, h2, h3⟩ := h c (by simp)
    have : uSplit d cur ((c :: cs) ++ r) = uSplit d (c :: cur) (cs ++ r) := by
      change uSplit d cur (c :: (cs ++ r)) = _
      rw [uSplit, if_neg h1, if_neg h2, if_neg h3]
    rw [this, ih (fun c hc => h c (by simp [hc]))]
    simp

theorem inner_bar : Inner c!" | " := by
  intro d cur r hd
  have : ¬ d < 1 := by omega
  change uSplit d cur (' ' :: '|' :: ' ' :: r) = uSplit d (' ' :: '|' :: ' ' :: cur) r
  simp [uSplit, this]

theorem solid_bracket {p t : Txt} (hp : ∀ c ∈ p, c ≠ '[' ∧ c ≠ ']' ∧ c ≠ '|') (ht : Inner t) :
    Solid ((p ++ ['[']) ++ (t ++ c!"]")) := by
  intro d cur r hd
  have h1 : ((p ++ ['[']) ++ (t ++ c!"]")) ++ r = p ++ ('[' :: (t ++ (']' :: r))) := by simp
  rw [h1, solid_chars hp d cur _ hd, uSplit, if_pos rfl, ht (d + 1) _ _ (by omega), uSplit, if_neg (by decide), if_pos rfl]
  have h2 : d + 1 - 1 = d := by omega
  rw [h2]
  simp

/-- not empty, and no space at either end -/
def Tight (t : Txt) : Prop := (∃ c s, t = c :: s ∧ isSpace c = false) ∧ ∃ c s, t = s ++ [c] ∧ isSpace c = false

theorem dropWhile_spaces {sp : Txt} (h : ∀ c ∈ sp, isSpace c = true) (t : Txt) :
    (sp ++ t).dropWhile isSpace = t.dropWhile isSpace := by
  induction sp with
  | nil => rfl
  | cons c cs ih =>
    rw [List.cons_append, List.dropWhile_cons_of_pos (h c (by simp))]
    exact ih (fun c hc => h c (by simp [hc]))

theorem strip_tight {t sp sp' : Txt} (h : Tight t) (h1 : ∀ c ∈ sp, isSpace c = true) (h2 : ∀ c ∈ sp', isSpace c = true) :
    strip (sp ++ (t ++ sp')) = t := by
  obtain ⟨⟨c, s, hc, hcs⟩, e, s', he, hes⟩ := h
  unfold strip
  rw [dropWhile_spaces h1]
  have : (t ++ sp').dropWhile isSpace = t ++ sp' := by
    rw [hc, List.cons_append, List.dropWhile_cons_of_neg (by simp [hcs])]
  rw [this, List.reverse_append, dropWhile_spaces (fun c hc => h2 c (List.mem_reverse.1 hc)), he, List.reverse_append]
  simp only [List.reverse_cons, List.reverse_nil, List.nil_append, List.singleton_append]
  rw [List.dropWhile_cons_of_neg (by simp [hes])]
  simp

theorem tight_ends {c e : Char} {s : Txt} (hc : isSpace c = false) (he : isSpace e = false) : Tight (c :: (s ++ [e])) :=
  ⟨⟨c, _, rfl, hc⟩, e, c :: s, rfl, he⟩

theorem Tight.append {s t m : Txt} (hs : Tight s) (ht : Tight t) : Tight (s ++ (m ++ t)) := by
  obtain ⟨⟨c, s', rfl, hc⟩, -⟩ := hs
  obtain ⟨-, e, t', rfl, he⟩ := ht
  exact ⟨⟨c, _, rfl, hc⟩, e, c :: s' ++ (m ++ t'), by simp, he⟩

theorem tight_chars {t : Txt} (hn : t ≠ []) (h : ∀ c ∈ t, isSpace c = false) : Tight t := by
  constructor
  · cases t with
    | nil => exact absurd rfl hn
    | cons c s => exact ⟨c, s, rfl, h c (by simp)⟩
  · refine ⟨t.getLast hn, t.dropLast, (List.dropLast_concat_getLast hn).symm, h _ (List.getLast_mem hn)⟩

theorem primOf_text (p : Prim) : primOf p.text = some p := by cases p <;> rfl

theorem primOf_none {s : Txt} (h : ∀ p : Prim, s ≠ p.text) : primOf s = none := by
  have h1 : s ≠ c!"str" := h .str
  have h2 : s ≠ c!"int" := h .int
  have h3 : s ≠ c!"float" := h .float
  have h4 : s ≠ c!"bool" := h .bool
  have h5 : s ≠ c!"date" := h .date
  have h6 : s ≠ c!"datetime" := h .datetime
  have h7 : s ≠ c!"Any" := h .any
  rw [primOf, if_neg h1, if_neg h2, if_neg h3, if_neg h4, if_neg h5, if_neg h6, if_neg h7]

theorem prim_chars (p : Prim) : ∀ c ∈ p.text, nameChar c = true := by
  cases p <;> decide +kernel

/-- a text with a bracket or a space is no built-in type and not `None` -/
theorem primOf_odd {s : Txt} (h : '[' ∈ s ∨ ' ' ∈ s) : (∀ p : Prim, s ≠ p.text) ∧ s ≠ c!"None" := by
  refine ⟨fun p hp => ?_, fun hp => ?_⟩
  · subst hp
    rcases h with h | h
    · exact absurd (prim_chars p _ h) (by decide)
    · exact absurd (prim_chars p _ h) (by decide)
  · subst hp
    revert h
    decide

/-! ### Induction over annotations -/

section
variable {P : Ann → Prop} (hprim : ∀ p, P (.prim p)) (hname : ∀ n, P (.name n)) (hnull : P .null)
  (hlist : ∀ c a, P a → P (.list c a)) (hdict : ∀ c a, P a → P (.dict c a)) (hopt : ∀ a, P a → P (.opt a))
  (hunion : ∀ as, (∀ a ∈ as, P a) → P (.union as)) (hpipe : ∀ as, (∀ a ∈ as, P a) → P (.pipe as))
  (hlink : ∀ a l, P a → P (.link a l))
include hprim hname hnull hlist hdict hopt hunion hpipe hlink

mutual
theorem Ann.induct : ∀ a, P a
  | .prim p => hprim p
  | .name n => hname n
  | .null => hnull
  | .list c a => hlist c a (Ann.induct a)
  | .dict c a => hdict c a (Ann.induct a)
  | .opt a => hopt a (Ann.induct a)
  | .union as => hunion as (Ann.inductL as)
  | .pipe as => hpipe as (Ann.inductL as)
  | .link a l => hlink a l (Ann.induct a)

theorem Ann.inductL : ∀ as : List Ann, ∀ a ∈ as, P a
  | [] => fun _ h => absurd h (by simp)
  | a :: as => fun b h => (List.mem_cons.1 h).elim (fun e => e ▸ Ann.induct a) (fun h => Ann.inductL as b h)
end
end

theorem goodMembers_mem : ∀ {as : List Ann}, Ann.GoodMembers as →
    ∀ a ∈ as, a.Good ∧ a.admitsNone = false ∧ (',' ∉ a.text ∨ a.isDict = true)
  | [], _, a, ha => absurd ha (by simp)
  | b :: bs, h, a, ha => by
    rw [Ann.GoodMembers] at h
    rcases List.mem_cons.1 ha with rfl | ha
    · exact h.1
    · exact goodMembers_mem h.2 a ha

theorem goodAlts_mem : ∀ {as : List Ann}, Ann.GoodAlts as → ∀ a ∈ as, a.isNull = true ∨ (a.Good ∧ a.isPipe = false)
  | [], _, a, ha => absurd ha (by simp)
  | b :: bs, h, a, ha => by
    rw [Ann.GoodAlts] at h
    rcases List.mem_cons.1 ha with rfl | ha
    · exact h.1
    · exact goodAlts_mem h.2 a ha

/-! ### The texts of annotations -/

theorem nameChar_no {c : Char} (h : nameChar c = true) :
    c ≠ '[' ∧ c ≠ ']' ∧ c ≠ '|' ∧ c ≠ ',' ∧ isSpace c = false := by
  simp [nameChar] at h
  obtain ⟨⟨⟨⟨h1, h2⟩, h3⟩, h4⟩, h5⟩ := h
  exact ⟨h1, h2, h3, h4, h5⟩

theorem solid_name {n : Txt} (h : ∀ c ∈ n, nameChar c = true) : Solid n :=
  solid_chars (fun c hc => let k := nameChar_no (h c hc); ⟨k.1, k.2.1, k.2.2.1⟩)

theorem tight_name {n : Txt} (hn : n ≠ []) (h : ∀ c ∈ n, nameChar c = true) : Tight n :=
  tight_chars hn (fun c hc => (nameChar_no (h c hc)).2.2.2.2)

theorem solid_link (l : Lnk) (h : l.Good) : Solid l.text := by
  cases l with
  | linkto => exact solid_chars (by decide)
  | linkedby k => exact solid_append (solid_append (solid_chars (by decide)) (solid_name h.2)) (solid_chars (by decide))
  | linkedthru k => exact solid_append (solid_append (solid_chars (by decide)) (solid_name h.2)) (solid_chars (by decide))

theorem tight_link (l : Lnk) : Tight l.text := by
  cases l with
  | linkto => exact tight_chars (by decide) (by decide +kernel)
  | linkedby k => exact ⟨⟨'l', _, rfl, by decide⟩, ')', c!"linkedby('" ++ k ++ ['\''], (List.append_assoc _ ['\''] [')']).symm, by decide⟩
  | linkedthru k =>
    exact ⟨⟨'l', _, rfl, by decide⟩, ')', c!"linkedthru('" ++ k ++ ['\''], (List.append_assoc _ ['\''] [')']).symm, by decide⟩

theorem no_comma_link (l : Lnk) (h : l.Good) : ',' ∉ l.text := by
  have hk : ∀ k : Txt, (∀ c ∈ k, nameChar c = true) → ',' ∉ k := fun k h hc => (nameChar_no (h _ hc)).2.2.2.1 rfl
  cases l with
  | linkto => decide
  | linkedby k =>
    rw [Lnk.text, List.mem_append, List.mem_append]
    exact fun hh => hh.elim (fun h1 => h1.elim (by decide) (hk k h.2)) (by decide)
  | linkedthru k =>
    rw [Lnk.text, List.mem_append, List.mem_append]
    exact fun hh => hh.elim (fun h1 => h1.elim (by decide) (hk k h.2)) (by decide)

/-- what the proofs use about the text of an annotation -/
structure TextOk (t : Txt) (pipe : Bool) : Prop where
  tight : Tight t
  inner : Inner t
  solid : pipe = false → Solid t

theorem null_text : TextOk Ann.null.text false :=
  ⟨tight_chars (by decide) (by decide +kernel), (solid_chars (by decide)).inner, fun _ => solid_chars (by decide)⟩

theorem inner_barsMore : ∀ (as : List Ann), (∀ a ∈ as, Inner a.text) → Inner (Ann.barsMore as)
  | [], _ => fun _ _ _ _ => rfl
  | a :: as, h => inner_append inner_bar (inner_append (h a (by simp)) (inner_barsMore as (fun b hb => h b (by simp [hb]))))

theorem inner_commasMore : ∀ (as : List Ann), (∀ a ∈ as, Inner a.text) → Inner (Ann.commasMore as)
  | [], _ => fun _ _ _ _ => rfl
  | a :: as, h => inner_append (solid_chars (by decide)).inner
      (inner_append (h a (by simp)) (inner_commasMore as (fun b hb => h b (by simp [hb]))))

theorem tight_barsMore : ∀ (as : List Ann) {t : Txt}, Tight t → (∀ a ∈ as, Tight a.text) → Tight (t ++ Ann.barsMore as)
  | [], t, ht, _ => by simpa [Ann.barsMore] using ht
  | a :: as, t, ht, h => by
    rw [Ann.barsMore]
    exact Tight.append ht (tight_barsMore as (h a (by simp)) (fun b hb => h b (by simp [hb])))

theorem bracket_ok {p t : Txt} {c : Char} (hp : ∀ x ∈ c :: p, x ≠ '[' ∧ x ≠ ']' ∧ x ≠ '|') (hc : isSpace c = false)
    (ht : Inner t) (b : Bool) : TextOk (((c :: p) ++ ['[']) ++ (t ++ c!"]")) b := by
  have hs := solid_bracket hp ht
  refine ⟨⟨⟨c, _, rfl, hc⟩, ']', ((c :: p) ++ ['[']) ++ t, by simp, by decide⟩, hs.inner, fun _ => hs⟩

theorem text_ok (a : Ann) : a.Good → TextOk a.text a.isPipe := by
  induction a using Ann.induct with
  | hprim p =>
    intro _
    have h := prim_chars p
    exact ⟨tight_name (by cases p <;> decide) h, (solid_name h).inner, fun _ => solid_name h⟩
  | hname n =>
    intro h
    exact ⟨tight_name h.1 h.2.1, (solid_name h.2.1).inner, fun _ => solid_name h.2.1⟩
  | hnull => intro h; exact absurd h (by simp [Ann.Good])
  | hlist c a ih =>
    intro h
    have hi := (ih h).inner
    rw [Ann.text]
    cases c
    · exact bracket_ok (c := 'l') (p := c!"ist") (by decide) (by decide) hi _
    · exact bracket_ok (c := 'L') (p := c!"ist") (by decide) (by decide) hi _
  | hdict c a ih =>
    intro h
    have hi : Inner (c!"str, " ++ a.text) := inner_append (solid_chars (by decide)).inner (ih h.1).inner
    rw [Ann.text, ← List.append_assoc c!"str, "]
    cases c
    · exact bracket_ok (c := 'd') (p := c!"ict") (by decide) (by decide) hi _
    · exact bracket_ok (c := 'D') (p := c!"ict") (by decide) (by decide) hi _
  | hopt a ih =>
    intro h
    rw [Ann.text]
    exact bracket_ok (c := 'O') (p := c!"ptional") (by decide) (by decide) (ih h).inner _
  | hunion as ih =>
    intro h
    have hm : ∀ a ∈ as, Inner a.text := fun a ha => (ih a ha (goodMembers_mem h.2 a ha).1).inner
    rw [Ann.text]
    refine bracket_ok (c := 'U') (p := c!"nion") (by decide) (by decide) ?_ _
    cases as with
    | nil => exact fun _ _ _ _ => rfl
    | cons a as => exact inner_append (hm a (by simp)) (inner_commasMore as (fun b hb => hm b (by simp [hb])))
  | hpipe as ih =>
    intro h
    have hm : ∀ a ∈ as, ∃ b, TextOk a.text b := fun a ha => by
      rcases goodAlts_mem h.2.1 a ha with hn | hg
      · cases a <;> simp [Ann.isNull] at hn
        exact ⟨_, null_text⟩
      · exact ⟨_, ih a ha hg.1⟩
    rw [Ann.text]
    cases as with
    | nil => exact absurd h.1 (by simp)
    | cons a as =>
      rw [Ann.bars]
      refine ⟨tight_barsMore as (hm a (by simp)).choose_spec.tight (fun b hb => (hm b (by simp [hb])).choose_spec.tight),
        inner_append (hm a (by simp)).choose_spec.inner (inner_barsMore as (fun b hb => (hm b (by simp [hb])).choose_spec.inner)),
        fun h => absurd h (by simp [Ann.isPipe])⟩
  | hlink a l ih =>
    intro h
    have hi : Inner (a.text ++ (c!", " ++ l.text)) :=
      inner_append (ih h.1).inner (inner_append (solid_chars (by decide)).inner (solid_link l h.2).inner)
    have he : (Ann.link a l).text = c!"Annotated[" ++ ((a.text ++ (c!", " ++ l.text)) ++ c!"]") := by
      rw [Ann.text]; simp
    rw [he]
    exact bracket_ok (c := 'A') (p := c!"nnotated") (by decide) (by decide) hi _

/-! ### Splitting -/

theorem unionSplit_solid {t : Txt} (ht : Tight t) (hs : Solid t) : unionSplit t = [t] := by
  have h := hs 0 [] [] (by omega)
  rw [List.append_nil, List.append_nil, uSplit, List.reverse_reverse] at h
  have h2 := strip_tight (sp := []) (sp' := []) ht (by simp) (by simp)
  rw [List.append_nil, List.nil_append] at h2
  rw [unionSplit, h, List.map_cons, h2, List.map_nil]

theorem split_bars : ∀ (as : List Ann) (a : Ann) (sp : Txt), (∀ c ∈ sp, isSpace c = true) →
    (∀ b ∈ a :: as, Tight b.text ∧ Solid b.text) →
    (uSplit 0 sp (Ann.bars (a :: as))).map strip = (a :: as).map Ann.text
  | [], a, sp, hsp, h => by
    obtain ⟨ht, hs⟩ := h a (by simp)
    rw [Ann.bars, Ann.barsMore, hs 0 sp [] (by omega), uSplit]
    have := strip_tight (sp := sp.reverse) (sp' := []) ht (fun c hc => hsp c (List.mem_reverse.1 hc)) (by simp)
    simpa using this
  | b :: bs, a, sp, hsp, h => by
    obtain ⟨ht, hs⟩ := h a (by simp)
    have ih := split_bars bs b [' '] (by decide) (fun x hx => h x (by simp [hx]))
    have hstep : uSplit 0 sp (Ann.bars (a :: b :: bs)) =
        (sp.reverse ++ (a.text ++ [' '])) :: uSplit 0 [' '] (Ann.bars (b :: bs)) := by
      rw [Ann.bars, hs 0 sp _ (by omega), Ann.barsMore]
      change uSplit 0 (a.text.reverse ++ sp) (' ' :: '|' :: ' ' :: Ann.bars (b :: bs)) = _
      simp [uSplit]
    rw [hstep, List.map_cons, ih, List.map_cons (l := b :: bs),
      strip_tight ht (fun c hc => hsp c (List.mem_reverse.1 hc)) (by decide)]

theorem lastComma_none {ok : Txt → Bool} : ∀ {s : Txt}, ',' ∉ s → lastComma ok s = none
  | [], _ => rfl
  | c :: cs, h => by
    have h1 : c ≠ ',' := fun e => h (by simp [e])
    have h2 : ',' ∉ cs := fun e => h (by simp [e])
    rw [lastComma, lastComma_none h2]
    simp [h1]

theorem lastComma_at {ok : Txt → Bool} {b : Txt} (hb : ',' ∉ b) (hok : ok b = true) :
    ∀ a : Txt, lastComma ok (a ++ ',' :: b) = some (a, b)
  | [] => by simp [lastComma, lastComma_none hb, hok]
  | c :: a => by rw [List.cons_append, lastComma, lastComma_at hb hok a]

theorem lastComma1_at {ok : Txt → Bool} {a b : Txt} (ha : a ≠ []) (hb : ',' ∉ b) (hok : ok b = true) :
    lastComma1 ok (a ++ ',' :: b) = some (a, b) := by
  cases a with
  | nil => exact absurd rfl ha
  | cons c a => rw [List.cons_append, lastComma1, lastComma_at hb hok a]

theorem drop_spaces {t : Txt} (ht : Tight t) (r : Txt) : (' ' :: (t ++ r)).dropWhile (· = ' ') = t ++ r := by
  obtain ⟨⟨c, s, rfl, hc⟩, -⟩ := ht
  have : c ≠ ' ' := fun e => by subst e; exact absurd hc (by decide)
  simp [this]

theorem dictItem_text {t : Txt} (ht : Tight t) (hc : ',' ∉ t) : dictItem (c!"str, " ++ (t ++ c!"]")) = some t := by
  have h : c!"str, " ++ (t ++ c!"]") = c!"str" ++ ',' :: (' ' :: (t ++ c!"]")) := rfl
  have hc' : ',' ∉ (' ' :: (t ++ c!"]")) := by simp [hc]
  rw [dictItem, h, lastComma1_at (by decide) hc' (by simp)]
  change uptoLast ((' ' :: (t ++ c!"]")).dropWhile (· = ' ')) = _
  rw [drop_spaces ht, uptoLast_append]

theorem annotated_text {t l : Txt} (ht : t ≠ []) (hl : Tight l) (hc : ',' ∉ l) :
    annotatedParts (t ++ (c!", " ++ (l ++ c!"]"))) = some (t, l) := by
  have h : t ++ (c!", " ++ (l ++ c!"]")) = t ++ ',' :: (' ' :: (l ++ c!"]")) := rfl
  have hc' : ',' ∉ (' ' :: (l ++ c!"]")) := by simp [hc]
  rw [annotatedParts, h, lastComma1_at ht hc' (by simp)]
  change (match uptoLast ((' ' :: (l ++ c!"]")).dropWhile (· = ' ')) with
    | some (x :: xs) => some (t, x :: xs)
    | _ => some (t, [' '])) = _
  rw [drop_spaces hl, uptoLast_append]
  obtain ⟨⟨c, s, rfl, -⟩, -⟩ := hl
  rfl

theorem uptoQuote_text : ∀ k : Txt, uptoQuote (k ++ c!"')") = some k
  | [] => rfl
  | c :: k => by unfold uptoQuote; simp only [List.cons_append, uptoQuote_text k]

/-! ### Members of `Union[...]` -/

/-- the texts between the commas of a member -/
def Ann.pieces : Ann → List Txt
  | .dict cap a => [if cap then c!"Dict[str" else c!"dict[str", a.text ++ c!"]"]
  | a => [a.text]

theorem splitP_comma {w : Txt} (hw : ',' ∉ w) (r : Txt) : splitP (· == ',') (w ++ ',' :: r) = w :: splitP (· == ',') r :=
  splitP_word_sep _ w r ',' rfl (fun c hc => by
    have : c ≠ ',' := fun e => hw (e ▸ hc)
    simp [this])

theorem splitP_no_comma {w : Txt} (hw : ',' ∉ w) : splitP (· == ',') w = [w] :=
  splitP_noSep _ w (fun c hc => by
    have : c ≠ ',' := fun e => hw (e ▸ hc)
    simp [this])

/-- a dict's text is its two pieces with the comma between -/
theorem pieces_spec (a : Ann) (hg : a.Good) (hc : ',' ∉ a.text ∨ a.isDict = true) :
    (a.pieces = [a.text] ∧ ',' ∉ a.text) ∨
    ∃ x y, a.pieces = [x, y] ∧ a.text = x ++ (c!", " ++ y) ∧ ',' ∉ x ∧ ',' ∉ y ∧ isDictText x = true ∧ Tight x ∧ Tight y := by
  cases a with
  | dict cap a =>
    right
    have ht := (text_ok a hg.1).tight
    obtain ⟨⟨c, s, hs, hcs⟩, -⟩ := ht
    have hy : Tight (a.text ++ c!"]") := ⟨⟨c, s ++ c!"]", by rw [hs]; rfl, hcs⟩, ']', a.text, rfl, by decide⟩
    have hcy : ',' ∉ a.text ++ c!"]" := by simp [hg.2]
    cases cap with
    | false => exact ⟨c!"dict[str", _, rfl, rfl, by decide, hcy, by decide, tight_chars (by decide) (by decide +kernel), hy⟩
    | true => exact ⟨c!"Dict[str", _, rfl, rfl, by decide, hcy, by decide, tight_chars (by decide) (by decide +kernel), hy⟩
  | prim p => exact .inl ⟨rfl, hc.resolve_right (by simp [Ann.isDict])⟩
  | name n => exact .inl ⟨rfl, hc.resolve_right (by simp [Ann.isDict])⟩
  | null => exact .inl ⟨rfl, hc.resolve_right (by simp [Ann.isDict])⟩
  | list c a => exact .inl ⟨rfl, hc.resolve_right (by simp [Ann.isDict])⟩
  | opt a => exact .inl ⟨rfl, hc.resolve_right (by simp [Ann.isDict])⟩
  | union as => exact .inl ⟨rfl, hc.resolve_right (by simp [Ann.isDict])⟩
  | pipe as => exact .inl ⟨rfl, hc.resolve_right (by simp [Ann.isDict])⟩
  | link a l => exact .inl ⟨rfl, hc.resolve_right (by simp [Ann.isDict])⟩

theorem drop_sp {sp t : Txt} (hsp : sp = [] ∨ sp = [' ']) (ht : Tight t) : (sp ++ t).dropWhile (· = ' ') = t := by
  obtain ⟨⟨c, s, rfl, hc⟩, -⟩ := ht
  have : c ≠ ' ' := fun e => by subst e; exact absurd hc (by decide)
  rcases hsp with rfl | rfl <;> simp [this]

theorem split_commas : ∀ (as : List Ann) (a : Ann) (sp : Txt), (sp = [] ∨ sp = [' ']) →
    (∀ b ∈ a :: as, b.Good ∧ (',' ∉ b.text ∨ b.isDict = true)) →
    (splitP (· == ',') (sp ++ Ann.commas (a :: as))).map (fun q => q.dropWhile (· = ' ')) = (a :: as).flatMap Ann.pieces
  | [], a, sp, hsp, h => by
    obtain ⟨hg, hc⟩ := h a (by simp)
    have hspc : ∀ w : Txt, ',' ∉ w → ',' ∉ sp ++ w := fun w hw => by rcases hsp with rfl | rfl <;> simp [hw]
    rw [Ann.commas, Ann.commasMore, List.append_nil]
    rcases pieces_spec a hg hc with ⟨hp, hn⟩ | ⟨x, y, hp, ht, hx, hy, -, tx, ty⟩
    · rw [splitP_no_comma (hspc _ hn), List.map_cons, List.map_nil, drop_sp hsp (text_ok a hg).tight]
      simp [hp]
    · have e : sp ++ a.text = (sp ++ x) ++ ',' :: ([' '] ++ y) := by rw [ht]; simp
      have hy' : ',' ∉ [' '] ++ y := by simp [hy]
      rw [e, splitP_comma (hspc _ hx), splitP_no_comma hy', List.map_cons, List.map_cons, drop_sp hsp tx,
        drop_sp (.inr rfl) ty]
      simp [hp]
  | b :: bs, a, sp, hsp, h => by
    obtain ⟨hg, hc⟩ := h a (by simp)
    have ih := split_commas bs b [' '] (.inr rfl) (fun x hx => h x (by simp [hx]))
    have hspc : ∀ w : Txt, ',' ∉ w → ',' ∉ sp ++ w := fun w hw => by rcases hsp with rfl | rfl <;> simp [hw]
    have ec : Ann.commas (a :: b :: bs) = a.text ++ ',' :: ([' '] ++ Ann.commas (b :: bs)) := by
      rw [Ann.commas, Ann.commasMore, Ann.commas]; rfl
    rw [ec]
    rcases pieces_spec a hg hc with ⟨hp, hn⟩ | ⟨x, y, hp, ht, hx, hy, -, tx, ty⟩
    · rw [← List.append_assoc, splitP_comma (hspc _ hn), List.map_cons, ih, drop_sp hsp (text_ok a hg).tight,
        List.flatMap_cons (x := a), hp]
      rfl
    · have e : sp ++ (a.text ++ ',' :: ([' '] ++ Ann.commas (b :: bs))) =
          (sp ++ x) ++ ',' :: (([' '] ++ y) ++ ',' :: ([' '] ++ Ann.commas (b :: bs))) := by rw [ht]; simp
      have hy' : ',' ∉ [' '] ++ y := by simp [hy]
      rw [e, splitP_comma (hspc _ hx), splitP_comma hy', List.map_cons, List.map_cons, ih, drop_sp hsp tx,
        drop_sp (.inr rfl) ty, List.flatMap_cons (x := a), hp]
      rfl

theorem commaSplit_eq {c : Char} {s : Txt} (h1 : c ≠ ',') (h2 : c ≠ ' ') :
    commaSplit (c :: s) = (splitP (· == ',') (c :: s)).map (fun q => q.dropWhile (· = ' ')) := by
  have hp : (c == ',') = false := by simp [h1]
  rw [commaSplit, splitP, hp]
  cases splitP (· == ',') s with
  | nil => simp [h2]
  | cons w ws => simp [h2]

theorem prefix_within {p n r : Txt} (hp : ' ' ∉ p) (hr : r = [] ∨ ∃ r', r = ' ' :: r') (h : p <+: n ++ r) : p <+: n := by
  rcases List.prefix_or_prefix_of_prefix h (List.prefix_append n r) with h1 | h1
  · exact h1
  · obtain ⟨t, rfl⟩ := h1
    have ht : t <+: r := (List.prefix_append_right_inj n).1 h
    cases t with
    | nil => simp
    | cons c t =>
      rcases hr with rfl | ⟨r', rfl⟩
      · exact absurd ht (by simp)
      · have : c = ' ' := (List.cons_prefix_cons.1 ht).1
        subst this
        exact absurd (by simp) hp

theorem barsMore_head (as : List Ann) {r : Txt} (hr : r = [] ∨ ∃ r', r = ' ' :: r') :
    (Ann.barsMore as ++ r = [] ∨ ∃ r', Ann.barsMore as ++ r = ' ' :: r') := by
  cases as with
  | nil => simpa [Ann.barsMore] using hr
  | cons a as => exact .inr ⟨_, by rw [Ann.barsMore]; rfl⟩

/-- a text that starts like a dict has a comma -/
theorem dict_comma (a : Ann) : a.Good → ∀ r : Txt, (r = [] ∨ ∃ r', r = ' ' :: r') → isDictText (a.text ++ r) = true →
    ',' ∈ a.text := by
  have key : ∀ n r : Txt, (∀ c ∈ n, nameChar c = true) → (r = [] ∨ ∃ r', r = ' ' :: r') →
      isDictText (n ++ r) = true → False := fun n r hg hr h => by
    have hb : '[' ∈ n := by
      have h' : c!"dict[".isPrefixOf (n ++ r) = true ∨ c!"Dict[".isPrefixOf (n ++ r) = true := by
        rw [isDictText, Bool.or_eq_true] at h; exact h
      rcases h' with h' | h'
      · obtain ⟨r, rfl⟩ := prefix_within (by decide) hr (List.isPrefixOf_iff_prefix.1 h'); simp
      · obtain ⟨r, rfl⟩ := prefix_within (by decide) hr (List.isPrefixOf_iff_prefix.1 h'); simp
    exact (nameChar_no (hg _ hb)).1 rfl
  induction a using Ann.induct with
  | hprim p => intro _ r hr h; exact (key _ r (prim_chars p) hr h).elim
  | hname n => intro hg r hr h; exact (key _ r hg.2.1 hr h).elim
  | hnull => intro hg; exact absurd hg (by simp [Ann.Good])
  | hlist c a ih =>
    intro _ r _ h
    rw [Ann.text] at h
    cases c
    · exact absurd h (by simp [isDictText])
    · exact absurd h (by simp [isDictText])
  | hdict c a ih => intro _ _ _ _; rw [Ann.text]; simp
  | hopt a ih => intro _ r _ h; rw [Ann.text] at h; exact absurd h (by simp [isDictText])
  | hunion as ih => intro _ r _ h; rw [Ann.text] at h; exact absurd h (by simp [isDictText])
  | hlink a l ih => intro _ r _ h; rw [Ann.text] at h; exact absurd h (by simp [isDictText])
  | hpipe as ih =>
    intro hg r hr h
    rw [Ann.text] at h ⊢
    cases as with
    | nil => exact absurd hg.1 (by simp)
    | cons a as =>
      rw [Ann.bars] at h ⊢
      rw [List.append_assoc] at h
      rcases goodAlts_mem hg.2.1 a (by simp) with hn | hga
      · cases a <;> simp [Ann.isNull] at hn
        rw [Ann.text] at h
        exact absurd h (by simp [isDictText])
      · exact List.mem_append_left _ (ih a (by simp) hga.1 _ (barsMore_head as hr) h)

theorem dict_has_comma {a : Ann} (hg : a.Good) (h : ',' ∉ a.text) : isDictText a.text = false := by
  cases hd : isDictText a.text with
  | false => rfl
  | true => exact absurd (dict_comma a hg [] (.inl rfl) (by rw [List.append_nil]; exact hd)) h

theorem merge_pieces : ∀ (as : List Ann), (∀ a ∈ as, a.Good ∧ (',' ∉ a.text ∨ a.isDict = true)) →
    mergeBack (as.flatMap Ann.pieces) = .ok (as.map Ann.text)
  | [], _ => rfl
  | a :: as, h => by
    obtain ⟨hg, hc⟩ := h a (by simp)
    have ih := merge_pieces as (fun b hb => h b (by simp [hb]))
    rw [List.flatMap_cons, List.map_cons]
    rcases pieces_spec a hg hc with ⟨hp, hn⟩ | ⟨x, y, hp, ht, hx, hy, hd, tx, ty⟩
    · rw [hp, List.singleton_append]
      unfold mergeBack
      simp only [dict_has_comma hg hn, ih]
      rfl
    · rw [hp, ht]
      change mergeBack (x :: y :: as.flatMap Ann.pieces) = _
      rw [mergeBack, if_pos hd, ih]
      simp

/-- what `Union[...]` is split into -/
theorem union_members (as : List Ann) (hn : as ≠ []) (h : Ann.GoodMembers as) :
    mergeBack (commaSplit (Ann.commas as)) = .ok (as.map Ann.text) := by
  have hm : ∀ a ∈ as, a.Good ∧ (',' ∉ a.text ∨ a.isDict = true) := fun a ha =>
    let k := goodMembers_mem h a ha
    ⟨k.1, k.2.2⟩
  cases as with
  | nil => exact absurd rfl hn
  | cons a as =>
    rw [← merge_pieces (a :: as) hm, ← split_commas as a [] (.inl rfl) hm, List.nil_append]
    have hh : ∃ c s, Ann.commas (a :: as) = c :: s ∧ c ≠ ',' ∧ c ≠ ' ' := by
      obtain ⟨hg, hc⟩ := hm a (by simp)
      have hne : ∀ {t : Txt}, Tight t → ',' ∉ t → ∃ c s, t = c :: s ∧ c ≠ ',' ∧ c ≠ ' ' := fun ht hn => by
        obtain ⟨⟨c, s, rfl, hc⟩, -⟩ := ht
        exact ⟨c, s, rfl, fun e => hn (by simp [e]), fun e => by subst e; exact absurd hc (by decide)⟩
      rcases pieces_spec a hg hc with ⟨-, hn⟩ | ⟨x, y, -, ht, hx, -, -, tx, -⟩
      · obtain ⟨c, s, e, h1, h2⟩ := hne (text_ok a hg).tight hn
        exact ⟨c, _, by rw [Ann.commas, e]; rfl, h1, h2⟩
      · obtain ⟨c, s, e, h1, h2⟩ := hne tx hx
        exact ⟨c, _, by rw [Ann.commas, ht, e]; rfl, h1, h2⟩
    obtain ⟨c, s, e, h1, h2⟩ := hh
    rw [e, commaSplit_eq h1 h2]

/-! ### Meanings -/

theorem meansL_eq (ν : Txt → Named) : ∀ as : List Ann, Ann.meansL ν as = (as.filter (fun a => !a.isNull)).map (fun a => a.means ν true)
  | [] => by simp [Ann.meansL]
  | a :: as => by cases a <;> simp [Ann.meansL, Ann.isNull, meansL_eq ν as]

theorem anyAdmits_eq : ∀ as : List Ann, Ann.anyAdmits as = as.any Ann.admitsNone
  | [] => by simp [Ann.anyAdmits]
  | a :: as => by simp [Ann.anyAdmits, anyAdmits_eq as]

theorem hasList_eq : ∀ as : List Ann, Ann.hasList as = (as.filter (fun a => !a.isNull)).any Ann.isList
  | [] => by simp [Ann.hasList]
  | a :: as => by cases a <;> simp [Ann.hasList, Ann.isNull, Ann.isList, hasList_eq as]

theorem ftype_append (t s : List TMod) (hs : ∀ m ∈ s, ∀ b : Bool, ftypeStep b m = b) :
    ftypeIsList (t ++ s) = ftypeIsList t := by
  unfold ftypeIsList
  rw [List.foldl_append]
  generalize t.foldl _ false = b
  induction s with
  | nil => rfl
  | cons m s ih =>
    rw [List.foldl_cons]
    rw [hs m (by simp) b]
    exact ih (fun m hm => hs m (by simp [hm]))

/-- a link sees a list exactly where the annotation is one -/
theorem ftype_means (ν : Txt → Named) (a : Ann) : ∀ o, ftypeIsList (a.means ν o) = a.isList := by
  induction a using Ann.induct with
  | hprim p => intro o; cases o <;> simp [Ann.means, reqIf, ftypeIsList, ftypeStep, Ann.isList]
  | hname n => intro o; rw [Ann.means]; cases ν n <;> cases o <;> rfl
  | hnull => intro o; simp [Ann.means, ftypeIsList, ftypeStep, Ann.isList]
  | hlist c a ih => intro o; cases o <;> simp [Ann.means, reqIf, ftypeIsList, ftypeStep, Ann.isList]
  | hdict c a ih => intro o; cases o <;> simp [Ann.means, reqIf, ftypeIsList, ftypeStep, Ann.isList]
  | hopt a ih => intro o; rw [Ann.means, ih]; rfl
  | hunion as ih =>
    intro o; rw [Ann.means]
    cases o || Ann.anyAdmits as <;> simp [reqIf, ftypeIsList, ftypeStep, Ann.isList]
  | hpipe as ih =>
    intro o
    rw [Ann.means, meansL_eq]
    have hl : Ann.isList (.pipe as) = ((as.filter (fun a => !a.isNull)).length = 1 && Ann.hasList as) := rfl
    rw [hl, hasList_eq]
    have hmem : ∀ a ∈ as.filter (fun a => !a.isNull), ∀ o, ftypeIsList (a.means ν o) = a.isList := fun a ha =>
      ih a (List.mem_filter.1 ha).1
    generalize as.filter (fun a => !a.isNull) = rs at hmem ⊢
    match rs with
    | [] => cases o || Ann.anyAdmits as <;> simp [reqIf, ftypeIsList, ftypeStep]
    | [a] => simp [hmem a (by simp)]
    | a :: b :: rs => cases o || Ann.anyAdmits as <;> simp [reqIf, ftypeIsList, ftypeStep]
  | hlink a l ih =>
    intro o
    have hi : Ann.isList (.link a l) = a.isList := rfl
    rw [hi, ← ih o]
    cases l with
    | linkto => rw [Ann.means]; exact ftype_append _ _ (by simp [ftypeStep])
    | linkedby k => rw [Ann.means]; refine ftype_append _ _ ?_; split <;> simp [ftypeStep]
    | linkedthru k => rw [Ann.means]; exact ftype_append _ _ (by simp [ftypeStep])

theorem applyLink_means (ν : Txt → Named) (a : Ann) (l : Lnk) (hl : l.Good) (o : Bool) :
    applyLink (a.means ν o) l.text = .ok ((Ann.link a l).means ν o) := by
  cases l with
  | linkto => rw [Ann.means]; rfl
  | linkedby k =>
    obtain ⟨hk, -⟩ := hl
    have e : (Lnk.linkedby k).text = c!"linkedby('" ++ (k ++ c!"')") := List.append_assoc _ _ _
    have hn : c!"linkto".isPrefixOf (c!"linkedby('" ++ (k ++ c!"')")) = false := rfl
    rw [Ann.means, applyLink, e, hn, after_append]
    cases k with
    | nil => exact absurd rfl hk
    | cons c k =>
      simp only [uptoQuote_text (c :: k), ftype_means ν a o]
      cases a.isList <;> rfl
  | linkedthru k =>
    obtain ⟨hk, -⟩ := hl
    have e : (Lnk.linkedthru k).text = c!"linkedthru('" ++ (k ++ c!"')") := List.append_assoc _ _ _
    have hn : c!"linkto".isPrefixOf (c!"linkedthru('" ++ (k ++ c!"')")) = false := rfl
    have hn2 : after? c!"linkedby('" (c!"linkedthru('" ++ (k ++ c!"')")) = none := rfl
    rw [Ann.means, applyLink, e, hn, hn2, after_append]
    cases k with
    | nil => exact absurd rfl hk
    | cons c k =>
      simp only [uptoQuote_text (c :: k)]
      rfl

/-! ### Reading -/

theorem eachText_ok {f : Txt → Except AExc (List TMod)} : ∀ {as : List Ann}, (∀ a ∈ as, f a.text = .ok (a.means noNames true)) →
    eachText f (as.map Ann.text) = .ok (as.map (fun a => a.means noNames true))
  | [], _ => rfl
  | a :: as, h => by
    rw [List.map_cons, eachText, h a (by simp)]
    simp only [eachText_ok (as := as) (fun b hb => h b (by simp [hb]))]
    rfl

theorem commasMore_len : ∀ {as : List Ann} {a : Ann}, a ∈ as → a.text.length ≤ (Ann.commasMore as).length
  | b :: bs, a, h => by
    rw [Ann.commasMore]
    rcases List.mem_cons.1 h with rfl | h
    · simp; omega
    · have := commasMore_len h
      simp; omega

theorem commas_len {as : List Ann} {a : Ann} (h : a ∈ as) : a.text.length ≤ (Ann.commas as).length := by
  cases as with
  | nil => exact absurd h (by simp)
  | cons b bs =>
    rw [Ann.commas]
    rcases List.mem_cons.1 h with rfl | h
    · simp
    · have := commasMore_len h
      simp; omega

theorem barsMore_len : ∀ {as : List Ann} {a : Ann}, a ∈ as → a.text.length + 3 ≤ (Ann.barsMore as).length
  | b :: bs, a, h => by
    rw [Ann.barsMore]
    rcases List.mem_cons.1 h with rfl | h
    · simp
    · have := barsMore_len h
      simp; omega

theorem bars_len {as : List Ann} {a : Ann} (h : a ∈ as) (h2 : 2 ≤ as.length) : a.text.length < (Ann.bars as).length := by
  match as, h, h2 with
  | b :: c :: bs, h, h2 =>
    rw [Ann.bars]
    have hc := barsMore_len (as := c :: bs) (a := c) (by simp)
    rcases List.mem_cons.1 h with rfl | h
    · simp; omega
    · have := barsMore_len h
      simp; omega

/-- a text without bars is read one level down -/
theorem strTo_bracket {n : Nat} {s : Txt} {o : Bool} (hp : ∀ p : Prim, s ≠ p.text) (ht : Tight s) (hs : Solid s) :
    strToTypes (n + 1) s o = bracketTypes (strToTypes n) s o := by
  rw [strToTypes, primOf_none hp, unionSplit_solid ht hs]

/-- no annotation but a built-in type reads like one, none like `None` -/
theorem text_kind (a : Ann) (hg : a.Good) : a.text ≠ c!"None" ∧ ((∃ p, a = .prim p) ∨ ∀ p : Prim, a.text ≠ p.text) := by
  cases a with
  | prim p => exact ⟨by cases p <;> decide, .inl ⟨p, rfl⟩⟩
  | name n => exact ⟨hg.2.2.2, .inr hg.2.2.1⟩
  | null => exact absurd hg (by simp [Ann.Good])
  | list c a =>
    have := primOf_odd (s := (Ann.list c a).text) (.inl (by rw [Ann.text]; cases c <;> simp))
    exact ⟨this.2, .inr this.1⟩
  | dict c a =>
    have := primOf_odd (s := (Ann.dict c a).text) (.inl (by rw [Ann.text]; cases c <;> simp))
    exact ⟨this.2, .inr this.1⟩
  | opt a =>
    have := primOf_odd (s := (Ann.opt a).text) (.inl (by rw [Ann.text]; simp))
    exact ⟨this.2, .inr this.1⟩
  | union as =>
    have := primOf_odd (s := (Ann.union as).text) (.inl (by rw [Ann.text]; simp))
    exact ⟨this.2, .inr this.1⟩
  | link a l =>
    have := primOf_odd (s := (Ann.link a l).text) (.inl (by rw [Ann.text]; simp))
    exact ⟨this.2, .inr this.1⟩
  | pipe as =>
    have hsp : ' ' ∈ (Ann.pipe as).text := by
      match as, hg.1 with
      | a :: b :: as, _ => rw [Ann.text, Ann.bars, Ann.barsMore]; simp
    have := primOf_odd (.inr hsp)
    exact ⟨this.2, .inr this.1⟩

theorem reals_text : ∀ {as : List Ann}, (∀ a ∈ as, a.isNull = true ∨ a.Good) →
    (as.map Ann.text).filter (· ≠ c!"None") = (as.filter (fun a => !a.isNull)).map Ann.text
  | [], _ => rfl
  | a :: as, h => by
    have ih := reals_text (as := as) (fun b hb => h b (by simp [hb]))
    rw [List.map_cons]
    rcases h a (by simp) with hn | hg
    · cases a <;> simp [Ann.isNull] at hn
      rw [List.filter_cons_of_neg (by simp [Ann.text]), ih]
      rfl
    · have h1 := (text_kind a hg).1
      have h2 : a.isNull = false := by cases a <;> simp [Ann.isNull]; simp [Ann.Good] at hg
      rw [List.filter_cons_of_pos (by simpa using h1), ih, List.filter_cons_of_pos (by simp [h2]), List.map_cons]

/-- reading with enough room -/
theorem read_ok (a : Ann) : a.Good → ∀ (n : Nat) (o : Bool), a.text.length < n →
    strToTypes n a.text o = .ok (a.means noNames o) := by
  induction a using Ann.induct with
  | hprim p =>
    intro _ n o hn
    obtain ⟨m, rfl⟩ : ∃ m, n = m + 1 := ⟨n - 1, by omega⟩
    have e : (Ann.prim p).text = p.text := rfl
    rw [strToTypes, e, primOf_text, Ann.means]
  | hname nm =>
    intro hg n o hn
    obtain ⟨m, rfl⟩ : ∃ m, n = m + 1 := ⟨n - 1, by omega⟩
    have hk := text_ok _ hg
    have e : (Ann.name nm).text = nm := rfl
    rw [strTo_bracket (by rw [e]; exact hg.2.2.1) hk.tight (hk.solid rfl), e, Ann.means]
    have hb : '[' ∉ nm := fun hb => (nameChar_no (hg.2.1 _ hb)).1 rfl
    have hpre : ∀ p : Txt, '[' ∈ p → p.isPrefixOf nm = false := fun p hp => by
      cases h : p.isPrefixOf nm with
      | false => rfl
      | true =>
        obtain ⟨r, rfl⟩ := List.isPrefixOf_iff_prefix.1 h
        exact absurd (List.mem_append_left _ hp) hb
    simp [bracketTypes, after?, isDictText, hpre, noNames, Named.tmod]
  | hnull => intro hg; exact absurd hg (by simp [Ann.Good])
  | hlist c a ih =>
    intro hg n o hn
    obtain ⟨m, rfl⟩ : ∃ m, n = m + 1 := ⟨n - 1, by omega⟩
    have hk := text_ok _ hg
    have hr : strToTypes m a.text false = .ok (a.means noNames false) := ih hg m false (by
      rw [Ann.text] at hn; simp at hn; omega)
    rw [strTo_bracket ((text_kind _ hg).2.resolve_left (by simp)) hk.tight (hk.solid rfl), Ann.means]
    cases c with
    | false =>
      have e : (Ann.list false a).text = c!"list[" ++ (a.text ++ c!"]") := rfl
      have h1 : after? c!"Union[" (c!"list[" ++ (a.text ++ c!"]")) = none := rfl
      have h2 : after? c!"Optional[" (c!"list[" ++ (a.text ++ c!"]")) = none := rfl
      have h3 : (c!"list[" ++ (a.text ++ c!"]")).drop 5 = a.text ++ c!"]" := rfl
      rw [bracketTypes, e, h1, h2, h3, uptoLast_append]
      simp only [hr]
      rfl
    | true =>
      have e : (Ann.list true a).text = c!"List[" ++ (a.text ++ c!"]") := rfl
      have h1 : after? c!"Union[" (c!"List[" ++ (a.text ++ c!"]")) = none := rfl
      have h2 : after? c!"Optional[" (c!"List[" ++ (a.text ++ c!"]")) = none := rfl
      have h3 : (c!"List[" ++ (a.text ++ c!"]")).drop 5 = a.text ++ c!"]" := rfl
      rw [bracketTypes, e, h1, h2, h3, uptoLast_append]
      simp only [hr]
      rfl
  | hdict c a ih =>
    intro hg n o hn
    obtain ⟨m, rfl⟩ : ∃ m, n = m + 1 := ⟨n - 1, by omega⟩
    have hk := text_ok _ hg
    have hr : strToTypes m a.text false = .ok (a.means noNames false) := ih hg.1 m false (by
      rw [Ann.text] at hn; simp at hn; omega)
    have ht := (text_ok a hg.1).tight
    rw [strTo_bracket ((text_kind _ hg).2.resolve_left (by simp)) hk.tight (hk.solid rfl), Ann.means]
    cases c with
    | false =>
      have e : (Ann.dict false a).text = c!"dict[" ++ (c!"str, " ++ (a.text ++ c!"]")) := rfl
      have h1 : after? c!"Union[" (c!"dict[" ++ (c!"str, " ++ (a.text ++ c!"]"))) = none := rfl
      have h2 : after? c!"Optional[" (c!"dict[" ++ (c!"str, " ++ (a.text ++ c!"]"))) = none := rfl
      have h3 : (c!"dict[" ++ (c!"str, " ++ (a.text ++ c!"]"))).drop 5 = c!"str, " ++ (a.text ++ c!"]") := rfl
      rw [bracketTypes, e, h1, h2, h3, dictItem_text ht hg.2]
      simp only [hr]
      rfl
    | true =>
      have e : (Ann.dict true a).text = c!"Dict[" ++ (c!"str, " ++ (a.text ++ c!"]")) := rfl
      have h1 : after? c!"Union[" (c!"Dict[" ++ (c!"str, " ++ (a.text ++ c!"]"))) = none := rfl
      have h2 : after? c!"Optional[" (c!"Dict[" ++ (c!"str, " ++ (a.text ++ c!"]"))) = none := rfl
      have h3 : (c!"Dict[" ++ (c!"str, " ++ (a.text ++ c!"]"))).drop 5 = c!"str, " ++ (a.text ++ c!"]") := rfl
      rw [bracketTypes, e, h1, h2, h3, dictItem_text ht hg.2]
      simp only [hr]
      rfl
  | hopt a ih =>
    intro hg n o hn
    obtain ⟨m, rfl⟩ : ∃ m, n = m + 1 := ⟨n - 1, by omega⟩
    have hk := text_ok _ hg
    have hr : strToTypes m a.text true = .ok (a.means noNames true) := ih hg m true (by
      rw [Ann.text] at hn; simp at hn; omega)
    rw [strTo_bracket ((text_kind _ hg).2.resolve_left (by simp)) hk.tight (hk.solid rfl), Ann.means]
    have e : (Ann.opt a).text = c!"Optional[" ++ (a.text ++ c!"]") := rfl
    have h1 : after? c!"Union[" (c!"Optional[" ++ (a.text ++ c!"]")) = none := rfl
    rw [bracketTypes, e, h1, after_append]
    simp only [uptoLast_append, hr]
  | hunion as ih =>
    intro hg n o hn
    obtain ⟨m, rfl⟩ : ∃ m, n = m + 1 := ⟨n - 1, by omega⟩
    have hk := text_ok _ hg
    have hm := fun a ha => goodMembers_mem hg.2 a ha
    have hr : ∀ a ∈ as, strToTypes m a.text true = .ok (a.means noNames true) := fun a ha =>
      ih a ha (hm a ha).1 m true (by
        have := commas_len ha
        rw [Ann.text] at hn; simp at hn; omega)
    rw [strTo_bracket ((text_kind _ hg).2.resolve_left (by simp)) hk.tight (hk.solid rfl), Ann.means]
    have e : (Ann.union as).text = c!"Union[" ++ (Ann.commas as ++ c!"]") := rfl
    rw [bracketTypes, e, after_append]
    simp only [uptoLast_append, union_members as hg.1 hg.2, eachText_ok (f := fun p => strToTypes m p true) hr, unionOf]
    have hadm : Ann.anyAdmits as = false := by
      rw [anyAdmits_eq, List.any_eq_false]
      exact fun a ha => by simp [(hm a ha).2.1]
    have hnn : as.filter (fun a => !a.isNull) = as := by
      rw [List.filter_eq_self]
      intro a ha
      have := (hm a ha).1
      cases a <;> simp [Ann.isNull]
      simp [Ann.Good] at this
    rw [meansL_eq, hnn, hadm, Bool.or_false]
  | hpipe as ih =>
    intro hg n o hn
    obtain ⟨m, rfl⟩ : ∃ m, n = m + 1 := ⟨n - 1, by omega⟩
    obtain ⟨h2, ha, ⟨x, hx, hxn⟩, hnone⟩ := hg
    have hg : (Ann.pipe as).Good := ⟨h2, ha, ⟨x, hx, hxn⟩, hnone⟩
    have hm := fun a hh => goodAlts_mem ha a hh
    have hr : ∀ a ∈ as.filter (fun a => !a.isNull), ∀ o, strToTypes m a.text o = .ok (a.means noNames o) := fun a hh o => by
      obtain ⟨h, hnn⟩ := List.mem_filter.1 hh
      refine ih a h ((hm a h).resolve_left (by simpa using hnn)).1 m o ?_
      have := bars_len h h2
      have e : (Ann.pipe as).text = Ann.bars as := rfl
      rw [e] at hn
      omega
    have hsplit : unionSplit (Ann.bars as) = as.map Ann.text := by
      cases as with
      | nil => exact absurd h2 (by simp)
      | cons a as =>
        refine split_bars as a [] (by simp) (fun b hb => ?_)
        rcases hm b hb with hn | hgb
        · cases b <;> simp [Ann.isNull] at hn
          exact ⟨null_text.tight, null_text.solid rfl⟩
        · have := text_ok b hgb.1
          exact ⟨this.tight, this.solid hgb.2⟩
    have e : (Ann.pipe as).text = Ann.bars as := rfl
    have hkind := primOf_none ((text_kind _ hg).2.resolve_left (by simp))
    have hstep : strToTypes (m + 1) (Ann.bars as) o = pipeTypes (strToTypes m) (as.map Ann.text) o := by
      rw [strToTypes, ← e, hkind, e, hsplit]
      match as, h2 with
      | a :: b :: as, _ => rfl
    rw [e, hstep, Ann.means, meansL_eq]
    unfold pipeTypes
    rw [reals_text (fun a h => (hm a h).imp_right (·.1))]
    have hlen : (decide ((as.map Ann.text).length ≠ ((as.filter (fun a => !a.isNull)).map Ann.text).length)) =
        as.any Ann.isNull := by
      rw [List.length_map, List.length_map]
      cases hany : as.any Ann.isNull with
      | false =>
        have : as.filter (fun a => !a.isNull) = as := by
          rw [List.filter_eq_self]
          intro a h
          rw [List.any_eq_false] at hany
          simpa using hany a h
        simp [this]
      | true =>
        obtain ⟨a, h, hn⟩ := List.any_eq_true.1 hany
        have : (as.filter (fun a => !a.isNull)).length < as.length :=
          List.length_filter_lt_length_iff_exists.2 ⟨a, h, by simp [hn]⟩
        simp; omega
    have hopt : (o || as.any Ann.isNull) = (o || Ann.anyAdmits as) := by
      rw [anyAdmits_eq]
      rcases hnone with ⟨a, h, hn⟩ | hno
      · have h1 : as.any Ann.isNull = true := List.any_eq_true.2 ⟨a, h, hn⟩
        have h3 : as.any Ann.admitsNone = true := List.any_eq_true.2 ⟨a, h, by
          cases a <;> simp [Ann.isNull] at hn; rfl⟩
        rw [h1, h3]
      · rw [anyAdmits_eq] at hno
        rw [hno]
        have : as.any Ann.isNull = false := by
          rw [List.any_eq_false] at hno ⊢
          intro a h hn
          refine hno a h ?_
          cases a <;> simp [Ann.isNull] at hn; rfl
        rw [this]
    have hone : ∀ a, as.filter (fun a => !a.isNull) = [a] → as.any Ann.isNull = true := fun a ha1 => by
      rw [← hlen, ha1]
      simp; omega
    simp only [hlen]
    generalize hrs : as.filter (fun a => !a.isNull) = rs at hr hone
    match rs with
    | [] =>
      have : x ∈ as.filter (fun a => !a.isNull) := List.mem_filter.2 ⟨hx, by simp [hxn]⟩
      rw [hrs] at this
      exact absurd this (by simp)
    | [a] =>
      rw [hone a rfl]
      simp only [List.map_cons, List.map_nil, Bool.or_true]
      exact hr a (by simp) true
    | a :: b :: rs =>
      have := eachText_ok (f := fun p => strToTypes m p true) (as := a :: b :: rs) (fun a h => hr a h true)
      rw [hopt]
      simp only [List.map_cons] at this ⊢
      rw [this]
      rfl
  | hlink a l ih =>
    intro hg n o hn
    obtain ⟨m, rfl⟩ : ∃ m, n = m + 1 := ⟨n - 1, by omega⟩
    have hk := text_ok _ hg
    have hr : strToTypes m a.text o = .ok (a.means noNames o) := ih hg.1 m o (by
      rw [Ann.text] at hn; simp at hn; omega)
    have ht := (text_ok a hg.1).tight
    have hne : a.text ≠ [] := by obtain ⟨⟨c, s, e, -⟩, -⟩ := ht; simp [e]
    rw [strTo_bracket ((text_kind _ hg).2.resolve_left (by simp)) hk.tight (hk.solid rfl)]
    have e : (Ann.link a l).text = c!"Annotated[" ++ (a.text ++ (c!", " ++ (l.text ++ c!"]"))) := by rw [Ann.text]
    have h1 : ∀ r : Txt, after? c!"Union[" (c!"Annotated[" ++ r) = none := fun _ => rfl
    have h2 : ∀ r : Txt, after? c!"Optional[" (c!"Annotated[" ++ r) = none := fun _ => rfl
    have h3 : ∀ r : Txt, (c!"list[".isPrefixOf (c!"Annotated[" ++ r) || c!"List[".isPrefixOf (c!"Annotated[" ++ r)) = false :=
      fun _ => rfl
    have h4 : ∀ r : Txt, isDictText (c!"Annotated[" ++ r) = false := fun _ => rfl
    rw [bracketTypes, e, h1, h2, h3, h4, after_append]
    simp only [annotated_text hne (tight_link l) (no_comma_link l hg.2), hr, applyLink_means noNames a l hg.2 o]
    rfl

/-! ### C53 -/

/-- **C53**: a text annotation means what it spells. -/
theorem annotation_text_means_partial (a : Ann) (h : a.Good) : typesOfText a.text = .ok (a.means noNames false) :=
  read_ok a h _ false (by omega)

theorem mem_reqIf {o : Bool} {m : TMod} : TMod.required ∈ reqIf o [m] ↔ m = .required ∨ o = false := by
  cases o <;> simp [reqIf, eq_comm]

/-- **C53**: the field is required exactly when its annotation does not admit `None`. -/
theorem annotation_required_iff (ν : Txt → Named) (a : Ann) : a.Good →
    ∀ o, .required ∈ a.means ν o ↔ o = false ∧ a.admitsNone = false := by
  induction a using Ann.induct with
  | hprim p => intro _ o; rw [Ann.means, mem_reqIf]; simp [Ann.admitsNone]
  | hname n =>
    intro _ o; rw [Ann.means, mem_reqIf]
    have : (ν n).tmod n ≠ .required := by cases ν n <;> simp [Named.tmod]
    simp [Ann.admitsNone, this]
  | hnull => intro h; exact absurd h (by simp [Ann.Good])
  | hlist c a ih => intro _ o; rw [Ann.means, mem_reqIf]; simp [Ann.admitsNone]
  | hdict c a ih => intro _ o; rw [Ann.means, mem_reqIf]; simp [Ann.admitsNone]
  | hopt a ih => intro h o; rw [Ann.means, ih h]; simp [Ann.admitsNone]
  | hunion as ih => intro h o; rw [Ann.means, mem_reqIf, Ann.admitsNone]; simp
  | hpipe as ih =>
    intro h o
    rw [Ann.means, meansL_eq, Ann.admitsNone]
    have hm : ∀ a ∈ as.filter (fun a => !a.isNull), ∀ o, .required ∈ a.means ν o ↔ o = false ∧ a.admitsNone = false :=
      fun a ha => by
        obtain ⟨h1, h2⟩ := List.mem_filter.1 ha
        exact ih a h1 ((goodAlts_mem h.2.1 a h1).resolve_left (by simpa using h2)).1
    have hone : ∀ a, as.filter (fun a => !a.isNull) = [a] → Ann.anyAdmits as = true := fun a ha => by
      have hlt : (as.filter (fun a => !a.isNull)).length < as.length := by
        rw [ha]; have := h.1; simp; omega
      obtain ⟨b, hb, hbn⟩ := List.length_filter_lt_length_iff_exists.1 hlt
      rw [anyAdmits_eq, List.any_eq_true]
      refine ⟨b, hb, ?_⟩
      cases b <;> simp [Ann.isNull] at hbn
      rfl
    generalize as.filter (fun a => !a.isNull) = rs at hm hone
    match rs with
    | [] => rw [List.map_nil]; change TMod.required ∈ reqIf _ _ ↔ _; rw [mem_reqIf]; simp
    | [a] =>
      rw [hone a rfl]
      change TMod.required ∈ a.means ν true ↔ _
      rw [hm a (by simp)]
      simp
    | a :: b :: rs => rw [List.map_cons, List.map_cons]; change TMod.required ∈ reqIf _ _ ↔ _; rw [mem_reqIf]; simp
  | hlink a l ih =>
    intro h o
    have e : (Ann.link a l).admitsNone = a.admitsNone := by rw [Ann.admitsNone]
    rw [e, ← ih h.1]
    cases l with
    | linkto => rw [Ann.means]; simp
    | linkedby k => rw [Ann.means]; cases a.isList <;> simp
    | linkedthru k => rw [Ann.means]; simp

/-! #### Annotations as type objects -/

mutual
/-- The type object Python makes of an annotation (`typing` merges `Optional` of a union into
the union); names are the classes and enums they stand for. -/
def Ann.rt (ν : Txt → Named) : Ann → Rt
  | .prim p => .prim p
  | .name n => match ν n with
    | .unresolved => .forward n
    | .cls c => .cls c
    | .enum e => .enum e
  | .null => .other
  | .list _ a => .list (a.rt ν)
  | .dict _ a => .dict (.prim .str) (a.rt ν)
  | .opt a => match a.rt ν with
    | .union as _ => .union as true
    | r => .union [r] true
  | .union as => .union (Ann.rtL ν as) false
  | .pipe as => .pipe (Ann.rtL ν as)
  | .link a l => .annotated (a.rt ν) [l.text]

/-- the members -/
def Ann.rtL (ν : Txt → Named) : List Ann → List Rt
  | [] => []
  | a :: as => a.rt ν :: Ann.rtL ν as
end

def Ann.isUnion : Ann → Bool
  | .union _ => true
  | _ => false

/-- a `Union[...]`, with links or without -/
def Ann.bareUnion : Ann → Bool
  | .union _ => true
  | .link a _ => a.bareUnion
  | _ => false

mutual
/-- annotations whose objects are read correctly: no `X | Y`, no forward references, unions
flat, no optional link to a union -/
def Ann.Plain (ν : Txt → Named) : Ann → Prop
  | .prim _ => True
  | .name n => ν n ≠ .unresolved
  | .null => False
  | .list _ a => a.Plain ν
  | .dict _ a => a.Plain ν
  | .opt a => a.Plain ν ∧ (a.isUnion = true ∨ a.bareUnion = false)
  | .union as => 2 ≤ as.length ∧ Ann.PlainL ν as
  | .pipe _ => False
  | .link a l => a.Plain ν ∧ l.Good

/-- members of a union -/
def Ann.PlainL (ν : Txt → Named) : List Ann → Prop
  | [] => True
  | a :: as => (a.Plain ν ∧ a.admitsNone = false ∧ a.bareUnion = false) ∧ Ann.PlainL ν as
end

theorem plainL_mem {ν : Txt → Named} : ∀ {as : List Ann}, Ann.PlainL ν as →
    ∀ a ∈ as, a.Plain ν ∧ a.admitsNone = false ∧ a.bareUnion = false
  | [], _, a, ha => absurd ha (by simp)
  | b :: bs, h, a, ha => by
    rw [Ann.PlainL] at h
    rcases List.mem_cons.1 ha with rfl | ha
    · exact h.1
    · exact plainL_mem h.2 a ha

theorem toTypesL_ok {ν : Txt → Named} : ∀ {as : List Ann}, (∀ a ∈ as, toTypes (a.rt ν) true = .ok (a.means ν true)) →
    toTypesL (Ann.rtL ν as) = .ok (as.map (fun a => a.means ν true))
  | [], _ => rfl
  | a :: as, h => by
    rw [Ann.rtL, toTypesL, h a (by simp)]
    simp only [toTypesL_ok (as := as) (fun b hb => h b (by simp [hb]))]
    rfl

theorem rtL_two {ν : Txt → Named} {as : List Ann} (h : 2 ≤ as.length) : ∃ a b r, Ann.rtL ν as = a :: b :: r := by
  match as, h with
  | a :: b :: as, _ => exact ⟨_, _, _, by rw [Ann.rtL, Ann.rtL]⟩

theorem union_object {ν : Txt → Named} {as : List Ann} (ih : ∀ a ∈ as, a.Plain ν →
    ∀ o, (o = true → a.bareUnion = false) → toTypes (a.rt ν) o = .ok (a.means ν o)) (h : (Ann.union as).Plain ν)
    (nul : Bool) : ∀ o, toTypes (.union (Ann.rtL ν as) nul) o = .ok ((Ann.union as).means ν nul) := by
  intro o
  have h' : 2 ≤ as.length ∧ Ann.PlainL ν as := h
  have hm := fun a ha => plainL_mem h'.2 a ha
  have hl := toTypesL_ok (ν := ν) (as := as) (fun a ha => ih a ha (hm a ha).1 true (fun _ => (hm a ha).2.2))
  have hadm : Ann.anyAdmits as = false := by
    rw [anyAdmits_eq, List.any_eq_false]
    exact fun a ha => by simp [(hm a ha).2.1]
  have hnn : as.filter (fun a => !a.isNull) = as := by
    rw [List.filter_eq_self]
    intro a ha
    have := (hm a ha).1
    cases a <;> simp [Ann.isNull]
    simp [Ann.Plain] at this
  rw [Ann.means, hadm, Bool.or_false, meansL_eq, hnn]
  obtain ⟨a, b, r, e⟩ := rtL_two (ν := ν) h'.1
  rw [e] at hl ⊢
  have e2 : toTypes (.union (a :: b :: r) nul) o = unionOf nul (toTypesL (a :: b :: r)) := by
    rw [toTypes]; simp
  rw [e2, hl]
  rfl

theorem object_means (ν : Txt → Named) (a : Ann) : a.Plain ν →
    (∀ o, (o = true → a.bareUnion = false) → toTypes (a.rt ν) o = .ok (a.means ν o)) ∧
    (∀ rs nul o, a.rt ν = .union rs nul → toTypes (.union rs true) o = .ok (a.means ν true)) := by
  induction a using Ann.induct with
  | hprim p => intro _; exact ⟨fun o _ => by rw [Ann.rt, toTypes, Ann.means], fun _ _ _ h => absurd h (by simp [Ann.rt])⟩
  | hname n =>
    intro h
    have h' : ν n ≠ .unresolved := h
    rw [Ann.rt]
    cases hn : ν n with
    | unresolved => exact absurd hn h'
    | cls c => exact ⟨fun o _ => by rw [Ann.means, hn]; rfl, fun _ _ _ h => absurd h (by simp)⟩
    | enum e => exact ⟨fun o _ => by rw [Ann.means, hn]; rfl, fun _ _ _ h => absurd h (by simp)⟩
  | hnull => intro h; exact absurd h (by simp [Ann.Plain])
  | hlist c a ih =>
    intro h
    exact ⟨fun o _ => by rw [Ann.rt, toTypes, (ih h).1 false (by simp), Ann.means]; rfl,
      fun _ _ _ h => absurd h (by simp [Ann.rt])⟩
  | hdict c a ih =>
    intro h
    exact ⟨fun o _ => by rw [Ann.rt, toTypes, (ih h).1 false (by simp), Ann.means]; rfl,
      fun _ _ _ h => absurd h (by simp [Ann.rt])⟩
  | hunion as ih =>
    intro h
    rw [Ann.rt]
    refine ⟨fun o ho => ?_, fun rs nul o e => ?_⟩
    · obtain rfl : o = false := by
        cases o with
        | false => rfl
        | true => exact absurd (ho rfl) (by simp [Ann.bareUnion])
      exact union_object (fun a ha hp => (ih a ha hp).1) h false false
    · obtain ⟨rfl, -⟩ := Rt.union.inj e
      exact union_object (fun a ha hp => (ih a ha hp).1) h true o
  | hpipe as ih => intro h; exact absurd h (by simp [Ann.Plain])
  | hlink a l ih =>
    intro h
    have h' : a.Plain ν ∧ l.Good := h
    refine ⟨fun o ho => ?_, fun _ _ _ h => absurd h (by simp [Ann.rt])⟩
    rw [Ann.rt, toTypes, (ih h'.1).1 o ho]
    exact applyLink_means ν a l h'.2 o
  | hopt a ih =>
    intro h
    have h' : a.Plain ν ∧ (a.isUnion = true ∨ a.bareUnion = false) := h
    have key : ∃ rs, (Ann.opt a).rt ν = .union rs true ∧ ∀ o, toTypes (.union rs true) o = .ok (a.means ν true) := by
      by_cases hu : ∃ rs nul, a.rt ν = .union rs nul
      · obtain ⟨rs, nul, e⟩ := hu
        exact ⟨rs, by rw [Ann.rt, e], fun o => (ih h'.1).2 rs nul o e⟩
      · have e : (Ann.opt a).rt ν = .union [a.rt ν] true := by
          rw [Ann.rt]
          split
          · rename_i rs nul e; exact absurd ⟨rs, nul, e⟩ hu
          · rfl
        have hb : a.bareUnion = false := h'.2.resolve_left (fun hi => by
          cases a <;> simp [Ann.isUnion] at hi
          exact hu ⟨_, _, by rw [Ann.rt]⟩)
        refine ⟨_, e, fun o => ?_⟩
        rw [toTypes]
        exact (ih h'.1).1 true (fun _ => hb)
    obtain ⟨rs, e, hk⟩ := key
    refine ⟨fun o _ => by rw [e, Ann.means]; exact hk o, fun rs' nul o e' => ?_⟩
    rw [e] at e'
    obtain ⟨rfl, -⟩ := Rt.union.inj e'
    rw [Ann.means]
    exact hk o

/-- **C53**: and so does a type object; so under `from __future__ import annotations` or not,
the same annotation gives the same definition but for the names still to be resolved. -/
theorem annotation_object_means_partial (ν : Txt → Named) (a : Ann) (h : a.Plain ν) :
    toTypes (a.rt ν) false = .ok (a.means ν false) :=
  (object_means ν a h).1 false (by simp)

/-! #### What is left out -/

/-- A dict of dicts is read wrongly: the item type is taken after the last comma. -/
theorem annot_nested_dict : typesOfText c!"dict[str, dict[str, int]]" =
    .ok [.dictof [.unresolved c!"int]", .required], .required] := rfl

/-- `Union[str, None]` is required, and `None` is taken for a class name. -/
theorem annot_union_none : typesOfText c!"Union[str, None]" =
    .ok [.union [[.prim .str], [.unresolved c!"None"]], .required] := rfl

/-- A comma further inside a member of `Union[...]` is taken for one between members. -/
theorem annot_union_nested : typesOfText c!"Union[str, list[dict[str, int]]]" = .error .assertion := rfl

/-- `Optional[str] | int` admits `None` but is required. -/
theorem annot_pipe_optional : typesOfText c!"Optional[str] | int" =
    .ok [.union [[.prim .str], [.prim .int]], .required] := rfl

/-- Without postponed annotations, `Optional['User']` is required: the forward reference forgets
that `None` was admitted. -/
theorem annot_forward_required : toTypes ((Ann.opt (.name c!"User")).rt noNames) false =
    .ok [.unresolved c!"User", .required] := rfl

/-- Without postponed annotations, `str | None` is rejected. -/
theorem annot_object_pipe (as : List Rt) (o : Bool) : toTypes (.pipe as) o = .error .valueError := rfl

/-- `Optional[Annotated[Union[str, int], ...]]` is required when given as an object. -/
theorem annot_link_union (ν : Txt → Named) :
    toTypes ((Ann.opt (.link (.union [.prim .str, .prim .int]) .linkto)).rt ν) false =
      .ok [.union [[.prim .str], [.prim .int]], .required, .linkto] := rfl

/-- the property without the fragment is false -/
theorem annotation_means_false : ¬ ∀ a : Ann, typesOfText a.text = .ok (a.means noNames false) := by
  intro h
  have h1 := h (.dict false (.dict false (.prim .int)))
  have h2 : typesOfText (Ann.dict false (.dict false (.prim .int))).text =
    .ok [.dictof [.unresolved c!"int]", .required], .required] := annot_nested_dict
  rw [h2] at h1
  have h3 := Except.ok.inj h1
  simp [Ann.means, reqIf] at h3

/-! #### A concrete case -/

/-- `Annotated[list[Post], linkedby('author')] | Dict[str, Optional[int]] | None` in pieces -/
def demoAnn : Ann := .pipe [.dict true (.opt (.prim .int)), .union [.dict false (.list false (.name c!"Post")), .prim .str],
  .link (.list false (.name c!"Post")) (.linkedby c!"author"), .null]

example : demoAnn.text = c!"Dict[str, Optional[int]] | Union[dict[str, list[Post]], str] | Annotated[list[Post], linkedby('author')] | None" := rfl

theorem demoName : IsName c!"Post" := by
  refine ⟨by decide, by decide +kernel, fun p => by cases p <;> decide, by decide⟩

theorem demoAnn_good : demoAnn.Good := by
  refine ⟨by decide, ⟨.inr ⟨⟨trivial, by decide⟩, rfl⟩, .inr ⟨⟨by simp, ?_⟩, rfl⟩, .inr ⟨⟨demoName, ?_⟩, rfl⟩, .inl rfl, trivial⟩,
    ⟨.dict true (.opt (.prim .int)), by simp, rfl⟩, .inl ⟨.null, by simp, rfl⟩⟩
  · exact ⟨⟨⟨demoName, by decide⟩, rfl, .inr rfl⟩, ⟨trivial, rfl, .inl (by decide)⟩, trivial⟩
  · exact ⟨by decide, by decide +kernel⟩

/-- read as text -/
example : typesOfText demoAnn.text = .ok [.union [
    [.dictof [.prim .int]],
    [.union [[.dictof [.listof [.unresolved c!"Post", .required], .required]], [.prim .str]]],
    [.listof [.unresolved c!"Post", .required], .nonnull, .linkedby c!"author"]]] := annotation_text_means_partial _ demoAnn_good

example : (Ann.opt (.dict false (.dict false (.union [.name c!"User", .prim .date])))).Plain (fun _ => .cls 3) := by
  refine ⟨⟨by simp, ⟨by simp [Ann.Plain], rfl, rfl⟩, ⟨trivial, rfl, rfl⟩, trivial⟩, .inr rfl⟩

end JC
