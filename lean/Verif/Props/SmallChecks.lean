import Verif.Props.Annot
import Verif.Props.Permit

/-!
Two further facts: which objects `isobjof` accepts (C57, C58), and that link annotations without a
closed key are refused (C53).
-/

namespace JC

/-- `isobjof` accepts exactly the objects of the class and its subclasses. -/
theorem isobjof_iff {env : Env} {h : Heap} {c : Ctx} {cls : String} :
    (isobjofLeaf env cls).validate h c = .ok () ↔
      ∃ i, c.val = .obj i ∧ env.isSub (h i).cls cls = true := by
  constructor
  · intro he
    simp only [isobjofLeaf] at he
    split at he
    · cases he
    · next i hi =>
      split at he
      · next hs => exact ⟨i, hi, hs⟩
      · cases he
    · cases he
  · rintro ⟨i, hi, hs⟩
    simp [isobjofLeaf, hi, hs]

theorem uptoQuote_some (r k : Txt) (h : uptoQuote r = some k) :
    ∃ rest, r = k ++ c!"')" ++ rest := by
  induction r generalizing k with
  | nil => cases h
  | cons c cs ih =>
    simp only [uptoQuote] at h
    cases hc : uptoQuote cs with
    | some k' =>
      rw [hc] at h
      cases h
      obtain ⟨rest, hr⟩ := ih k' hc
      exact ⟨rest, by rw [hr]; rfl⟩
    | none =>
      rw [hc] at h
      simp only at h
      split at h
      · next r' => cases h; exact ⟨r', rfl⟩
      · cases h

/-- A key that is not closed by a quote and a parenthesis is refused. -/
theorem unclosed_link_refused (t : List TMod) (r : Txt) (h : ¬ ∃ a b, r = a ++ c!"')" ++ b) :
    applyLink t (c!"linkedby('" ++ r) = .error .assertion ∧
    applyLink t (c!"linkedthru('" ++ r) = .error .assertion := by
  have hn : uptoQuote r = none := by
    cases hq : uptoQuote r with
    | none => rfl
    | some k => exact (h ⟨k, uptoQuote_some r k hq⟩).elim
  constructor
  · have h1 : c!"linkto".isPrefixOf (c!"linkedby('" ++ r) = false := rfl
    rw [applyLink, h1, after_append]
    simp [hn]
  · have h1 : c!"linkto".isPrefixOf (c!"linkedthru('" ++ r) = false := rfl
    have h2 : after? c!"linkedby('" (c!"linkedthru('" ++ r) = none := rfl
    rw [applyLink, h1, h2, after_append]
    simp [hn]

example : ¬ ∃ a b, c!"author'" = a ++ c!"')" ++ b := by
  rintro ⟨a, b, h⟩
  have : ')' ∈ c!"author'" := by rw [h]; simp
  exact absurd this (by decide)

end JC
