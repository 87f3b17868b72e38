import Verif.Props.Convert
import Mathlib.Data.List.Perm.Subperm

/-
C66: generated values and passwords.
-/
namespace JC

/-! ### Specification -/

/-- the first 72 bytes of the UTF-8 encoding, all that bcrypt looks at -/
def bcryptPart (s : String) : List UInt8 := (s.toUTF8.data.toList).take 72

/-- What `bcrypt` promises: a hash accepts the passwords agreeing with the original one in the
first 72 bytes. Passwords with a NUL character are refused. -/
def Bcrypt.Lawful (B : Bcrypt) : Prop :=
  ∀ p s t q, B.hash p s = some t → '\x00' ∉ q.toList → B.check q t = some (decide (bcryptPart q = bcryptPart p))

/-- `t` consists of `k` different characters of `alphabet` -/
def DistinctFrom (alphabet t : List Char) (k : Nat) : Prop := t.length = k ∧ t.Nodup ∧ ∀ ch ∈ t, ch ∈ alphabet

section generate
variable {h : Heap} {c : Ctx} {R : Rand} {p : Param}

theorem pick_distinct {alphabet : List Char} (hn : alphabet.Nodup) {k : Nat} (hk : k ≤ alphabet.length) :
    DistinctFrom alphabet ((R.pick alphabet.length k).map (fun i => alphabet.getD i ' ')) k := by
  refine ⟨by rw [List.length_map, R.pick_len _ _ hk], ?_, ?_⟩
  · have hlt := R.pick_lt _ _ hk
    refine (List.nodup_map_iff_inj_on (R.pick_nodup _ _ hk)).2 ?_
    intro i hi j hj hij
    have e1 : alphabet.getD i ' ' = alphabet[i]'(hlt i hi) := by simp [List.getD, List.getElem?_eq_getElem (hlt i hi)]
    have e2 : alphabet.getD j ' ' = alphabet[j]'(hlt j hj) := by simp [List.getD, List.getElem?_eq_getElem (hlt j hj)]
    rw [e1, e2] at hij
    exact (List.Nodup.getElem_inj_iff hn).1 hij
  · intro ch hc
    obtain ⟨i, hi, rfl⟩ := List.mem_map.1 hc
    have hlt := R.pick_lt _ _ hk i hi
    have e1 : alphabet.getD i ' ' = alphabet[i]'hlt := by simp [List.getD, List.getElem?_eq_getElem hlt]
    simp only [e1]
    exact List.getElem_mem hlt

/-- a length that is an integer -/
theorem randomText_spec {alphabet : List Char} (hn : alphabet.Nodup) {k : Int} (hp : p h c = .ok (.int k)) :
    (0 ≤ k → k ≤ alphabet.length → ∃ t, (randomTextMod R alphabet p).transform h c = .ok (.str (String.ofList t)) ∧ DistinctFrom alphabet t k.toNat) ∧
    (k < 0 ∨ (alphabet.length : Int) < k → (randomTextMod R alphabet p).transform h c = .error .valueError) := by
  constructor
  · intro h0 h1
    refine ⟨_, ?_, pick_distinct (R := R) hn (k := k.toNat) (by omega)⟩
    have : ¬ (k < 0 ∨ (alphabet.length : Int) < k) := by omega
    simp [randomTextMod, hp, sampleText, this]
  · intro hk
    simp [randomTextMod, hp, sampleText, hk]

/-- a length that is a bool counts as 1 or 0 -/
theorem randomText_bool {alphabet : List Char} (hn : alphabet.Nodup) (h0 : alphabet ≠ []) {b : Bool} (hp : p h c = .ok (.bool b)) :
    ∃ t, (randomTextMod R alphabet p).transform h c = .ok (.str (String.ofList t)) ∧ DistinctFrom alphabet t b.toNat := by
  have hl : b.toNat ≤ alphabet.length := by
    have := List.length_pos_iff.2 h0
    cases b
    · exact Nat.zero_le _
    · exact this
  refine ⟨_, ?_, pick_distinct (R := R) hn hl⟩
  cases b <;> simp [randomTextMod, hp, sampleText]

/-- Generated digits: `n` different digits for `0 ≤ n ≤ 10`, a ValueError that is no validation
error otherwise; the value of the field does not matter. -/
theorem randomdigits_spec {k : Int} (hp : p h c = .ok (.int k)) :
    (0 ≤ k → k ≤ 10 → ∃ t, (randomdigitsMod R p).transform h c = .ok (.str (String.ofList t)) ∧ DistinctFrom "0123456789".toList t k.toNat) ∧
    (k < 0 ∨ 10 < k → ∃ e, (randomdigitsMod R p).transform h c = .error e ∧ e.isValidation = false) := by
  have := randomText_spec (R := R) (alphabet := digitChars) (by decide) hp
  exact ⟨fun h0 h1 => this.1 h0 h1, fun hk => ⟨_, this.2 hk, rfl⟩⟩

/-- Generated letters and digits: at most 62. -/
theorem randomalnums_spec {k : Int} (hp : p h c = .ok (.int k)) :
    (0 ≤ k → k ≤ 62 → ∃ t, (randomalnumsMod R p).transform h c = .ok (.str (String.ofList t)) ∧ t.length = k.toNat ∧ t.Nodup ∧ ∀ ch ∈ t, ch.isAlphanum = true) ∧
    (k < 0 ∨ 62 < k → ∃ e, (randomalnumsMod R p).transform h c = .error e ∧ e.isValidation = false) := by
  have := randomText_spec (R := R) (alphabet := alnumChars) (by decide) hp
  refine ⟨fun h0 h1 => ?_, fun hk => ⟨_, this.2 hk, rfl⟩⟩
  obtain ⟨t, h2, h3, h4, h5⟩ := this.1 h0 h1
  exact ⟨t, h2, h3, h4, fun ch hc => (by decide : ∀ ch ∈ alnumChars, ch.isAlphanum = true) ch (h5 ch hc)⟩

set_option maxRecDepth 20000 in
theorem puncts_nodup : (punctChars ++ alnumChars).Nodup := by decide

/-- Generated letters, digits and punctuation: at most 94, none of them a space or a control
character. -/
theorem randomalnumpuncs_spec {k : Int} (hp : p h c = .ok (.int k)) :
    (0 ≤ k → k ≤ 94 → ∃ t, (randomalnumpuncsMod R p).transform h c = .ok (.str (String.ofList t)) ∧ t.length = k.toNat ∧ t.Nodup ∧ ∀ ch ∈ t, 32 < ch.toNat ∧ ch.toNat < 127) ∧
    (k < 0 ∨ 94 < k → ∃ e, (randomalnumpuncsMod R p).transform h c = .error e ∧ e.isValidation = false) := by
  have := randomText_spec (R := R) (alphabet := punctChars ++ alnumChars) puncts_nodup hp
  refine ⟨fun h0 h1 => ?_, fun hk => ⟨_, this.2 hk, rfl⟩⟩
  obtain ⟨t, h2, h3, h4, h5⟩ := this.1 h0 h1
  exact ⟨t, h2, h3, h4, fun ch hc => (by decide : ∀ ch ∈ punctChars ++ alnumChars, 32 < ch.toNat ∧ ch.toNat < 127) ch (h5 ch hc)⟩

/-- Every allowed text can be generated: for any `k` different characters there is an outcome
of the random choice producing them. -/
theorem randomdigits_reaches {t : List Char} {k : Nat} (ht : DistinctFrom "0123456789".toList t k) (hp : p h c = .ok (.int k)) :
    ∃ R : Rand, (randomdigitsMod R p).transform h c = .ok (.str (String.ofList t)) := by
  obtain ⟨h1, h2, h3⟩ := ht
  have h3' : ∀ ch ∈ t, ch ∈ digitChars := h3
  have hlen : t.length ≤ digitChars.length := (List.Nodup.subperm h2 h3').length_le
  let idx := t.map (fun ch => digitChars.idxOf ch)
  have hidx : ∀ i ∈ idx, i < digitChars.length := by
    intro i hi
    obtain ⟨ch, hc, rfl⟩ := List.mem_map.1 hi
    exact List.idxOf_lt_length_of_mem (h3' ch hc)
  have hnd : idx.Nodup := by
    refine (List.nodup_map_iff_inj_on h2).2 ?_
    intro x hx y hy hxy
    exact (List.idxOf_inj (h3' x hx)).1 hxy
  refine ⟨{ pick := fun n k' => if n = 10 ∧ k' = k then idx else List.range k', pick_len := ?_, pick_lt := ?_, pick_nodup := ?_,
            range := fun a _ => a, range_ge := fun _ _ _ => Int.le_refl _, range_lt := fun _ _ hab => hab }, ?_⟩
  · intro n k' _
    split
    · rename_i e; rw [e.2, ← h1]; simp [idx]
    · simp
  · intro n k' hk i hi
    split at hi
    · rename_i e; rw [e.1]; exact hidx i hi
    · have := List.mem_range.1 hi; omega
  · intro n k' _
    split
    · exact hnd
    · exact List.nodup_range
  · have hd : digitChars.length = 10 := rfl
    have hk : ¬ ((k : Int) < 0 ∨ ((10 : Nat) : Int) < k) := by omega
    simp only [randomdigitsMod, randomTextMod, hp, Except.bind_ok_eq, sampleText, hd, hk, if_false, Int.toNat_natCast, and_self, if_true]
    congr 3
    rw [List.map_map]
    conv => rhs; rw [← List.map_id t]
    apply List.map_congr_left
    intro ch hc
    have hl := List.idxOf_lt_length_of_mem (h3' ch hc)
    simp [List.getD, List.getElem?_eq_getElem hl]

/-- Generated integers: from the lower bound up to, not including, the upper one; a validation
error if there are none. -/
theorem randomint_spec {pmin pmax : Param} {a b : Int} (ha : pmin h c = .ok (.int a)) (hb : pmax h c = .ok (.int b)) :
    (a < b → ∃ n, (randomintMod R pmin pmax).transform h c = .ok (.int n) ∧ a ≤ n ∧ n < b) ∧
    (b ≤ a → ∃ m, (randomintMod R pmin pmax).transform h c = .error (c.vexc m)) := by
  constructor
  · intro hab
    exact ⟨R.range a b, by simp [randomintMod, ha, hb, hab], R.range_ge a b hab, R.range_lt a b hab⟩
  · intro hab
    have : ¬ a < b := by omega
    exact ⟨"is not less than or equal", by simp [randomintMod, ha, hb, this]⟩

/-- A generated object id: only where there is no value. -/
theorem mongoid_spec {fresh : String} :
    (c.val = .none → (mongoidMod fresh).transform h c = .ok (.str fresh)) ∧ (c.val ≠ .none → (mongoidMod fresh).transform h c = .ok c.val) := by
  constructor
  · intro hv; simp [mongoidMod, hv]
  · intro hv
    unfold mongoidMod
    simp only []

end generate

/-! ### Passwords -/

section passwords
variable {h : Heap} {c : Ctx} {B : Bcrypt} {against : Pipe}

/-- A salted password is accepted by `checkpw` against a password exactly if the two agree in
the first 72 bytes; otherwise the check fails with a validation error. -/
theorem salt_checkpw (hB : B.Lawful) {s : B.Salt} {p : String} {t : Val} (hp : c.val = .str p) (hs : (saltMod B s).transform h c = .ok t)
    {h' : Heap} {c' : Ctx} (hv : c'.val = t) {q : String} (hq : against.transform h' c' = .ok (.str q)) (h0 : '\x00' ∉ q.toList) :
    (bcryptPart q = bcryptPart p → (checkpwMod B against).validate h' c' = .ok ()) ∧
    (bcryptPart q ≠ bcryptPart p → ∃ m, (checkpwMod B against).validate h' c' = .error (c'.vexc m)) := by
  simp only [saltMod, hp] at hs
  cases hh : B.hash p s with
  | none => rw [hh] at hs; cases hs
  | some u =>
    rw [hh] at hs
    injection hs with hs
    subst hs
    have hlaw := hB p s u q hh h0
    constructor
    · intro he
      simp [checkpwMod, hq, hv, hlaw, he]
    · intro he
      exact ⟨"value is incorrect", by simp [checkpwMod, hq, hv, hlaw, he]⟩

/-- Two passwords of at most 72 bytes are told apart. -/
theorem bcryptPart_short {p q : String} (hp : p.toUTF8.data.toList.length ≤ 72) (hq : q.toUTF8.data.toList.length ≤ 72) : bcryptPart q = bcryptPart p ↔ q = p := by
  unfold bcryptPart
  rw [List.take_of_length_le hp, List.take_of_length_le hq]
  constructor
  · intro h
    have h2 : q.toUTF8 = p.toUTF8 := by
      exact ByteArray.ext (Array.toList_inj.1 h)
    exact String.toByteArray_inj.1 h2
  · rintro rfl; rfl

/-- A value that is salted twice does not accept the password any more. -/
theorem salt_twice (hB : B.Lawful) {s s' : B.Salt} {p t u : String} (hp : c.val = .str p) (hs : (saltMod B s).transform h c = .ok (.str t))
    {h₁ : Heap} {c₁ : Ctx} (ht : c₁.val = .str t) (hs' : (saltMod B s').transform h₁ c₁ = .ok (.str u)) (hne : bcryptPart p ≠ bcryptPart t)
    {h' : Heap} {c' : Ctx} (hv : c'.val = .str u) (hq : against.transform h' c' = .ok (.str p)) (h0 : '\x00' ∉ p.toList) :
    ∃ m, (checkpwMod B against).validate h' c' = .error (c'.vexc m) :=
  (salt_checkpw hB ht hs' hv hq h0).2 hne

/-- Without a stored text, or checked against something that is no text, no password is right. -/
theorem checkpw_needs_text {a : Val} (ha : against.transform h c = .ok a) (hn : (∀ s, c.val ≠ .str s) ∨ (∀ s, a ≠ .str s)) :
    ∃ m, (checkpwMod B against).validate h c = .error (c.vexc m) := by
  refine ⟨"value is incorrect", ?_⟩
  simp only [checkpwMod, ha, Except.bind_ok_eq]
  split
  · rename_i pw stored h1 
    rcases hn with hn | hn
    · exact absurd ‹c.val = .str stored› (hn _)
    · exact absurd rfl (hn _)
  · rfl

/-- A stored text that is no hash, for example a password stored as it is: bcrypt's ValueError is
passed on, it is no validation error. -/
theorem checkpw_raises {q t : String} (hv : c.val = .str t) (hq : against.transform h c = .ok (.str q)) (hn : B.check q t = none) :
    ∃ e, (checkpwMod B against).validate h c = .error e ∧ e.isValidation = false :=
  ⟨.valueError, by simp [checkpwMod, hq, hv, hn], rfl⟩

/-- Values that are no text are not salted. -/
theorem salt_others {s : B.Salt} (hv : ∀ p, c.val ≠ .str p) : (saltMod B s).transform h c = .ok c.val := by
  unfold saltMod
  simp only []

end passwords

/-! ### Examples -/

namespace GenerateDemo

/-- takes the first positions and the lower bound -/
def first : Rand where
  pick := fun _ k => List.range k
  pick_len := by intro n k _; simp
  pick_lt := by intro n k hk i hi; have := List.mem_range.1 hi; omega
  pick_nodup := fun _ _ _ => List.nodup_range
  range := fun a _ => a
  range_ge := fun _ _ _ => Int.le_refl _
  range_lt := fun _ _ h => h

def ctx : Ctx := { keypathp := [], fkeypathr := [], val := .none }

/-- four digits -/
example (h : Heap) : ∃ t, (randomdigitsMod first (fun _ _ => .ok (.int 4))).transform h ctx = .ok (.str (String.ofList t)) ∧ DistinctFrom "0123456789".toList t 4 :=
  (randomdigits_spec (R := first) (h := h) (c := ctx) (k := 4) rfl).1 (by decide) (by decide)

/-- A code of 12 digits cannot be generated. -/
theorem twelve_digits (R : Rand) (h : Heap) : ∃ e, (randomdigitsMod R (fun _ _ => .ok (.int 12))).transform h ctx = .error e ∧ e.isValidation = false :=
  (randomdigits_spec (R := R) (h := h) (c := ctx) (k := 12) rfl).2 (.inr (by decide))

/-- "11" is never generated: of the 10000 codes of four digits only 5040 are. -/
theorem never_11 (R : Rand) (h : Heap) (c : Ctx) (p : Param) (k : Int) (hp : p h c = .ok (.int k)) :
    (randomdigitsMod R p).transform h c ≠ .ok (.str (String.ofList ['1', '1'])) := by
  intro he
  have := randomdigits_spec (R := R) hp
  by_cases hk : 0 ≤ k ∧ k ≤ 10
  · obtain ⟨t, h1, _, h2, _⟩ := this.1 hk.1 hk.2
    rw [h1] at he
    injection he with he
    injection he with he
    have : t = ['1', '1'] := by rw [← String.toList_ofList (l := t), he, String.toList_ofList]
    rw [this] at h2
    exact absurd h2 (by decide)
  · obtain ⟨e, h1, _⟩ := this.2 (by omega)
    rw [h1] at he
    cases he

example (h : Heap) : ∃ n, (randomintMod first (fun _ _ => .ok (.int 3)) (fun _ _ => .ok (.int 5))).transform h ctx = .ok (.int n) ∧ 3 ≤ n ∧ n < 5 :=
  (randomint_spec (R := first) (h := h) (c := ctx) (a := 3) (b := 5) rfl rfl).1 (by decide)

example (h : Heap) : (mongoidMod "64a").transform h ctx = .ok (.str "64a") := mongoid_spec.1 rfl

/-- bytes as text -/
def bytesText (b : List UInt8) : String := String.ofList (b.map (fun x => Char.ofNat x.toNat))

theorem bytesText_inj {a b : List UInt8} (h : bytesText a = bytesText b) : a = b := by
  unfold bytesText at h
  have h := congrArg String.toList h
  rw [String.toList_ofList, String.toList_ofList] at h
  refine List.map_injective_iff.2 ?_ h
  intro x y hxy
  have hv : ∀ x : UInt8, (Char.ofNat x.toNat).toNat = x.toNat := by
    intro x
    have hx : x.toNat.isValidChar := .inl (by have := x.toNat_lt; omega)
    simp only [Char.ofNat, hx, dif_pos]
    rfl
  have := congrArg Char.toNat hxy
  simp only [hv] at this
  exact UInt8.toNat_inj.1 this

/-- "hashing" that keeps the first 72 bytes -/
def plain : Bcrypt where
  Salt := Unit
  hash := fun p _ => if '\x00' ∈ p.toList then none else some (bytesText (bcryptPart p))
  check := fun q t => if '\x00' ∈ q.toList then none else some (decide (bytesText (bcryptPart q) = t))

theorem plain_lawful : plain.Lawful := by
  intro p s t q h h0
  simp only [plain] at h
  split at h
  · cases h
  · simp only [Option.some.injEq] at h
    subst h
    simp only [plain, h0, if_false, Option.some.injEq, decide_eq_decide]
    exact ⟨bytesText_inj, fun h => by rw [h]⟩

/-- a login: the stored text is checked against the given password -/
def given (q : String) : Pipe := [.leaf { transform := fun _ _ => .ok (.str q) }]

theorem given_run (q : String) (h : Heap) (c : Ctx) : (given q).transform h c = .ok (.str q) := rfl

/-- The right password is accepted, another one is not. -/
example (h : Heap) : ∃ t, (saltMod plain ()).transform h (ctx.nval (.str "secret")) = .ok t ∧ (checkpwMod plain (given "secret")).validate h (ctx.nval t) = .ok () ∧
    ∃ m, (checkpwMod plain (given "guess")).validate h (ctx.nval t) = .error ((ctx.nval t).vexc m) := by
  have hs : (saltMod plain ()).transform h (ctx.nval (.str "secret")) = .ok (.str (bytesText (bcryptPart "secret"))) := by
    simp only [saltMod, plain, Ctx.nval]
    rw [if_neg (by decide)]
  refine ⟨.str (bytesText (bcryptPart "secret")), hs, ?_, ?_⟩
  · exact (salt_checkpw (h := h) (c := ctx.nval (.str "secret")) plain_lawful (s := ()) rfl hs (h' := h) (q := "secret") rfl (given_run _ _ _) (by decide)).1 rfl
  · exact (salt_checkpw (h := h) (c := ctx.nval (.str "secret")) plain_lawful (s := ()) rfl hs (h' := h) (q := "guess") rfl (given_run _ _ _) (by decide)).2 (by decide)

/-- 72 letters, then one more -/
def long (x : Char) : String := String.ofList (List.replicate 72 'a' ++ [x])

/-- Passwords of more than 72 bytes that differ only after them are all accepted, whatever the
salt and hash function: `salt` does not refuse long passwords. -/
theorem long_passwords (B : Bcrypt) (hB : B.Lawful) (s : B.Salt) (h : Heap) (t : Val) (hs : (saltMod B s).transform h (ctx.nval (.str (long 'x'))) = .ok t) :
    long 'x' ≠ long 'y' ∧ (checkpwMod B (given (long 'y'))).validate h (ctx.nval t) = .ok () := by
  refine ⟨by decide, ?_⟩
  refine (salt_checkpw (h := h) (c := ctx.nval (.str (long 'x'))) hB (s := s) rfl hs (h' := h) (c' := ctx.nval t) (q := long 'y') rfl (given_run _ _ _) (by decide)).1 ?_
  decide

end GenerateDemo

end JC
