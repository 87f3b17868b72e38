import Verif.Model.UConf
import Verif.Props.KeySet
import Verif.Props.Json
import Mathlib.Data.List.Nodup
import Mathlib.Data.List.Forall2

/-
C60: what is in config.json can be looked up under its path, with names in underscore form
and environment references replaced. C61: uploaders are made as configured.
-/
namespace JC

/-! ### Specification -/

/-- From a JSON value a path leads to a part of it. Positions of lists count from the start, or
with a negative number from the end. -/
inductive Leads : Val → List Key → Val → Prop
  | here {v} : Leads v [] v
  | key {kvs k x p v} : dictGet kvs k = some x → Leads x p v → Leads (.dict kvs) (.s k :: p) v
  | item {xs p v} {n : Nat} {x} : xs[n]? = some x → Leads x p v → Leads (.list xs) (.i n :: p) v
  | back {xs p v} {m : Nat} {x} : xs.reverse[m]? = some x → Leads x p v → Leads (.list xs) (.i (-(m + 1 : Nat)) :: p) v

/-- lists and dicts -/
def Val.Holds : Val → Prop
  | .list _ => True
  | .dict _ => True
  | _ => False

/-- A lookup that finds `v` gives it as it is, a list or dict wrapped. -/
def IsAnswer (g : Got) (v : Val) : Prop := (v.Holds ∧ g = .conf v) ∨ (¬ v.Holds ∧ g = .plain v)

/-- How a part of a key path can be understood. -/
def ReadsAs (s : String) (k : Key) : Prop := k = .s s ∨ ∃ n, keyInt s = some n ∧ k = .i n

/-- In no dict of the value do two names have the same form. -/
def Sane (under : String → String) (conf : Val) : Prop :=
  ∀ p kvs, Leads conf p (.dict kvs) → (kvs.map (fun kv => under kv.1)).Nodup

/-- A reference to an environment variable: `environ['NAME']`, with either kind of quotes. -/
def EnvForm (s n : String) : Prop :=
  ∃ q q' nl, (q = '\'' ∨ q = '"') ∧ (q' = '\'' ∨ q' = '"') ∧ (nl = [] ∨ nl = ['\n']) ∧ n.toList ≠ [] ∧ '\n' ∉ n.toList ∧
    s.toList = c!"environ[" ++ q :: n.toList ++ [q', ']'] ++ nl

/-- What becomes of a value that is no list or dict. -/
def Becomes (environ : String → Option String) (v v' : Val) : Prop :=
  (∃ s n x, v = .str s ∧ EnvForm s n ∧ environ n = some x ∧ v' = .str x) ∨
  ((∀ s n, v = .str s → ¬ EnvForm s n) ∧ v' = v)

/-- the names of a path in the other form -/
def normKey (under : String → String) : Key → Key
  | .s k => .s (under k)
  | .i n => .i n

/-! ### Lookup -/

theorem isAnswer_wrap (v : Val) : IsAnswer (wrapConf v) v := by
  cases v <;> simp [IsAnswer, wrapConf, Val.Holds]

theorem isAnswer_unique {g : Got} {v : Val} (h : IsAnswer g v) : g = wrapConf v := by
  rcases h with ⟨hc, rfl⟩ | ⟨hc, rfl⟩ <;> cases v <;> simp_all [wrapConf, Val.Holds]

theorem listAt_item {xs : List Val} {n : Nat} {x : Val} (h : xs[n]? = some x) :
    (n : Int) < xs.length ∧ listAt xs n = .ok x := by
  have hl : n < xs.length := by
    rcases Nat.lt_or_ge n xs.length with h' | h'
    · exact h'
    · rw [List.getElem?_eq_none h'] at h; cases h
  refine ⟨by omega, ?_⟩
  unfold listAt
  rw [if_neg (by omega)]
  simp [itemAt, h]

theorem listAt_back {xs : List Val} {m : Nat} {x : Val} (h : xs.reverse[m]? = some x) :
    (-(m + 1 : Nat) : Int) < xs.length ∧ listAt xs (-(m + 1 : Nat)) = .ok x := by
  have hl : m < xs.length := by
    rcases Nat.lt_or_ge m xs.length with h' | h'
    · exact h'
    · rw [List.getElem?_eq_none (by simpa using h')] at h; cases h
  refine ⟨by omega, ?_⟩
  unfold listAt
  rw [if_pos (by omega), if_neg (by omega)]
  rw [List.getElem?_reverse hl] at h
  have e : xs.length - (-(m + 1 : Nat) : Int).natAbs = xs.length - 1 - m := by omega
  rw [e, itemAt, h]

theorem listAt_cases (xs : List Val) (n : Int) (h : n < xs.length) :
    (∃ k : Nat, n = k ∧ ∃ x, xs[k]? = some x ∧ listAt xs n = .ok x) ∨
    (∃ m : Nat, n = -(m + 1 : Nat) ∧ ∃ x, xs.reverse[m]? = some x ∧ listAt xs n = .ok x) ∨
    (n < -(xs.length : Int) ∧ listAt xs n = .error .indexError) := by
  by_cases hn : n < 0
  · by_cases hl : xs.length < n.natAbs
    · refine .inr (.inr ⟨by omega, ?_⟩)
      unfold listAt
      rw [if_pos hn, if_pos hl]
    · refine .inr (.inl ⟨n.natAbs - 1, by omega, ?_⟩)
      have hm : n.natAbs - 1 < xs.reverse.length := by simp; omega
      refine ⟨xs.reverse[n.natAbs - 1], List.getElem?_eq_getElem hm, ?_⟩
      have hb := (listAt_back (List.getElem?_eq_getElem hm)).2
      have e : n = -((n.natAbs - 1) + 1 : Nat) := by omega
      exact (congrArg (listAt xs) e).trans hb
  · refine .inl ⟨n.toNat, by omega, ?_⟩
    have hm : n.toNat < xs.length := by omega
    refine ⟨xs[n.toNat], List.getElem?_eq_getElem hm, ?_⟩
    have hb := (listAt_item (List.getElem?_eq_getElem hm)).2
    have e : n = (n.toNat : Int) := by omega
    exact (congrArg (listAt xs) e).trans hb

theorem confGetParts_cons {cur : String} {rest : List String} {v x : Val} (hv : v ≠ .none)
    (h : confStep cur v = .ok (some x)) :
    confGetParts (cur :: rest) v = if rest = [] then .ok (wrapConf x) else confGetParts rest x := by
  have hn : v.isNone = false := by cases v <;> simp_all [Val.isNone]
  rw [confGetParts]
  simp only [hn, h]
  cases rest <;> simp

theorem confGetParts_step {v c x : Val} {k : Key} {q : List Key} (hc : c ≠ .none) (hs : confStep k.str c = .ok (some x))
    (hq : Leads x q v) (ih : q ≠ [] → confGetParts (q.map Key.str) x = .ok (wrapConf v)) :
    confGetParts ((k :: q).map Key.str) c = .ok (wrapConf v) := by
  rw [List.map_cons, confGetParts_cons hc hs]
  cases q with
  | nil => cases hq; simp
  | cons k' q' => simpa using ih (by simp)

/-- **C60.** What is at a path is found there. -/
theorem get_found {conf v : Val} {p : List Key} (h : Leads conf p v) (hp : p ≠ []) :
    ∃ g, confGetParts (p.map Key.str) conf = .ok g ∧ IsAnswer g v := by
  refine ⟨wrapConf v, ?_, isAnswer_wrap v⟩
  induction h with
  | here => exact absurd rfl hp
  | key hx hl ih =>
    refine confGetParts_step (by simp) ?_ hl ih
    simp [confStep, Key.str, hx]
  | item hx hl ih =>
    obtain ⟨h1, h2⟩ := listAt_item hx
    refine confGetParts_step (by simp) ?_ hl ih
    simp only [confStep, keyInt_str, if_pos h1, h2]
    rfl
  | back hx hl ih =>
    obtain ⟨h1, h2⟩ := listAt_back hx
    refine confGetParts_step (by simp) ?_ hl ih
    simp only [confStep, keyInt_str, if_pos h1, h2]
    rfl

/-- What one step does. -/
theorem confStep_cases (cur : String) (v : Val) :
    (confStep cur v = .ok none) ∨ (confStep cur v = .ok (some .none)) ∨
    (∃ k x, ReadsAs cur k ∧ confStep cur v = .ok (some x) ∧ ∀ p u, Leads x p u → Leads v (k :: p) u) ∨
    (∃ xs e, v = .list xs ∧ confStep cur v = .error e ∧
      ((keyInt cur = none ∧ e = .valueError) ∨ ∃ n, keyInt cur = some n ∧ n < -(xs.length : Int) ∧ e = .indexError)) := by
  cases v with
  | list xs =>
    simp only [confStep]
    cases hk : keyInt cur with
    | none => exact .inr (.inr (.inr ⟨xs, _, rfl, rfl, .inl ⟨rfl, rfl⟩⟩))
    | some n =>
      by_cases hn : n < xs.length
      · simp only [if_pos hn]
        rcases listAt_cases xs n hn with ⟨k, rfl, x, hx, h⟩ | ⟨m, rfl, x, hx, h⟩ | ⟨hlt, h⟩
        · exact .inr (.inr (.inl ⟨.i k, x, .inr ⟨_, hk, rfl⟩, by rw [h]; rfl, fun p u hl => .item hx hl⟩))
        · exact .inr (.inr (.inl ⟨.i _, x, .inr ⟨_, hk, rfl⟩, by rw [h]; rfl, fun p u hl => .back hx hl⟩))
        · exact .inr (.inr (.inr ⟨xs, _, rfl, by rw [h]; rfl, .inr ⟨n, rfl, hlt, rfl⟩⟩))
      · exact .inr (.inl (by simp only [if_neg hn]))
  | dict kvs =>
    simp only [confStep]
    cases hk : dictGet kvs cur with
    | none => exact .inr (.inl rfl)
    | some x => exact .inr (.inr (.inl ⟨.s cur, x, .inl rfl, rfl, fun p u hl => .key hk hl⟩))
  | _ => exact .inl rfl

theorem confGetParts_none (ps : List String) : confGetParts ps .none = .ok (.plain .none) := by
  cases ps <;> rfl

/-- **C60.** A lookup gives nothing but what is at a path written that way, or None. -/
theorem get_only : ∀ (ps : List String) (conf : Val) (g : Got), confGetParts ps conf = .ok g →
    g = .plain .none ∨ ∃ p v, List.Forall₂ ReadsAs ps p ∧ Leads conf p v ∧ IsAnswer g v
  | [], conf, g, h => by
    rw [confGetParts] at h
    split at h
    · injection h with h; exact .inl h.symm
    · cases h
  | cur :: rest, conf, g, h => by
    by_cases hv : conf = .none
    · subst hv; rw [confGetParts_none] at h; injection h with h; exact .inl h.symm
    have hn : conf.isNone = false := by cases conf <;> simp_all [Val.isNone]
    rcases confStep_cases cur conf with hs | hs | ⟨k, x, hk, hs, hl⟩ | ⟨xs, e, -, hs, -⟩
    · rw [confGetParts] at h
      simp only [hn, hs] at h
      injection h with h; exact .inl h.symm
    · rw [confGetParts_cons hv hs] at h
      split at h
      · injection h with h; exact .inl h.symm
      · rw [confGetParts_none] at h; injection h with h; exact .inl h.symm
    · rw [confGetParts_cons hv hs] at h
      split at h
      · rename_i hr
        subst hr
        injection h with h
        exact .inr ⟨[k], x, .cons hk .nil, hl _ _ .here, h ▸ isAnswer_wrap x⟩
      · rcases get_only rest x g h with h' | ⟨p, v, hf, hlv, ha⟩
        · exact .inl h'
        · exact .inr ⟨k :: p, v, .cons hk hf, hl _ _ hlv, ha⟩
    · rw [confGetParts] at h
      simp only [hn, hs] at h
      cases h

/-- **C60.** A lookup raises only if the path is empty, or if it reaches a list with a part that
is not a number, or a negative number beyond the start. -/
theorem get_raises_only : ∀ (ps : List String) (conf : Val) (e : Exc), confGetParts ps conf = .error e →
    ps = [] ∨ ∃ q s r p xs, ps = q ++ s :: r ∧ List.Forall₂ ReadsAs q p ∧ Leads conf p (.list xs) ∧
      ((keyInt s = none ∧ e = .valueError) ∨ ∃ n, keyInt s = some n ∧ n < -(xs.length : Int) ∧ e = .indexError)
  | [], _, _, _ => .inl rfl
  | cur :: rest, conf, e, h => by
    right
    by_cases hv : conf = .none
    · subst hv; rw [confGetParts_none] at h; cases h
    have hn : conf.isNone = false := by cases conf <;> simp_all [Val.isNone]
    rcases confStep_cases cur conf with hs | hs | ⟨k, x, hk, hs, hl⟩ | ⟨xs, e', rfl, hs, he⟩
    · rw [confGetParts] at h
      simp only [hn, hs] at h
      cases h
    · rw [confGetParts_cons hv hs] at h
      split at h
      · cases h
      · rw [confGetParts_none] at h; cases h
    · rw [confGetParts_cons hv hs] at h
      split at h
      · cases h
      · rename_i hr
        rcases get_raises_only rest x e h with h' | ⟨q, s, r, p, xs, rfl, hf, hlv, he⟩
        · exact absurd h' hr
        · exact ⟨cur :: q, s, r, k :: p, xs, rfl, .cons hk hf, hl _ _ hlv, he⟩
    · rw [confGetParts] at h
      simp only [hn, hs] at h
      injection h with h
      subst h
      exact ⟨[], cur, rest, [], xs, rfl, .nil, .here, he⟩

/-- **C60.** The same for key paths written with dots; C01 says that brackets mean the same. -/
theorem get_text {conf v : Val} {p : List Key} (h : Leads conf p v) (hp : p ≠ []) (hc : ∀ k ∈ p, Component k.str) :
    ∃ g, confGet conf (concatKeypath p) = .ok g ∧ IsAnswer g v := by
  unfold confGet
  rw [keypathSplit_concatKeypath p hc]
  exact get_found h hp

theorem splitP_mid (sep : Char → Bool) (c : Char) (hc : sep c = true) (b : List Char) : ∀ a : List Char,
    splitP sep (a ++ c :: b) = splitP sep a ++ splitP sep b
  | [] => by simp [splitP, hc]
  | x :: a => by
    rw [List.cons_append, splitP, splitP, splitP_mid sep c hc b a]
    split
    · rfl
    · cases h : splitP sep a with
      | nil => 
        exfalso
        cases a with
        | nil => simp [splitP] at h
        | cons y a =>
          rw [splitP] at h
          split at h
          · cases h
          · split at h <;> cases h
      | cons w ws => rfl

theorem keypathSplit_dot (a b : String) : keypathSplit (a ++ "." ++ b) = keypathSplit a ++ keypathSplit b := by
  unfold keypathSplit
  have : (a ++ "." ++ b).toList = a.toList ++ '.' :: b.toList := by simp [String.toList_append]
  rw [this, splitP_mid isSep '.' rfl]
  simp

theorem confGetParts_append : ∀ (ps qs : List String) (conf c : Val), qs ≠ [] → confGetParts ps conf = .ok (.conf c) →
    confGetParts (ps ++ qs) conf = confGetParts qs c
  | [], qs, conf, c, _, h => by
    rw [confGetParts] at h
    split at h <;> cases h
  | cur :: rest, qs, conf, c, hq, h => by
    by_cases hv : conf = .none
    · subst hv; rw [confGetParts_none] at h; cases h
    have hn : conf.isNone = false := by cases conf <;> simp_all [Val.isNone]
    cases hs : confStep cur conf with
    | error e => rw [confGetParts] at h; simp only [hn, hs] at h; cases h
    | ok o =>
      cases o with
      | none => rw [confGetParts] at h; simp only [hn, hs] at h; cases h
      | some x =>
        rw [List.cons_append, confGetParts_cons hv hs]
        rw [confGetParts_cons hv hs] at h
        rw [if_neg (by simp [hq])]
        split at h
        · rename_i hr
          subst hr
          have : x = c := by
            cases x <;> simp [wrapConf] at h <;> exact h
          rw [this]; rfl
        · exact confGetParts_append rest qs x c hq h

/-- **C60.** Looking up step by step is looking up at once. -/
theorem get_compose {conf c : Val} {a b : String} (h : confGet conf a = .ok (.conf c)) (hb : keypathSplit b ≠ []) :
    confGet conf (a ++ "." ++ b) = confGet c b := by
  unfold confGet at *
  rw [keypathSplit_dot]
  exact confGetParts_append _ _ _ _ hb h

/-! ### Environment references -/

theorem isQuote_iff (c : Char) : isQuote c = true ↔ c = '\'' ∨ c = '"' := by
  simp [isQuote]

theorem envTail_iff (r n : List Char) : envTail r = some n ↔
    ∃ q' nl, (q' = '\'' ∨ q' = '"') ∧ (nl = [] ∨ nl = ['\n']) ∧ n ≠ [] ∧ '\n' ∉ n ∧ r = n ++ [q', ']'] ++ nl := by
  constructor
  · intro h
    unfold envTail at h
    split at h
    · rename_i q m hr
      split at h
      · rename_i hc
        injection h with h
        simp only [Bool.and_eq_true, isQuote_iff, Bool.not_eq_true'] at hc
        obtain ⟨⟨hq, hne⟩, hnl⟩ := hc
        have hm : m = n.reverse := by rw [← h]; simp
        subst hm
        have hr' := congrArg List.reverse hr
        rw [List.reverse_reverse] at hr'
        have hbase : n ≠ [] ∧ '\n' ∉ n := by
          constructor
          · rintro rfl; simp at hne
          · simpa using hnl
        by_cases hl : r.getLast? = some '\n'
        · rw [if_pos hl] at hr'
          refine ⟨q, ['\n'], hq, .inr rfl, hbase.1, hbase.2, ?_⟩
          have hd := List.dropLast_append_getLast? '\n' (by simpa using hl)
          rw [← hd, hr']
          simp
        · rw [if_neg hl] at hr'
          refine ⟨q, [], hq, .inl rfl, hbase.1, hbase.2, ?_⟩
          rw [hr']; simp
      · cases h
    · cases h
  · rintro ⟨q', nl, hq, hnl, hne, hn, rfl⟩
    have hdrop : (if (n ++ [q', ']'] ++ nl).getLast? = some '\n' then (n ++ [q', ']'] ++ nl).dropLast else n ++ [q', ']'] ++ nl) =
        n ++ [q', ']'] := by
      rcases hnl with rfl | rfl
      · rw [List.append_nil, if_neg]
        simp [List.getLast?_append]
      · rw [if_pos (by simp [List.getLast?_append])]
        exact List.dropLast_concat
    unfold envTail
    rw [hdrop]
    have hrev : (n ++ [q', ']']).reverse = ']' :: q' :: n.reverse := by simp
    rw [hrev]
    simp only
    rw [if_pos]
    · simp
    · simp only [Bool.and_eq_true, isQuote_iff, Bool.not_eq_true']
      refine ⟨⟨hq, ?_⟩, ?_⟩
      · simpa using hne
      · simpa using hn

/-- The regular expression finds exactly the references. -/
theorem envName_iff (s n : String) : envName s = some n ↔ EnvForm s n := by
  unfold envName EnvForm
  constructor
  · intro h
    split at h
    · rename_i q r hs
      split at h
      · rename_i hq
        cases ht : envTail r with
        | none => rw [ht] at h; cases h
        | some m =>
          rw [ht] at h
          simp only [Option.map_some, Option.some.injEq] at h
          obtain ⟨q', nl, h1, h2, h3, h4, rfl⟩ := (envTail_iff r m).1 ht
          have hm : n.toList = m := by rw [← h]; simp
          refine ⟨q, q', nl, (isQuote_iff q).1 hq, h1, h2, hm ▸ h3, hm ▸ h4, ?_⟩
          rw [hs, hm]; simp
      · cases h
    · cases h
  · rintro ⟨q, q', nl, h0, h1, h2, h3, h4, hs⟩
    have hs' : s.toList = 'e' :: 'n' :: 'v' :: 'i' :: 'r' :: 'o' :: 'n' :: '[' :: q :: (n.toList ++ [q', ']'] ++ nl) := by
      rw [hs]; simp
    rw [hs']
    simp only
    rw [if_pos ((isQuote_iff q).2 h0), (envTail_iff _ n.toList).2 ⟨q', nl, h1, h2, h3, h4, rfl⟩]
    simp

/-- A name is found in at most one way. -/
theorem envForm_unique {s n m : String} (h : EnvForm s n) (h' : EnvForm s m) : n = m := by
  have h1 := (envName_iff s n).2 h
  have h2 := (envName_iff s m).2 h'
  rw [h1] at h2
  injection h2

theorem replaceStr_iff (environ : String → Option String) (s : String) (v : Val) :
    ((replaceStr environ s).map Val.str = .ok v ↔ Becomes environ (.str s) v) ∧
    (∀ e, replaceStr environ s = .error e ↔ e = .keyError ∧ ∃ n, EnvForm s n ∧ environ n = none) := by
  cases hn : envName s with
  | none =>
    have hR : replaceStr environ s = .ok s := by simp [replaceStr, hn]
    rw [hR]
    have hno : ∀ n, ¬ EnvForm s n := fun n h => by rw [(envName_iff s n).2 h] at hn; cases hn
    constructor
    · constructor
      · intro h
        refine .inr ⟨fun s' n hs => ?_, ?_⟩
        · injection hs with hs; exact hs ▸ hno n
        · injection h with h; exact h.symm
      · rintro (⟨s', n, x, hs, hf, -, -⟩ | ⟨-, rfl⟩)
        · injection hs with hs; exact absurd (hs ▸ hf) (hno n)
        · rfl
    · intro e
      constructor
      · intro h; cases h
      · rintro ⟨-, n, hf, -⟩; exact absurd hf (hno n)
  | some n =>
    have hf := (envName_iff s n).1 hn
    cases hv : environ n with
    | none =>
      have hR : replaceStr environ s = .error .keyError := by simp [replaceStr, hn, hv]
      rw [hR]
      constructor
      · constructor
        · intro h; cases h
        · rintro (⟨s', m, x, hs, hf', hx, -⟩ | ⟨h, -⟩)
          · injection hs with hs
            subst hs
            rw [envForm_unique hf' hf, hv] at hx; cases hx
          · exact absurd hf (h s n rfl)
      · intro e
        constructor
        · intro h; injection h with h; exact ⟨h.symm, n, hf, hv⟩
        · rintro ⟨rfl, -⟩; rfl
    | some x =>
      have hR : replaceStr environ s = .ok x := by simp [replaceStr, hn, hv]
      rw [hR]
      constructor
      · constructor
        · intro h
          injection h with h
          exact .inl ⟨s, n, x, rfl, hf, hv, h.symm⟩
        · rintro (⟨s', m, y, hs, hf', hy, rfl⟩ | ⟨h, -⟩)
          · injection hs with hs
            subst hs
            rw [envForm_unique hf' hf, hv] at hy
            injection hy with hy
            rw [hy]; rfl
          · exact absurd hf (h s n rfl)
      · intro e
        constructor
        · intro h; cases h
        · rintro ⟨-, m, hf', hm⟩
          rw [envForm_unique hf' hf, hv] at hm; cases hm

/-! ### Loading -/

theorem Sane.dict {under : String → String} {kvs : List (String × Val)} (h : Sane under (.dict kvs)) :
    (kvs.map (fun kv => under kv.1)).Nodup := h [] kvs .here

theorem Sane.distinct {under : String → String} {kvs : List (String × Val)} (h : Sane under (.dict kvs)) : DistinctKeys kvs := by
  have h' := h.dict
  unfold DistinctKeys
  have e : kvs.map (fun kv => under kv.1) = (kvs.map Prod.fst).map under := by simp
  rw [e] at h'
  exact List.Nodup.of_map _ h'

theorem Leads.append {v u t : Val} {p q : List Key} (h : Leads v p u) (h' : Leads u q t) : Leads v (p ++ q) t := by
  induction h with
  | here => exact h'
  | key hx _ ih => exact .key hx (ih h')
  | item hx _ ih => exact .item hx (ih h')
  | back hx _ ih => exact .back hx (ih h')

theorem Sane.weaken {under : String → String} {v : Val} (h : Sane under v) : Sane id v := by
  intro p kvs hl
  have : Sane under (.dict kvs) := fun q kvs' hl' => h (p ++ q) kvs' (hl.append hl')
  exact this.distinct

theorem Sane.key {under : String → String} {kvs : List (String × Val)} {k : String} {x : Val} (h : Sane under (.dict kvs))
    (hx : dictGet kvs k = some x) : Sane under x := fun p kvs' hl => h (.s k :: p) kvs' (.key hx hl)

theorem Sane.item {under : String → String} {xs : List Val} {n : Nat} {x : Val} (h : Sane under (.list xs))
    (hx : xs[n]? = some x) : Sane under x := fun p kvs' hl => h (.i n :: p) kvs' (.item hx hl)

theorem Sane.back {under : String → String} {xs : List Val} {n : Nat} {x : Val} (h : Sane under (.list xs))
    (hx : xs.reverse[n]? = some x) : Sane under x := fun p kvs' hl => h (_ :: p) kvs' (.back hx hl)

theorem dictUpdate_nil {α : Type} {l : List (String × α)} (h : (l.map Prod.fst).Nodup) : dictUpdate [] l = l := by
  unfold dictUpdate
  rw [foldl_dictSet_nodup' l [] (by simpa using h)]
  rfl

/-! #### replacing -/

theorem replaceKvs_keys {environ : String → Option String} : ∀ {kvs r : List (String × Val)}, replaceKvs environ kvs = .ok r →
    List.Forall₂ (fun a b => a.1 = b.1 ∧ replaceVal environ a.2 = .ok b.2) kvs r
  | [], r, h => by rw [replaceKvs] at h; injection h with h; subst h; exact .nil
  | (k, v) :: kvs, r, h => by
    rw [replaceKvs] at h
    split at h
    · cases h
    · rename_i v' hv
      cases hr : replaceKvs environ kvs with
      | error e => rw [hr] at h; cases h
      | ok r' =>
        rw [hr] at h
        injection h with h
        subst h
        exact .cons ⟨rfl, hv⟩ (replaceKvs_keys hr)

theorem replaceList_items {environ : String → Option String} : ∀ {xs r : List Val}, replaceList environ xs = .ok r →
    List.Forall₂ (fun a b => replaceVal environ a = .ok b) xs r
  | [], r, h => by rw [replaceList] at h; injection h with h; subst h; exact .nil
  | v :: xs, r, h => by
    rw [replaceList] at h
    split at h
    · cases h
    · rename_i v' hv
      cases hr : replaceList environ xs with
      | error e => rw [hr] at h; cases h
      | ok r' =>
        rw [hr] at h
        injection h with h
        subst h
        exact .cons hv (replaceList_items hr)

theorem forall2_keys {R : Val → Val → Prop} {f : String → String} {a b : List (String × Val)}
    (h : List.Forall₂ (fun x y => f x.1 = y.1 ∧ R x.2 y.2) a b) : b.map Prod.fst = a.map (fun kv => f kv.1) := by
  induction h with
  | nil => rfl
  | cons hx _ ih => simp [ih, hx.1]

theorem forall2_get {R : Val → Val → Prop} {f : String → String} {a b : List (String × Val)}
    (h : List.Forall₂ (fun x y => f x.1 = y.1 ∧ R x.2 y.2) a b) (hn : (a.map (fun kv => f kv.1)).Nodup) {k : String} {x : Val}
    (hx : dictGet a k = some x) : ∃ y, dictGet b (f k) = some y ∧ R x y := by
  induction h with
  | nil => simp [dictGet] at hx
  | @cons u v as bs huv _ ih =>
    have hn' := List.nodup_cons.1 hn
    by_cases hk : u.1 = k
    · have : u.2 = x := by simpa [dictGet, hk] using hx
      refine ⟨v.2, ?_, this ▸ huv.2⟩
      have : v.1 = f k := by rw [← huv.1, hk]
      simp [dictGet, this]
    · have hx' : dictGet as k = some x := by simpa [dictGet, hk] using hx
      obtain ⟨y, hy, hr⟩ := ih hn'.2 hx'
      refine ⟨y, ?_, hr⟩
      have hne : v.1 ≠ f k := by
        intro he
        have hkk : ∃ kv ∈ as, kv.1 = k := by
          unfold dictGet at hx'
          cases hf : as.find? (fun kv => kv.1 = k) with
          | none => rw [hf] at hx'; cases hx'
          | some kv => exact ⟨kv, List.mem_of_find?_eq_some hf, by simpa using List.find?_some hf⟩
        obtain ⟨kv', hm, he'⟩ := hkk
        exact hn'.1 (List.mem_map.2 ⟨kv', hm, by simp only [he', huv.1, he]⟩)
      simpa [dictGet, hne] using hy

theorem forall2_get_inv {R : Val → Val → Prop} {f : String → String} {a b : List (String × Val)}
    (h : List.Forall₂ (fun x y => f x.1 = y.1 ∧ R x.2 y.2) a b) (hd : (a.map Prod.fst).Nodup) {k' : String} {y : Val}
    (hy : dictGet b k' = some y) : ∃ k x, f k = k' ∧ dictGet a k = some x ∧ R x y := by
  induction h with
  | nil => simp [dictGet] at hy
  | @cons u v as bs huv _ ih =>
    have hd' := List.nodup_cons.1 hd
    by_cases hk : v.1 = k'
    · have : v.2 = y := by simpa [dictGet, hk] using hy
      exact ⟨u.1, u.2, huv.1.trans hk, by simp [dictGet], this ▸ huv.2⟩
    · have hy' : dictGet bs k' = some y := by simpa [dictGet, hk] using hy
      obtain ⟨k, x, h1, h2, h3⟩ := ih hd'.2 hy'
      refine ⟨k, x, h1, ?_, h3⟩
      have hne : u.1 ≠ k := by
        rintro rfl
        exact hk (huv.1.symm.trans h1)
      simpa [dictGet, hne] using h2

theorem forall2_item {R : Val → Val → Prop} {a b : List Val} (h : List.Forall₂ R a b) : ∀ {n : Nat},
    (∀ {x}, a[n]? = some x → ∃ y, b[n]? = some y ∧ R x y) ∧ (∀ {y}, b[n]? = some y → ∃ x, a[n]? = some x ∧ R x y) := by
  induction h with
  | nil => intro n; simp
  | @cons u v as bs huv _ ih =>
    intro n
    cases n with
    | zero => simp [huv]
    | succ n => simpa using @ih n

theorem replace_leads {environ : String → Option String} {v u : Val} {p : List Key} (h : Leads v p u) : Sane id v → ∀ {v' : Val},
    replaceVal environ v = .ok v' → ∃ u', Leads v' p u' ∧ replaceVal environ u = .ok u' := by
  induction h with
  | here => intro _ v' hv; exact ⟨v', .here, hv⟩
  | @key kvs k x p u hx hl ih =>
    intro hs v' hv
    rw [replaceVal] at hv
    cases hr : replaceKvs environ kvs with
    | error e => rw [hr] at hv; cases hv
    | ok r =>
      rw [hr] at hv
      injection hv with hv
      have hf := replaceKvs_keys hr
      have hnd : (r.map Prod.fst).Nodup := by
        rw [forall2_keys (f := id) (R := fun a b => replaceVal environ a = .ok b) hf]; exact hs.dict
      simp only [dictUpdate_nil hnd] at hv
      subst hv
      obtain ⟨y, hy, hxy⟩ := forall2_get (f := id) (R := fun a b => replaceVal environ a = .ok b) hf hs.dict hx
      obtain ⟨u', h1, h2⟩ := ih (hs.key hx) hxy
      exact ⟨u', .key hy h1, h2⟩
  | @item xs p u n x hx hl ih =>
    intro hs v' hv
    rw [replaceVal] at hv
    cases hr : replaceList environ xs with
    | error e => rw [hr] at hv; cases hv
    | ok r =>
      rw [hr] at hv
      injection hv with hv
      subst hv
      obtain ⟨y, hy, hxy⟩ := (forall2_item (replaceList_items hr)).1 hx
      obtain ⟨u', h1, h2⟩ := ih (hs.item hx) hxy
      exact ⟨u', .item hy h1, h2⟩
  | @back xs p u n x hx hl ih =>
    intro hs v' hv
    rw [replaceVal] at hv
    cases hr : replaceList environ xs with
    | error e => rw [hr] at hv; cases hv
    | ok r =>
      rw [hr] at hv
      injection hv with hv
      subst hv
      obtain ⟨y, hy, hxy⟩ := (forall2_item (List.rel_reverse (replaceList_items hr))).1 hx
      obtain ⟨u', h1, h2⟩ := ih (hs.back hx) hxy
      exact ⟨u', .back hy h1, h2⟩

/-- a value from which a step leads somewhere is a dict or a list -/
theorem replace_dict_inv {environ : String → Option String} {v : Val} {kvs' : List (String × Val)}
    (h : replaceVal environ v = .ok (.dict kvs')) : ∃ kvs r, v = .dict kvs ∧ replaceKvs environ kvs = .ok r ∧ kvs' = dictUpdate [] r := by
  cases v with
  | dict kvs =>
    rw [replaceVal] at h
    cases hr : replaceKvs environ kvs with
    | error e => rw [hr] at h; cases h
    | ok r => rw [hr] at h; injection h with h; injection h with h; exact ⟨kvs, r, rfl, hr, h.symm⟩
  | list xs => rw [replaceVal] at h; cases hr : replaceList environ xs <;> rw [hr] at h <;> cases h
  | str s => rw [replaceVal] at h; cases hr : replaceStr environ s <;> rw [hr] at h <;> cases h
  | _ => simp only [replaceVal] at h; cases h

theorem replace_list_inv {environ : String → Option String} {v : Val} {xs' : List Val}
    (h : replaceVal environ v = .ok (.list xs')) : ∃ xs, v = .list xs ∧ replaceList environ xs = .ok xs' := by
  cases v with
  | dict kvs => rw [replaceVal] at h; cases hr : replaceKvs environ kvs <;> rw [hr] at h <;> cases h
  | list xs =>
    rw [replaceVal] at h
    cases hr : replaceList environ xs with
    | error e => rw [hr] at h; cases h
    | ok r => rw [hr] at h; injection h with h; injection h with h; exact ⟨xs, rfl, by rw [hr, h]⟩
  | str s => rw [replaceVal] at h; cases hr : replaceStr environ s <;> rw [hr] at h <;> cases h
  | _ => simp only [replaceVal] at h; cases h

theorem replace_leads_inv {environ : String → Option String} {v' u' : Val} {p : List Key} (h : Leads v' p u') : ∀ {v : Val}, Sane id v →
    replaceVal environ v = .ok v' → ∃ u, Leads v p u ∧ replaceVal environ u = .ok u' := by
  induction h with
  | here => intro v _ hv; exact ⟨v, .here, hv⟩
  | @key kvs' k y p u' hy hl ih =>
    intro v hs hv
    obtain ⟨kvs, r, rfl, hr, rfl⟩ := replace_dict_inv hv
    have hf := replaceKvs_keys hr
    have hnd : (r.map Prod.fst).Nodup := by
      rw [forall2_keys (f := id) (R := fun a b => replaceVal environ a = .ok b) hf]; exact hs.dict
    rw [dictUpdate_nil hnd] at hy
    obtain ⟨k', x, rfl, hx, hxy⟩ := forall2_get_inv (f := id) (R := fun a b => replaceVal environ a = .ok b) hf hs.distinct hy
    obtain ⟨u, h1, h2⟩ := ih (hs.key hx) hxy
    exact ⟨u, .key hx h1, h2⟩
  | @item xs' p u' n y hy hl ih =>
    intro v hs hv
    obtain ⟨xs, rfl, hr⟩ := replace_list_inv hv
    obtain ⟨x, hx, hxy⟩ := (forall2_item (replaceList_items hr)).2 hy
    obtain ⟨u, h1, h2⟩ := ih (hs.item hx) hxy
    exact ⟨u, .item hx h1, h2⟩
  | @back xs' p u' n y hy hl ih =>
    intro v hs hv
    obtain ⟨xs, rfl, hr⟩ := replace_list_inv hv
    obtain ⟨x, hx, hxy⟩ := (forall2_item (List.rel_reverse (replaceList_items hr))).2 hy
    obtain ⟨u, h1, h2⟩ := ih (hs.back hx) hxy
    exact ⟨u, .back hx h1, h2⟩

/-- replacing keeps the names -/
theorem Sane.replace {environ : String → Option String} {under : String → String} {v v' : Val} (h : Sane under v)
    (hv : replaceVal environ v = .ok v') : Sane under v' := by
  intro p kvs' hl
  obtain ⟨u, hu, hru⟩ := replace_leads_inv hl h.weaken hv
  obtain ⟨kvs, r, rfl, hr, rfl⟩ := replace_dict_inv hru
  have hf := replaceKvs_keys hr
  have hk := forall2_keys (f := id) (R := fun a b => replaceVal environ a = .ok b) hf
  have hnd : (r.map Prod.fst).Nodup := by rw [hk]; exact h.weaken _ _ hu
  rw [dictUpdate_nil hnd]
  have e : r.map (fun kv => under kv.1) = (r.map Prod.fst).map under := by simp
  rw [e, hk, List.map_map]
  exact h _ _ hu

theorem replace_scalar {environ : String → Option String} {u u' : Val} (h : replaceVal environ u = .ok u') :
    (u.Holds ↔ u'.Holds) ∧ (¬ u.Holds → Becomes environ u u') := by
  cases u with
  | dict kvs =>
    rw [replaceVal] at h
    cases hr : replaceKvs environ kvs with
    | error e => rw [hr] at h; cases h
    | ok r => rw [hr] at h; injection h with h; subst h; simp [Val.Holds]
  | list xs =>
    rw [replaceVal] at h
    cases hr : replaceList environ xs with
    | error e => rw [hr] at h; cases h
    | ok r => rw [hr] at h; injection h with h; subst h; simp [Val.Holds]
  | str s =>
    rw [replaceVal] at h
    have hb := (replaceStr_iff environ s u').1.1 h
    refine ⟨?_, fun _ => hb⟩
    cases hr : replaceStr environ s with
    | error e => rw [hr] at h; cases h
    | ok r => rw [hr] at h; injection h with h; subst h; simp [Val.Holds]
  | _ =>
    simp only [replaceVal] at h
    injection h with h
    subst h
    exact ⟨Iff.rfl, fun _ => .inr ⟨fun _ _ hs => (by cases hs), rfl⟩⟩

mutual
theorem replaceVal_fails (environ : String → Option String) : ∀ (v : Val) (e : Exc), Sane id v → replaceVal environ v = .error e →
    e = .keyError ∧ ∃ p s n, Leads v p (.str s) ∧ EnvForm s n ∧ environ n = none
  | .str s, e, _, h => by
    rw [replaceVal] at h
    cases hr : replaceStr environ s with
    | ok r => rw [hr] at h; cases h
    | error e' =>
      rw [hr] at h
      injection h with h
      subst h
      obtain ⟨h1, n, h2, h3⟩ := ((replaceStr_iff environ s .none).2 _).1 hr
      exact ⟨h1, [], s, n, .here, h2, h3⟩
  | .dict kvs, e, hs, h => by
    rw [replaceVal] at h
    cases hr : replaceKvs environ kvs with
    | ok r => rw [hr] at h; cases h
    | error e' =>
      rw [hr] at h
      injection h with h
      subst h
      obtain ⟨h1, kv, hm, p, s, n, h2, h3, h4⟩ := replaceKvs_fails environ kvs _
        (fun kv hm => hs.key ((mem_iff_get hs.distinct kv.1 kv.2).1 hm)) hr
      exact ⟨h1, .s kv.1 :: p, s, n, .key ((mem_iff_get hs.distinct kv.1 kv.2).1 hm) h2, h3, h4⟩
  | .list xs, e, hs, h => by
    rw [replaceVal] at h
    cases hr : replaceList environ xs with
    | ok r => rw [hr] at h; cases h
    | error e' =>
      rw [hr] at h
      injection h with h
      subst h
      obtain ⟨h1, k, x, hm, p, s, n, h2, h3, h4⟩ := replaceList_fails environ xs _ (fun k x hx => hs.item hx) hr
      exact ⟨h1, .i k :: p, s, n, .item hm h2, h3, h4⟩
  | .none, _, _, h => by simp only [replaceVal] at h; cases h
  | .bool _, _, _, h => by simp only [replaceVal] at h; cases h
  | .int _, _, _, h => by simp only [replaceVal] at h; cases h
  | .flt _, _, _, h => by simp only [replaceVal] at h; cases h
  | .date _, _, _, h => by simp only [replaceVal] at h; cases h
  | .dt _, _, _, h => by simp only [replaceVal] at h; cases h
  | .enum _ _, _, _, h => by simp only [replaceVal] at h; cases h
  | .obj _, _, _, h => by simp only [replaceVal] at h; cases h
  | .other _, _, _, h => by simp only [replaceVal] at h; cases h
theorem replaceKvs_fails (environ : String → Option String) : ∀ (kvs : List (String × Val)) (e : Exc), (∀ kv ∈ kvs, Sane id kv.2) →
    replaceKvs environ kvs = .error e →
    e = .keyError ∧ ∃ kv ∈ kvs, ∃ p s n, Leads kv.2 p (.str s) ∧ EnvForm s n ∧ environ n = none
  | [], e, _, h => by rw [replaceKvs] at h; cases h
  | (k, v) :: kvs, e, hs, h => by
    rw [replaceKvs] at h
    cases hv : replaceVal environ v with
    | error e' =>
      rw [hv] at h
      injection h with h
      subst h
      obtain ⟨h1, h2⟩ := replaceVal_fails environ v _ (hs (k, v) (by simp)) hv
      exact ⟨h1, (k, v), by simp, h2⟩
    | ok v' =>
      rw [hv] at h
      simp only at h
      cases hr : replaceKvs environ kvs with
      | ok r => rw [hr] at h; cases h
      | error e' =>
        rw [hr] at h
        injection h with h
        subst h
        obtain ⟨h1, kv, hm, h2⟩ := replaceKvs_fails environ kvs _ (fun kv hm => hs kv (by simp [hm])) hr
        exact ⟨h1, kv, by simp [hm], h2⟩
theorem replaceList_fails (environ : String → Option String) : ∀ (xs : List Val) (e : Exc), (∀ (k : Nat) x, xs[k]? = some x → Sane id x) →
    replaceList environ xs = .error e →
    e = .keyError ∧ ∃ (k : Nat) (x : Val), xs[k]? = some x ∧ ∃ p s n, Leads x p (.str s) ∧ EnvForm s n ∧ environ n = none
  | [], e, _, h => by rw [replaceList] at h; cases h
  | v :: xs, e, hs, h => by
    rw [replaceList] at h
    cases hv : replaceVal environ v with
    | error e' =>
      rw [hv] at h
      injection h with h
      subst h
      obtain ⟨h1, h2⟩ := replaceVal_fails environ v _ (hs 0 v (by simp)) hv
      exact ⟨h1, 0, v, by simp, h2⟩
    | ok v' =>
      rw [hv] at h
      simp only at h
      cases hr : replaceList environ xs with
      | ok r => rw [hr] at h; cases h
      | error e' =>
        rw [hr] at h
        injection h with h
        subst h
        obtain ⟨h1, k, x, hm, h2⟩ := replaceList_fails environ xs _ (fun k x hx => hs (k + 1) x (by simpa using hx)) hr
        exact ⟨h1, k + 1, x, by simpa using hm, h2⟩
end

/-! #### names -/

theorem normKvs_rel (under : String → String) : ∀ kvs : List (String × Val),
    List.Forall₂ (fun a b => under a.1 = b.1 ∧ normVal under a.2 = b.2) kvs (normKvs under kvs)
  | [] => by rw [normKvs]; exact .nil
  | (k, v) :: r => by rw [normKvs]; exact .cons ⟨rfl, rfl⟩ (normKvs_rel under r)

theorem normList_rel (under : String → String) : ∀ xs : List Val,
    List.Forall₂ (fun a b => normVal under a = b) xs (normList under xs)
  | [] => by rw [normList]; exact .nil
  | v :: r => by rw [normList]; exact .cons rfl (normList_rel under r)

theorem normVal_dict {under : String → String} {kvs : List (String × Val)} (h : (kvs.map (fun kv => under kv.1)).Nodup) :
    normVal under (.dict kvs) = .dict (normKvs under kvs) := by
  rw [normVal, dictUpdate_nil]
  rw [forall2_keys (f := under) (R := fun a b => normVal under a = b) (normKvs_rel under kvs)]
  exact h

theorem norm_leads {under : String → String} {v u : Val} {p : List Key} (h : Leads v p u) : Sane under v →
    Leads (normVal under v) (p.map (normKey under)) (normVal under u) := by
  induction h with
  | here => intro _; exact .here
  | @key kvs k x p u hx hl ih =>
    intro hs
    obtain ⟨y, hy, hxy⟩ := forall2_get (f := under) (R := fun a b => normVal under a = b) (normKvs_rel under kvs) hs.dict hx
    subst hxy
    rw [normVal_dict hs.dict]
    exact .key hy (ih (hs.key hx))
  | @item xs p u n x hx hl ih =>
    intro hs
    obtain ⟨y, hy, hxy⟩ := (forall2_item (normList_rel under xs)).1 hx
    subst hxy
    rw [normVal]
    exact .item hy (ih (hs.item hx))
  | @back xs p u n x hx hl ih =>
    intro hs
    obtain ⟨y, hy, hxy⟩ := (forall2_item (List.rel_reverse (normList_rel under xs))).1 hx
    subst hxy
    rw [normVal]
    exact .back hy (ih (hs.back hx))

theorem norm_leads_inv {under : String → String} {v' u' : Val} {q : List Key} (h : Leads v' q u') : ∀ {v : Val}, Sane under v →
    normVal under v = v' → ∃ p u, q = p.map (normKey under) ∧ Leads v p u ∧ u' = normVal under u := by
  induction h with
  | here => intro v _ hv; exact ⟨[], v, rfl, .here, hv.symm⟩
  | @key kvs' k y p u' hy hl ih =>
    intro v hs hv
    cases v with
    | dict kvs =>
      rw [normVal_dict hs.dict] at hv
      injection hv with hv
      subst hv
      obtain ⟨k', x, rfl, hx, hxy⟩ := forall2_get_inv (f := under) (R := fun a b => normVal under a = b) (normKvs_rel under kvs)
        hs.distinct hy
      obtain ⟨p', u, rfl, h1, h2⟩ := ih (hs.key hx) hxy
      exact ⟨.s k' :: p', u, rfl, .key hx h1, h2⟩
    | list xs => rw [normVal] at hv; cases hv
    | _ => simp only [normVal] at hv; cases hv
  | @item xs' p u' n y hy hl ih =>
    intro v hs hv
    cases v with
    | list xs =>
      rw [normVal] at hv
      injection hv with hv
      subst hv
      obtain ⟨x, hx, hxy⟩ := (forall2_item (normList_rel under xs)).2 hy
      obtain ⟨p', u, rfl, h1, h2⟩ := ih (hs.item hx) hxy
      exact ⟨.i n :: p', u, rfl, .item hx h1, h2⟩
    | dict kvs => rw [normVal] at hv; cases hv
    | _ => simp only [normVal] at hv; cases hv
  | @back xs' p u' n y hy hl ih =>
    intro v hs hv
    cases v with
    | list xs =>
      rw [normVal] at hv
      injection hv with hv
      subst hv
      obtain ⟨x, hx, hxy⟩ := (forall2_item (List.rel_reverse (normList_rel under xs))).2 hy
      obtain ⟨p', u, rfl, h1, h2⟩ := ih (hs.back hx) hxy
      exact ⟨.i _ :: p', u, rfl, .back hx h1, h2⟩
    | dict kvs => rw [normVal] at hv; cases hv
    | _ => simp only [normVal] at hv; cases hv

theorem normVal_scalar (under : String → String) (v : Val) : ((normVal under v).Holds ↔ v.Holds) ∧ (¬ v.Holds → normVal under v = v) := by
  cases v with
  | dict kvs => rw [normVal]; simp [Val.Holds]
  | list xs => rw [normVal]; simp [Val.Holds]
  | _ => simp [normVal]

/-! #### the file -/

theorem loadConf_ok {under : String → String} {environ : String → Option String} {conf conf' : Val}
    (h : loadConf under environ (some conf) = .ok conf') :
    ∃ kvs r, conf = .dict kvs ∧ replaceVal environ conf = .ok r ∧ conf' = normVal under r := by
  cases conf with
  | dict kvs =>
    simp only [loadConf] at h
    cases hr : replaceVal environ (.dict kvs) with
    | error e => rw [hr] at h; cases h
    | ok r => rw [hr] at h; injection h with h; exact ⟨kvs, r, rfl, rfl, h.symm⟩
  | _ => cases h

/-- **C60.** Every value of the file is in the loaded configuration, at the path with the names in
underscore form; references to the environment are replaced. -/
theorem load_value {under : String → String} {environ : String → Option String} {conf conf' u : Val} {p : List Key}
    (hs : Sane under conf) (h : loadConf under environ (some conf) = .ok conf') (hl : Leads conf p u) (hu : ¬ u.Holds) :
    ∃ u', Becomes environ u u' ∧ Leads conf' (p.map (normKey under)) u' := by
  obtain ⟨kvs, r, -, hr, rfl⟩ := loadConf_ok h
  obtain ⟨u', h1, h2⟩ := replace_leads hl hs.weaken hr
  obtain ⟨h3, h4⟩ := replace_scalar h2
  have h5 := norm_leads h1 (hs.replace hr)
  rw [(normVal_scalar under u').2 (fun hc => hu (h3.2 hc))] at h5
  exact ⟨u', h4 hu, h5⟩

/-- **C60.** Nothing else is in it. -/
theorem load_only {under : String → String} {environ : String → Option String} {conf conf' u' : Val} {q : List Key}
    (hs : Sane under conf) (h : loadConf under environ (some conf) = .ok conf') (hl : Leads conf' q u') (hu : ¬ u'.Holds) :
    ∃ p u, q = p.map (normKey under) ∧ Leads conf p u ∧ Becomes environ u u' := by
  obtain ⟨kvs, r, -, hr, rfl⟩ := loadConf_ok h
  obtain ⟨p, t, rfl, h1, rfl⟩ := norm_leads_inv hl (hs.replace hr) rfl
  have ht : ¬ t.Holds := fun hc => hu ((normVal_scalar under t).1.2 hc)
  rw [(normVal_scalar under t).2 ht]
  obtain ⟨u, h2, h3⟩ := replace_leads_inv h1 hs.weaken hr
  obtain ⟨h4, h5⟩ := replace_scalar h3
  exact ⟨p, u, rfl, h2, h5 (fun hc => ht (h4.1 hc))⟩

/-- **C60.** Loading fails exactly if the file refers to an undefined variable. -/
theorem load_fails_iff {under : String → String} {environ : String → Option String} {kvs : List (String × Val)}
    (hs : Sane id (.dict kvs)) (e : Exc) :
    loadConf under environ (some (.dict kvs)) = .error e ↔
      e = .keyError ∧ ∃ p s n, Leads (.dict kvs) p (.str s) ∧ EnvForm s n ∧ environ n = none := by
  simp only [loadConf]
  constructor
  · intro h
    cases hr : replaceVal environ (.dict kvs) with
    | ok r => rw [hr] at h; cases h
    | error e' => rw [hr] at h; injection h with h; subst h; exact replaceVal_fails environ _ _ hs hr
  · rintro ⟨rfl, p, s, n, hl, hf, hn⟩
    cases hr : replaceVal environ (.dict kvs) with
    | ok r =>
      obtain ⟨u', -, h2⟩ := replace_leads hl hs hr
      rw [replaceVal, ((replaceStr_iff environ s .none).2 .keyError).2 ⟨rfl, n, hf, hn⟩] at h2
      cases h2
    | error e' => rw [(replaceVal_fails environ _ _ hs hr).1]; rfl

/-- **C60.** Together: what is in the file can be looked up. -/
theorem load_get {under : String → String} {environ : String → Option String} {conf conf' u : Val} {p : List Key}
    (hs : Sane under conf) (h : loadConf under environ (some conf) = .ok conf') (hl : Leads conf p u) (hu : ¬ u.Holds) (hp : p ≠ [])
    (hc : ∀ k ∈ p, Component (normKey under k).str) :
    ∃ u', Becomes environ u u' ∧ confGet conf' (concatKeypath (p.map (normKey under))) = .ok (.plain u') := by
  obtain ⟨u', h1, h2⟩ := load_value hs h hl hu
  obtain ⟨g, h3, h4⟩ := get_text h2 (by simpa using hp) (by simpa using hc)
  refine ⟨u', h1, ?_⟩
  have hn : ¬ u'.Holds := by
    rcases h1 with ⟨_, _, x, _, _, _, rfl⟩ | ⟨_, rfl⟩
    · simp [Val.Holds]
    · exact hu
  rcases h4 with ⟨h5, -⟩ | ⟨-, rfl⟩
  · exact absurd h5 hn
  · exact h3

/-- A name that is not in underscore form is not found, even if the file has it. -/
theorem original_name_unknown {under : String → String} {environ : String → Option String} {conf conf' : Val} {k : String}
    (hs : Sane under conf) (h : loadConf under environ (some conf) = .ok conf') (hk : ∀ x, under x ≠ k) (hc : Component k) :
    confGet conf' k = .ok (.plain .none) := by
  have hsplit : keypathSplit k = [k] := by
    have := keypathSplit_writePath k [] hc (by simp)
    simpa [writePath] using this
  obtain ⟨kvs, r, rfl, hr, rfl⟩ := loadConf_ok h
  obtain ⟨u, r', rfl⟩ : ∃ u : Unit, ∃ r', r = Val.dict r' := by
    rw [replaceVal] at hr
    cases hq : replaceKvs environ kvs with
    | error e => rw [hq] at hr; cases hr
    | ok r' => rw [hq] at hr; injection hr with hr; exact ⟨(), _, hr.symm⟩
  have hs' := hs.replace hr
  unfold confGet
  rw [hsplit, normVal_dict hs'.dict]
  cases hg : dictGet (normKvs under r') k with
  | none => simp [confGetParts, confStep, hg, wrapConf, Val.isNone]
  | some y =>
    obtain ⟨k', x, hkk, -⟩ := forall2_get_inv (f := under) (R := fun a b => normVal under a = b) (normKvs_rel under r') hs'.distinct hg
    exact absurd hkk (hk k')

/-- Of two names with the same underscore form the value of the first one is lost. -/
theorem colliding_names_broken (under : String → String) (environ : String → Option String) {k₁ k₂ : String} (n₁ n₂ : Int)
    (hne : k₁ ≠ k₂) (h : under k₁ = under k₂) :
    loadConf under environ (some (.dict [(k₁, .int n₁), (k₂, .int n₂)])) = .ok (.dict [(under k₂, .int n₂)]) := by
  simp [loadConf, replaceVal, replaceKvs, Except.map, dictUpdate, dictSet, hne, normVal, normKvs, h]

/-! ### Uploaders -/

/-- the configured name of an engine -/
def Engine.text : Engine → String
  | .s3 => "s3"
  | .alioss => "alioss"
  | .localfs => "localfs"

/-- Under `uploaders`, the configuration has an uploader of that name, with a client and its options. -/
def ConfiguredAs (conf : Val) (name : String) (e : Engine) (c : Val) : Prop :=
  Leads conf [.s "uploaders", .s name, .s "client"] (.str e.text) ∧
  Leads conf [.s "uploaders", .s name, .s "config"] c ∧ c ≠ .none

theorem split_component {k : String} (hc : Component k) : keypathSplit k = [k] := by
  have := keypathSplit_writePath k [] hc (by simp)
  simpa [writePath] using this

theorem leads_key_inv {v u : Val} {k : String} {p : List Key} (h : Leads v (.s k :: p) u) :
    ∃ kvs x, v = .dict kvs ∧ dictGet kvs k = some x ∧ Leads x p u := by
  cases h with
  | key hx hl => exact ⟨_, _, rfl, hx, hl⟩

/-- a lookup of one name that is no number -/
theorem get_one {v : Val} {k : String} {g : Got} (hc : Component k) (hk : keyInt k = none) :
    (confGet v k = .ok g ∧ g.isNone = false) ↔ ∃ kvs x, v = .dict kvs ∧ dictGet kvs k = some x ∧ x ≠ .none ∧ g = wrapConf x := by
  have hw : ∀ x, x ≠ Val.none → (wrapConf x).isNone = false := by
    intro x hx; cases x <;> simp_all [wrapConf, Got.isNone, Val.isNone]
  unfold confGet
  rw [split_component hc]
  cases v with
  | dict kvs =>
    have hrun : confGetParts [k] (.dict kvs) = .ok (wrapConf ((dictGet kvs k).getD .none)) := by
      simp [confGetParts, confStep, Val.isNone]
    rw [hrun]
    constructor
    · rintro ⟨h, hn⟩
      injection h with h
      subst h
      cases hg : dictGet kvs k with
      | none => rw [hg] at hn; cases hn
      | some x =>
        rw [hg] at hn
        refine ⟨kvs, x, rfl, hg, ?_, rfl⟩
        rintro rfl
        cases hn
    · rintro ⟨kvs', x, h, hx, hne, rfl⟩
      injection h with h
      subst h
      rw [hx]
      exact ⟨rfl, hw x hne⟩
  | list xs =>
    have hrun : confGetParts [k] (.list xs) = .error .valueError := by
      simp [confGetParts, confStep, Val.isNone, hk]
    rw [hrun]
    constructor
    · rintro ⟨h, -⟩; cases h
    · rintro ⟨_, _, h, -⟩; cases h
  | _ =>
    constructor
    · rintro ⟨h, hn⟩
      have hg : g = .plain .none := by
        simp only [confGetParts, confStep, Val.isNone] at h
        injection h with h
        exact h.symm
      subst hg
      cases hn
    · rintro ⟨_, _, h, -⟩; cases h

theorem engineOf_iff (x : Val) (e : Engine) : engineOf (wrapConf x) = .ok e ↔ x = .str e.text := by
  cases x with
  | str s =>
    simp only [wrapConf, engineOf]
    by_cases h1 : s = "s3"
    · subst h1; cases e <;> simp [Engine.text]
    · by_cases h2 : s = "alioss"
      · subst h2; cases e <;> simp [Engine.text]
      · by_cases h3 : s = "localfs"
        · subst h3; cases e <;> simp [Engine.text]
        · cases e <;> simp [h1, h2, h3, Engine.text]
  | _ => simp [wrapConf, engineOf]

/-- one checked lookup in the chain -/
theorem checked_bind {β : Type} {m : Except Exc Got} {f : Got → Except Exc β} {b : β} :
    ((m >>= fun g => if g.isNone then .error .valueError else f g) = .ok b) ↔
      ∃ g, (m = .ok g ∧ g.isNone = false) ∧ f g = .ok b := by
  cases m with
  | error e =>
    constructor
    · intro h; cases h
    · rintro ⟨g, ⟨h, -⟩, -⟩; cases h
  | ok g =>
    constructor
    · intro h
      have h' : (if g.isNone then Except.error Exc.valueError else f g) = .ok b := h
      cases hn : g.isNone with
      | true => rw [hn] at h'; cases h'
      | false => rw [hn] at h'; exact ⟨g, ⟨rfl, hn⟩, h'⟩
    · rintro ⟨g', ⟨h, hn⟩, hf⟩
      injection h with h
      subst h
      change (if g.isNone then Except.error Exc.valueError else f g) = .ok b
      rw [hn]
      exact hf

theorem component_names : Component "uploaders" ∧ Component "client" ∧ Component "config" ∧
    keyInt "uploaders" = none ∧ keyInt "client" = none ∧ keyInt "config" = none := by
  refine ⟨⟨?_, ?_, ?_, ?_⟩, ⟨?_, ?_, ?_, ?_⟩, ⟨?_, ?_, ?_, ?_⟩, ?_, ?_, ?_⟩ <;> decide

theorem got_get {x : Val} {k : String} {g : Got} (hc : Component k) (hk : keyInt k = none) :
    ((wrapConf x).get k = .ok g ∧ g.isNone = false) ↔ ∃ kvs y, x = .dict kvs ∧ dictGet kvs k = some y ∧ y ≠ .none ∧ g = wrapConf y := by
  cases x with
  | dict kvs => exact get_one hc hk
  | list xs => exact get_one hc hk
  | _ =>
    constructor
    · rintro ⟨h, -⟩; cases h
    · rintro ⟨_, _, h, -⟩; cases h

/-- **C61.** An uploader is made exactly for what is configured. -/
theorem uploader_iff (conf : Val) {name : String} (hc : Component name) (hk : keyInt name = none) (uid : Nat) (u : Uploader) :
    makeUploader conf name uid = .ok u ↔ ∃ c, ConfiguredAs conf name u.engine c ∧ IsAnswer u.config c ∧ u.uid = uid := by
  obtain ⟨c1, c2, c3, k1, k2, k3⟩ := component_names
  unfold makeUploader
  rw [checked_bind]
  constructor
  · rintro ⟨g, hg, h⟩
    obtain ⟨kvs, x, rfl, hx, hxn, rfl⟩ := (get_one c1 k1).1 hg
    rw [checked_bind] at h
    obtain ⟨g2, hg2, h⟩ := h
    obtain ⟨kvs2, y, rfl, hy, hyn, rfl⟩ := (got_get hc hk).1 hg2
    rw [checked_bind] at h
    obtain ⟨g3, hg3, h⟩ := h
    obtain ⟨kvs3, z, rfl, hz, hzn, rfl⟩ := (got_get c2 k2).1 hg3
    rw [checked_bind] at h
    obtain ⟨g4, hg4, h⟩ := h
    obtain ⟨kvs4, t, hkv, ht, htn, rfl⟩ := (got_get c3 k3).1 hg4
    injection hkv with hkv
    subst hkv
    cases he : engineOf (wrapConf z) with
    | error e => rw [he] at h; cases h
    | ok e =>
      rw [he] at h
      have h' : (Except.ok { uid := uid, engine := e, config := wrapConf t } : Except Exc Uploader) = .ok u := h
      injection h' with h'
      subst h'
      have hz' := (engineOf_iff z e).1 he
      subst hz'
      exact ⟨t, ⟨.key hx (.key hy (.key hz .here)), .key hx (.key hy (.key ht .here)), htn⟩, isAnswer_wrap t, rfl⟩
  · rintro ⟨t, ⟨h1, h2, htn⟩, ha, rfl⟩
    obtain ⟨kvs, x, rfl, hx, h1⟩ := leads_key_inv h1
    obtain ⟨kvs2, y, rfl, hy, h1⟩ := leads_key_inv h1
    obtain ⟨kvs3, z, rfl, hz, h1⟩ := leads_key_inv h1
    cases h1
    obtain ⟨_, _, he, hx', h2⟩ := leads_key_inv h2
    injection he with he; subst he
    rw [hx] at hx'; injection hx' with hx'; subst hx'
    obtain ⟨_, _, he, hy', h2⟩ := leads_key_inv h2
    injection he with he; subst he
    rw [hy] at hy'; injection hy' with hy'; subst hy'
    obtain ⟨_, _, he, ht, h2⟩ := leads_key_inv h2
    injection he with he; subst he
    cases h2
    refine ⟨_, (get_one c1 k1).2 ⟨kvs, _, rfl, hx, by simp, rfl⟩, ?_⟩
    rw [checked_bind]
    refine ⟨_, (got_get hc hk).2 ⟨kvs2, _, rfl, hy, by simp, rfl⟩, ?_⟩
    rw [checked_bind]
    refine ⟨_, (got_get c2 k2).2 ⟨kvs3, _, rfl, hz, by simp, rfl⟩, ?_⟩
    rw [checked_bind]
    refine ⟨_, (got_get c3 k3).2 ⟨kvs3, _, rfl, ht, htn, rfl⟩, ?_⟩
    rw [(engineOf_iff _ _).2 rfl]
    rw [← isAnswer_unique ha]
    rfl

/-! #### requests -/

theorem makeUploader_uid (conf : Val) (name : String) (a b : Nat) :
    makeUploader conf name a = (makeUploader conf name b).map (fun u => { u with uid := a }) := by
  unfold makeUploader
  cases confGet conf "uploaders" with
  | error e => rfl
  | ok g1 =>
    simp only [bind, Except.bind]
    split
    · rfl
    cases g1.get name with
    | error e => rfl
    | ok g2 =>
      simp only
      split
      · rfl
      cases g2.get "client" with
      | error e => rfl
      | ok g3 =>
        simp only
        split
        · rfl
        cases g2.get "config" with
        | error e => rfl
        | ok g4 =>
          simp only
          split
          · rfl
          cases engineOf g3 <;> rfl

/-- requests one after the other, with their answers -/
def answers (conf : Val) : List String → List (String × Uploader) → List (String × Except Exc Uploader)
  | [], _ => []
  | n :: ns, cache => (n, (requestUploader conf n cache).1) :: answers conf ns (requestUploader conf n cache).2

/-- the cache after the requests -/
def cacheAfter (conf : Val) : List String → List (String × Uploader) → List (String × Uploader)
  | [], cache => cache
  | n :: ns, cache => cacheAfter conf ns (requestUploader conf n cache).2

structure CacheOk (conf : Val) (cache : List (String × Uploader)) : Prop where
  made : ∀ n u, dictGet cache n = some u → makeUploader conf n u.uid = .ok u
  bound : ∀ n u, dictGet cache n = some u → u.uid < cache.length
  distinct : ∀ n m u v, dictGet cache n = some u → dictGet cache m = some v → u.uid = v.uid → n = m

theorem dictGet_none_mem {α : Type} {d : List (String × α)} {k : String} (h : dictGet d k = none) : ∀ x ∈ d, x.1 ≠ k := by
  intro x hx he
  unfold dictGet at h
  rw [Option.map_eq_none_iff, List.find?_eq_none] at h
  exact h x hx (by simpa using he)

theorem request_spec {conf : Val} {cache : List (String × Uploader)} (h : CacheOk conf cache) (n : String) :
    CacheOk conf (requestUploader conf n cache).2 ∧
    (∀ m u, dictGet cache m = some u → dictGet (requestUploader conf n cache).2 m = some u) ∧
    (∀ u, (requestUploader conf n cache).1 = .ok u → dictGet (requestUploader conf n cache).2 n = some u) ∧
    (∀ e, (requestUploader conf n cache).1 = .error e → ∀ k, makeUploader conf n k = .error e) := by
  unfold requestUploader
  cases hg : dictGet cache n with
  | some u =>
    refine ⟨h, fun _ _ h => h, fun u' hu => ?_, fun e he => by cases he⟩
    injection hu with hu
    rw [← hu]; exact hg
  | none =>
    cases hm : makeUploader conf n cache.length with
    | error e =>
      refine ⟨h, fun _ _ h => h, fun u' hu => (by cases hu), fun e' he k => ?_⟩
      injection he with he
      subst he
      rw [makeUploader_uid conf n k cache.length, hm]; rfl
    | ok u =>
      simp only
      have hu : u.uid = cache.length := by
        have := makeUploader_uid conf n cache.length cache.length
        rw [hm] at this
        have h2 : u = { u with uid := cache.length } := by
          have h3 : (Except.ok u : Except Exc Uploader) = .ok { u with uid := cache.length } := this
          injection h3
        rw [h2]
      have hset : dictSet n u cache = cache ++ [(n, u)] := dictSet_new n u cache (dictGet_none_mem hg)
      have hget : ∀ m, dictGet (dictSet n u cache) m = if n = m then some u else dictGet cache m := fun m => dictGet_dictSet n m u cache
      refine ⟨⟨fun m v hv => ?_, fun m v hv => ?_, fun m m' v v' hv hv' he => ?_⟩, fun m v hv => ?_, fun u' hu' => ?_, fun e he => by cases he⟩
      · rw [hget] at hv
        split at hv
        · rename_i hnm
          injection hv with hv
          rw [← hnm, ← hv, hu]; exact hm
        · exact h.made m v hv
      · rw [hget] at hv
        rw [hset, List.length_append]
        split at hv
        · injection hv with hv
          rw [← hv, hu]; simp
        · have := h.bound m v hv
          simp only [List.length_singleton]; omega
      · rw [hget] at hv hv'
        split at hv <;> split at hv'
        · rename_i h1 h2; exact h1.symm.trans h2
        · injection hv with hv
          have := h.bound m' v' hv'
          rw [← he, ← hv, hu] at this
          omega
        · injection hv' with hv'
          have := h.bound m v hv
          rw [he, ← hv', hu] at this
          omega
        · exact h.distinct m m' v v' hv hv' he
      · rw [hget, if_neg]
        · exact hv
        · rintro rfl; rw [hg] at hv; cases hv
      · injection hu' with hu'
        rw [hget, if_pos rfl, hu']

theorem answers_spec {conf : Val} : ∀ (ns : List String) {cache : List (String × Uploader)}, CacheOk conf cache →
    CacheOk conf (cacheAfter conf ns cache) ∧ (∀ m u, dictGet cache m = some u → dictGet (cacheAfter conf ns cache) m = some u) ∧
    ∀ n r, (n, r) ∈ answers conf ns cache →
      (∀ u, r = .ok u → dictGet (cacheAfter conf ns cache) n = some u) ∧
      (∀ e, r = .error e → ∀ k, makeUploader conf n k = .error e)
  | [], cache, h => ⟨h, fun _ _ h => h, fun n r hm => by cases hm⟩
  | n :: ns, cache, h => by
    obtain ⟨h1, h2, h3, h4⟩ := request_spec h n
    obtain ⟨i1, i2, i3⟩ := answers_spec ns h1
    refine ⟨i1, fun m u hu => i2 m u (h2 m u hu), fun m r hm => ?_⟩
    rcases List.mem_cons.1 hm with he | hm
    · injection he with he1 he2
      subst he1 he2
      exact ⟨fun u hu => i2 _ _ (h3 u hu), h4⟩
    · exact i3 m r hm

/-- **C61.** In any sequence of requests, each answer is an uploader made for the requested name as
configured, or the error that says that there is none; two requests get the same uploader exactly if
they are for the same name. -/
theorem requests_consistent (conf : Val) (ns : List String) :
    (∀ n r, (n, r) ∈ answers conf ns [] →
      (∃ u, r = .ok u ∧ makeUploader conf n u.uid = .ok u) ∨ ∃ e, r = .error e ∧ ∀ k, makeUploader conf n k = .error e) ∧
    ∀ n m u v, (n, .ok u) ∈ answers conf ns [] → (m, .ok v) ∈ answers conf ns [] → (n = m ↔ u.uid = v.uid) ∧ (n = m → u = v) := by
  have h0 : CacheOk conf [] := ⟨fun _ _ h => (by cases h), fun _ _ h => (by cases h), fun _ _ _ _ h => (by cases h)⟩
  obtain ⟨h1, -, h3⟩ := answers_spec ns h0
  constructor
  · intro n r hr
    cases r with
    | ok u => exact .inl ⟨u, rfl, h1.made n u ((h3 n _ hr).1 u rfl)⟩
    | error e => exact .inr ⟨e, rfl, (h3 n _ hr).2 e rfl⟩
  · intro n m u v hu hv
    have hu' := (h3 n _ hu).1 u rfl
    have hv' := (h3 m _ hv).1 v rfl
    have heq : n = m → u = v := by
      rintro rfl
      rw [hu'] at hv'
      injection hv'
    exact ⟨⟨fun h => by rw [heq h], fun h => h1.distinct n m u v hu' hv' h⟩, heq⟩

/-- An uploader whose name in the file is not in underscore form cannot be requested by that name. -/
theorem camel_uploader_undefined {under : String → String} {environ : String → Option String} {conf conf' : Val} {name : String}
    (hs : Sane under conf) (h : loadConf under environ (some conf) = .ok conf') (hk : ∀ x, under x ≠ name)
    (hc : Component name) (hi : keyInt name = none) (uid : Nat) (u : Uploader) : makeUploader conf' name uid ≠ .ok u := by
  intro hm
  obtain ⟨c, ⟨h1, -, -⟩, -, -⟩ := (uploader_iff conf' hc hi uid u).1 hm
  obtain ⟨p, v, hp, -, -⟩ := load_only hs h h1 (by simp [Val.Holds])
  rcases p with _ | ⟨a, _ | ⟨k, r⟩⟩
  · simp at hp
  · simp at hp
  · simp only [List.map_cons, List.cons.injEq] at hp
    obtain ⟨-, hkk, -⟩ := hp
    cases k with
    | s x => simp only [normKey, Key.s.injEq] at hkk; exact hk x hkk.symm
    | i n => cases hkk

end JC

namespace JC.UConfDemo
open JC

/-- a stand-in for `underscore` -/
def under : String → String := fun k => if k = "bucketName" then "bucket_name" else if k = "userPics" then "user_pics" else k
def environ : String → Option String := fun n => if n = "KEY" then some "secret" else none

def file (ref : String) : Val := .dict [
  ("uploaders", .dict [
    ("userPics", .dict [("client", .str "s3"), ("config", .dict [("bucketName", .str "b"), ("key", .str ref)])]),
    ("docs", .dict [("client", .str "localfs"), ("config", .dict [("dir", .str "d")])])]),
  ("hosts", .list [.dict [("port", .int 80)], .dict [("port", .int 81)]])]

/-- the file, loaded -/
def conf : Val := .dict [
  ("uploaders", .dict [
    ("user_pics", .dict [("client", .str "s3"), ("config", .dict [("bucket_name", .str "b"), ("key", .str "secret")])]),
    ("docs", .dict [("client", .str "localfs"), ("config", .dict [("dir", .str "d")])])]),
  ("hosts", .list [.dict [("port", .int 80)], .dict [("port", .int 81)]])]

def ref : String := "environ['KEY']"
def badRef : String := "environ[\"NONE\"]"

theorem ref_form : EnvForm ref "KEY" :=
  ⟨'\'', '\'', [], .inl rfl, .inl rfl, .inl rfl, by decide, by decide, by decide⟩
theorem badRef_form : EnvForm badRef "NONE" :=
  ⟨'"', '"', [], .inr rfl, .inr rfl, .inl rfl, by decide, by decide, by decide⟩

theorem loaded : loadConf under environ (some (file ref)) = .ok conf := by rfl

/-- all dicts of a value have names of different form, computed -/
def saneB (under : String → String) : Nat → Val → Bool
  | 0, _ => false
  | n + 1, .dict kvs => decide ((kvs.map (fun kv => under kv.1)).Nodup) && kvs.all (fun kv => saneB under n kv.2)
  | n + 1, .list xs => xs.all (saneB under n)
  | _ + 1, _ => true

theorem sane_of {under : String → String} {v u : Val} {p : List Key} (h : Leads v p u) : ∀ {n}, saneB under n v = true →
    ∃ m, saneB under m u = true := by
  induction h with
  | here => intro n h; exact ⟨n, h⟩
  | @key kvs k x p u hx _ ih =>
    intro n h
    cases n with
    | zero => cases h
    | succ n =>
      simp only [saneB, Bool.and_eq_true, List.all_eq_true] at h
      unfold dictGet at hx
      cases hf : kvs.find? (fun kv => kv.1 = k) with
      | none => rw [hf] at hx; cases hx
      | some kv =>
        rw [hf] at hx
        injection hx with hx
        exact ih (hx ▸ h.2 kv (List.mem_of_find?_eq_some hf))
  | item hx _ ih =>
    intro n h
    cases n with
    | zero => cases h
    | succ n =>
      simp only [saneB, List.all_eq_true] at h
      exact ih (h _ (List.mem_of_getElem? hx))
  | back hx _ ih =>
    intro n h
    cases n with
    | zero => cases h
    | succ n =>
      simp only [saneB, List.all_eq_true] at h
      exact ih (h _ (List.mem_reverse.1 (List.mem_of_getElem? hx)))

theorem sane_iff {under : String → String} {v : Val} {n : Nat} (h : saneB under n v = true) : Sane under v := by
  intro p kvs hl
  obtain ⟨m, hm⟩ := sane_of hl h
  cases m with
  | zero => cases hm
  | succ m =>
    simp only [saneB, Bool.and_eq_true, decide_eq_true_eq] at hm
    exact hm.1

theorem file_sane (r : String) : Sane under (file r) := sane_iff (n := 6) (by
  simp [saneB, file, under])

def keyPath : List Key := [.s "uploaders", .s "userPics", .s "config", .s "key"]
theorem key_there (r : String) : Leads (file r) keyPath (.str r) := .key rfl (.key rfl (.key rfl (.key rfl .here)))

example := load_value (file_sane ref) loaded (key_there ref) (by simp [Val.Holds])
example : Leads conf [.s "hosts", .i (-1), .s "port"] (.int 81) := .key rfl (.back (m := 0) rfl (.key rfl .here))
example := load_only (file_sane ref) loaded (q := [.s "hosts", .i (-1), .s "port"]) (u' := .int 81)
  (.key rfl (.back (m := 0) rfl (.key rfl .here))) (by simp [Val.Holds])
example := load_get (file_sane ref) loaded (key_there ref) (by simp [Val.Holds]) (by simp [keyPath]) (by
  intro k hk
  simp only [keyPath, List.mem_cons, List.not_mem_nil, or_false] at hk
  rcases hk with rfl | rfl | rfl | rfl <;> exact ⟨by decide, by decide, by decide, by decide⟩)
example : confGet conf "uploaders.user_pics.config[key]" = .ok (.plain (.str "secret")) := by rfl
example : confGet conf "hosts[-1].port" = .ok (.plain (.int 81)) := by rfl
example : confGet conf "hosts.7.port" = .ok (.plain .none) := by rfl
/-- a list cannot be looked up by name, nor from too far behind its end -/
example : confGet conf "hosts.port" = .error .valueError ∧ confGet conf "hosts[-3]" = .error .indexError ∧
    confGet conf "" = .error .indexError := ⟨rfl, rfl, rfl⟩
example := get_compose (conf := conf) (a := "uploaders") (b := "docs.client") rfl (by decide)
/-- the reference to an undefined variable makes loading fail -/
example : loadConf under environ (some (file badRef)) = .error .keyError :=
  (load_fails_iff (file_sane badRef).weaken _).2 ⟨rfl, keyPath, badRef, "NONE", key_there badRef, badRef_form, rfl⟩

theorem under_avoids (x : String) : under x ≠ "bucketName" ∧ under x ≠ "userPics" := by
  unfold under
  split
  · decide
  · rename_i h1
    split
    · decide
    · rename_i h2
      exact ⟨h1, h2⟩

example := original_name_unknown (file_sane ref) loaded (k := "userPics") (fun x => (under_avoids x).2)
  ⟨by decide, by decide, by decide, by decide⟩
example := colliding_names_broken under environ (k₁ := "bucketName") (k₂ := "bucket_name") 1 2 (by decide) rfl

example := (uploader_iff conf (name := "docs") ⟨by decide, by decide, by decide, by decide⟩ (by decide) 3
  { uid := 3, engine := .localfs, config := .conf (.dict [("dir", .str "d")]) }).2
  ⟨_, ⟨.key rfl (.key rfl (.key rfl .here)), .key rfl (.key rfl (.key rfl .here)), by simp⟩, .inl ⟨trivial, rfl⟩, rfl⟩
/-- The name in the file is `userPics`, the request for it fails. -/
theorem camel_uploader_broken :
    Leads (file ref) [.s "uploaders", .s "userPics", .s "client"] (.str "s3") ∧
    (requestUploader conf "userPics" []).1 = .error .valueError := ⟨.key rfl (.key rfl (.key rfl .here)), rfl⟩
example := camel_uploader_undefined (file_sane ref) loaded (fun x => (under_avoids x).2)
  ⟨by decide, by decide, by decide, by decide⟩ (by decide)
/-- three requests: made, made, taken from the cache -/
example : (answers conf ["docs", "user_pics", "docs"] []).map (fun a => match a.2 with
    | .ok u => some (a.1, u.uid, u.engine)
    | .error _ => none) = [some ("docs", 0, .localfs), some ("user_pics", 1, .s3), some ("docs", 0, .localfs)] := by rfl

end JC.UConfDemo
