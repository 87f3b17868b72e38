import Verif.Model.Instance
import Mathlib.Tactic.ByContra

/-
A relational toolkit: two runs (possibly under two environments, two visitors, two
states) that agree on the outcome and keep a relation between their states. Used for
termination (C19, C29), independence (C21) and non-interference (C28).
-/
namespace JC

/-- The two computations give the same outcome, which is not a `bad` exception, and keep
the states related. -/
def Sim {α : Type} (K : World → World → Prop) (bad : Exc → Prop) (m₁ m₂ : Py World α) : Prop :=
  ∀ w₁ w₂, K w₁ w₂ → (m₁ w₁).1 = (m₂ w₂).1 ∧ (∀ e, (m₁ w₁).1 = .error e → ¬ bad e) ∧
    K (m₁ w₁).2 (m₂ w₂).2

variable {α β : Type} {K : World → World → Prop} {bad : Exc → Prop}

theorem Sim.pure (a : α) : Sim K bad (pure a) (pure a) :=
  fun _ _ h => ⟨rfl, (by intro e he; cases he), h⟩

theorem Sim.raise {e : Exc} (h : ¬ bad e) : Sim K bad (Py.raise e : Py World α) (Py.raise e) :=
  fun _ _ hk => ⟨rfl, by intro e' he; cases he; exact h, hk⟩

theorem Sim.bind {m₁ m₂ : Py World α} {f₁ f₂ : α → Py World β} (h : Sim K bad m₁ m₂)
    (hf : ∀ a, Sim K bad (f₁ a) (f₂ a)) : Sim K bad (m₁ >>= f₁) (m₂ >>= f₂) := by
  intro w₁ w₂ hk
  have h' := h w₁ w₂ hk
  rw [Py.bind_run, Py.bind_run]
  rcases h1 : m₁ w₁ with ⟨r₁, w₁'⟩
  rcases h2 : m₂ w₂ with ⟨r₂, w₂'⟩
  rw [h1, h2] at h'
  obtain ⟨heq, hb, hk'⟩ := h'
  simp only at heq hb hk'
  subst heq
  cases r₁ with
  | error e => exact ⟨rfl, fun e' he' => hb e' (by simpa using he'), hk'⟩
  | ok a => exact hf a w₁' w₂' hk'

theorem Sim.catchV {m₁ m₂ : Py World α} {f₁ f₂ : List (String × String) → Py World α}
    (h : Sim K bad m₁ m₂) (hf : ∀ a, Sim K bad (f₁ a) (f₂ a)) :
    Sim K bad (Py.catchV m₁ f₁) (Py.catchV m₂ f₂) := by
  intro w₁ w₂ hk
  have h' := h w₁ w₂ hk
  simp only [Py.catchV]
  rcases h1 : m₁ w₁ with ⟨r₁, w₁'⟩
  rcases h2 : m₂ w₂ with ⟨r₂, w₂'⟩
  rw [h1, h2] at h'
  obtain ⟨heq, hb, hk'⟩ := h'
  simp only at heq hb hk'
  subst heq
  cases r₁ with
  | ok a => exact ⟨rfl, (by intro e he; cases he), hk'⟩
  | error e =>
    cases e with
    | validation msgs => exact hf msgs w₁' w₂' hk'
    | _ => exact ⟨rfl, fun e' he' => hb e' (by simpa using he'), hk'⟩

theorem Sim.read {f₁ f₂ : World → Except Exc α}
    (h : ∀ w₁ w₂, K w₁ w₂ → f₁ w₁ = f₂ w₂ ∧ ∀ e, f₁ w₁ = .error e → ¬ bad e) :
    Sim K bad (readW f₁) (readW f₂) :=
  fun w₁ w₂ hk => ⟨(h w₁ w₂ hk).1, fun e he => (h w₁ w₂ hk).2 e he, hk⟩

theorem Sim.raiseMsgs (hv : ∀ msgs, ¬ bad (.validation msgs)) (msgs : List (String × String)) :
    Sim K bad (raiseMsgs (σ := World) msgs) (JC.raiseMsgs msgs) := by
  cases msgs with
  | nil => exact Sim.pure ()
  | cons x xs => exact Sim.raise (hv _)

/-! ### Stages of a chain of modifiers -/

/-- the stages of a chain for any kind of element -/
def tvsG (e : α → Bool) (vs : List α) : List α :=
  match lastIdx e vs with
  | some i => vs.take i
  | none => []
def pvsG (p : α → Bool) (vs : List α) : List α :=
  match firstIdx p vs with
  | some i => vs.drop i
  | none => []
def uptoG (p : α → Bool) (vs : List α) : List α :=
  match firstIdx p vs with
  | some i => vs.take i
  | none => vs
def nvsG (e p : α → Bool) (vs : List α) : List α :=
  match lastIdx e vs with
  | some i => (uptoG p vs).drop i
  | none => uptoG p vs

theorem firstIdx_map (d : α → β) (p : β → Bool) (vs : List α) :
    firstIdx p (vs.map d) = firstIdx (fun a => p (d a)) vs := by
  induction vs with
  | nil => rfl
  | cons x xs ih => simp [firstIdx, ih]

theorem lastIdx_map (d : α → β) (p : β → Bool) (vs : List α) :
    lastIdx p (vs.map d) = lastIdx (fun a => p (d a)) vs := by
  induction vs with
  | nil => rfl
  | cons x xs ih => simp [lastIdx, ih]

theorem tvs_map {σ : Type} (d : α → Ops σ) (vs : List α) :
    tvs (vs.map d) = (tvsG (fun a => (d a).isEager) vs).map d := by
  unfold tvs tvsG
  rw [lastIdx_map]
  cases lastIdx (fun a => (d a).isEager) vs <;> simp [List.map_take]

theorem pvs_map {σ : Type} (d : α → Ops σ) (vs : List α) :
    pvs (vs.map d) = (pvsG (fun a => (d a).isPre) vs).map d := by
  unfold pvs pvsG
  rw [firstIdx_map]
  cases firstIdx (fun a => (d a).isPre) vs <;> simp [List.map_drop]

theorem uptoPre_map {σ : Type} (d : α → Ops σ) (vs : List α) :
    uptoPre (vs.map d) = (uptoG (fun a => (d a).isPre) vs).map d := by
  unfold uptoPre uptoG
  rw [firstIdx_map]
  cases firstIdx (fun a => (d a).isPre) vs <;> simp [List.map_take]

theorem nvs_map {σ : Type} (d : α → Ops σ) (vs : List α) :
    nvs (vs.map d) = (nvsG (fun a => (d a).isEager) (fun a => (d a).isPre) vs).map d := by
  unfold nvs nvsG
  rw [lastIdx_map]
  cases lastIdx (fun a => (d a).isEager) vs <;> simp [uptoPre_map, List.map_drop]

theorem mem_uptoG {p : α → Bool} {vs : List α} {x : α} (h : x ∈ uptoG p vs) : x ∈ vs := by
  unfold uptoG at h
  split at h
  · exact List.mem_of_mem_take h
  · exact h

theorem mem_nvsG {e p : α → Bool} {vs : List α} {x : α} (h : x ∈ nvsG e p vs) : x ∈ vs := by
  unfold nvsG at h
  split at h
  · exact mem_uptoG (List.mem_of_mem_drop h)
  · exact mem_uptoG h

theorem mem_tvsG {e : α → Bool} {vs : List α} {x : α} (h : x ∈ tvsG e vs) : x ∈ vs := by
  unfold tvsG at h
  split at h
  · exact List.mem_of_mem_take h
  · cases h

theorem mem_pvsG {p : α → Bool} {vs : List α} {x : α} (h : x ∈ pvsG p vs) : x ∈ vs := by
  unfold pvsG at h
  split at h
  · exact List.mem_of_mem_drop h
  · cases h

/-- is a modifier an eager mark -/
def Mod.isEagerM : Mod → Bool
  | .eager => true
  | _ => false
/-- is a modifier a preserialize mark -/
def Mod.isPreM : Mod → Bool
  | .pre => true
  | _ => false

/-- Instance modifiers are not marks. -/
def NoMarks (vis : Visitor) : Prop := ∀ cls st, (vis cls st).isEager = false ∧ (vis cls st).isPre = false

theorem instOps_noMarks (env : Env) (n : Nat) : NoMarks (instOps env n) := by
  intro cls st
  cases n <;> exact ⟨rfl, rfl⟩

theorem den_isEager (env : Env) (vis : Visitor) (h : NoMarks vis) (m : Mod) :
    (m.den env vis).isEager = m.isEagerM := by
  cases m <;> simp [Mod.den, Mod.isEagerM, leafOps, listOps, dictOps, unionOps, (h _ _).1]

theorem den_isPre (env : Env) (vis : Visitor) (h : NoMarks vis) (m : Mod) :
    (m.den env vis).isPre = m.isPreM := by
  cases m <;> simp [Mod.den, Mod.isPreM, leafOps, listOps, dictOps, unionOps, (h _ _).2]

theorem denL_map (env : Env) (vis : Visitor) (ms : List Mod) :
    denL env vis ms = ms.map (fun m => m.den env vis) := by
  induction ms with
  | nil => rfl
  | cons m ms ih => simp [denL, ih]

theorem denA_map (env : Env) (vis : Visitor) (as : List (List Mod)) :
    denA env vis as = as.map (fun a => chainOps (setParent env) (denL env vis a)) := by
  induction as with
  | nil => rfl
  | cons a as ih => simp [denA, ih]

/-- The modifiers run by `validate`: declared between the last eager mark (included) and
the first preserialize mark. -/
def nvsM (ms : List Mod) : List Mod := nvsG Mod.isEagerM Mod.isPreM ms
/-- The modifiers before the last eager mark. -/
def tvsM (ms : List Mod) : List Mod := tvsG Mod.isEagerM ms
/-- The modifiers from the first preserialize mark on. -/
def pvsM (ms : List Mod) : List Mod := pvsG Mod.isPreM ms

theorem nvs_denL (env : Env) (vis : Visitor) (h : NoMarks vis) (ms : List Mod) :
    nvs (denL env vis ms) = (nvsM ms).map (fun m => m.den env vis) := by
  rw [denL_map, nvs_map]
  unfold nvsM
  congr 2
  · funext m; exact den_isEager env vis h m
  · funext m; exact den_isPre env vis h m

theorem tvs_denL (env : Env) (vis : Visitor) (h : NoMarks vis) (ms : List Mod) :
    tvs (denL env vis ms) = (tvsM ms).map (fun m => m.den env vis) := by
  rw [denL_map, tvs_map]
  unfold tvsM
  congr 2
  funext m; exact den_isEager env vis h m

theorem pvs_denL (env : Env) (vis : Visitor) (h : NoMarks vis) (ms : List Mod) :
    pvs (denL env vis ms) = (pvsM ms).map (fun m => m.den env vis) := by
  rw [denL_map, pvs_map]
  unfold pvsM
  congr 2
  funext m; exact den_isPre env vis h m

theorem mem_nvsM {ms : List Mod} {m : Mod} (h : m ∈ nvsM ms) : m ∈ ms := mem_nvsG h
theorem mem_tvsM {ms : List Mod} {m : Mod} (h : m ∈ tvsM ms) : m ∈ ms := mem_tvsG h
theorem mem_pvsM {ms : List Mod} {m : Mod} (h : m ∈ pvsM ms) : m ∈ ms := mem_pvsG h

mutual
/-- Every effect free modifier occurring in a modifier satisfies `p`, and every instance
modifier's class satisfies `q`. -/
def Mod.All (p : Leaf → Prop) (q : String → Prop) : Mod → Prop
  | .eager => True
  | .pre => True
  | .leaf l => p l
  | .listOf _ _ item => Mod.AllL p q item
  | .dictOf _ item => Mod.AllL p q item
  | .instOf cls _ => q cls
  | .union alts => Mod.AllA p q alts
def Mod.AllL (p : Leaf → Prop) (q : String → Prop) : List Mod → Prop
  | [] => True
  | m :: ms => Mod.All p q m ∧ Mod.AllL p q ms
def Mod.AllA (p : Leaf → Prop) (q : String → Prop) : List (List Mod) → Prop
  | [] => True
  | a :: as => Mod.AllL p q a ∧ Mod.AllA p q as
end

theorem Mod.AllL_iff {p : Leaf → Prop} {q : String → Prop} {ms : List Mod} :
    Mod.AllL p q ms ↔ ∀ m ∈ ms, m.All p q := by
  induction ms with
  | nil => simp [Mod.AllL]
  | cons m ms ih => simp [Mod.AllL, ih]

theorem Mod.AllA_iff {p : Leaf → Prop} {q : String → Prop} {as : List (List Mod)} :
    Mod.AllA p q as ↔ ∀ a ∈ as, ∀ m ∈ a, m.All p q := by
  induction as with
  | nil => simp [Mod.AllA]
  | cons a as ih => simp [Mod.AllA, ih, Mod.AllL_iff]

mutual
theorem Mod.All.mono {p p' : Leaf → Prop} {q q' : String → Prop} (hp : ∀ l, p l → p' l)
    (hq : ∀ c, q c → q' c) : ∀ (m : Mod), m.All p q → m.All p' q'
  | .eager, _ => trivial
  | .pre, _ => trivial
  | .leaf l, h => hp l h
  | .listOf _ _ item, h => Mod.AllL.mono hp hq item h
  | .dictOf _ item, h => Mod.AllL.mono hp hq item h
  | .instOf c _, h => hq c h
  | .union alts, h => Mod.AllA.mono hp hq alts h
theorem Mod.AllL.mono {p p' : Leaf → Prop} {q q' : String → Prop} (hp : ∀ l, p l → p' l)
    (hq : ∀ c, q c → q' c) : ∀ (ms : List Mod), Mod.AllL p q ms → Mod.AllL p' q' ms
  | [], _ => trivial
  | m :: ms, h => ⟨Mod.All.mono hp hq m h.1, Mod.AllL.mono hp hq ms h.2⟩
theorem Mod.AllA.mono {p p' : Leaf → Prop} {q q' : String → Prop} (hp : ∀ l, p l → p' l)
    (hq : ∀ c, q c → q' c) : ∀ (as : List (List Mod)), Mod.AllA p q as → Mod.AllA p' q' as
  | [], _ => trivial
  | a :: as, h => ⟨Mod.AllL.mono hp hq a h.1, Mod.AllA.mono hp hq as h.2⟩
end

mutual
theorem Mod.all_of_forall {p : Leaf → Prop} (hp : ∀ l, p l) : ∀ (m : Mod), m.All p (fun _ => True)
  | .eager => trivial
  | .pre => trivial
  | .leaf l => hp l
  | .listOf _ _ item => Mod.allL_of_forall hp item
  | .dictOf _ item => Mod.allL_of_forall hp item
  | .instOf _ _ => trivial
  | .union alts => Mod.allA_of_forall hp alts
theorem Mod.allL_of_forall {p : Leaf → Prop} (hp : ∀ l, p l) : ∀ (ms : List Mod), Mod.AllL p (fun _ => True) ms
  | [] => trivial
  | m :: ms => ⟨Mod.all_of_forall hp m, Mod.allL_of_forall hp ms⟩
theorem Mod.allA_of_forall {p : Leaf → Prop} (hp : ∀ l, p l) :
    ∀ (as : List (List Mod)), Mod.AllA p (fun _ => True) as
  | [] => trivial
  | a :: as => ⟨Mod.allL_of_forall hp a, Mod.allA_of_forall hp as⟩
end

/-! ### validate -/

/-- entries of a collection value -/
def Val.children : Val → List Val
  | .list xs => xs
  | .dict kvs => kvs.map Prod.snd
  | _ => []

theorem sim_validateLoop {c : Ctx} {ms : List α} {d₁ d₂ : α → Ops World}
    (h : ∀ m ∈ ms, Sim K bad ((d₁ m).validate c) ((d₂ m).validate c)) (acc) :
    Sim K bad (validateLoop c (ms.map d₁) acc) (validateLoop c (ms.map d₂) acc) := by
  induction ms generalizing acc with
  | nil => exact Sim.pure acc
  | cons m ms ih =>
    have ih := fun acc => ih (fun m' hm' => h m' (by simp [hm'])) acc
    intro w₁ w₂ hk
    have h' := h m (by simp) w₁ w₂ hk
    simp only [List.map_cons, validateLoop]
    rcases h1 : (d₁ m).validate c w₁ with ⟨r₁, w₁'⟩
    rcases h2 : (d₂ m).validate c w₂ with ⟨r₂, w₂'⟩
    rw [h1, h2] at h'
    obtain ⟨heq, hb, hk'⟩ := h'
    simp only at heq hb hk'
    subst heq
    cases r₁ with
    | ok a => exact ih acc w₁' w₂' hk'
    | error e =>
      cases e with
      | validation msgs =>
        simp only
        split
        · exact ih _ w₁' w₂' hk'
        · exact ⟨rfl, (by intro e he; cases he), hk'⟩
      | _ => exact ⟨rfl, fun e' he' => hb e' (by simpa using he'), hk'⟩

theorem sim_chainValidate {env₁ env₂ : Env} {vis₁ vis₂ : Visitor} (hn₁ : NoMarks vis₁)
    (hn₂ : NoMarks vis₂) {c : Ctx} {ms : List Mod}
    (hv : ∀ msgs, ¬ bad (.validation msgs))
    (h : ∀ m ∈ ms, Sim K bad ((m.den env₁ vis₁).validate c) ((m.den env₂ vis₂).validate c)) :
    Sim K bad (chainValidate (denL env₁ vis₁ ms) c) (chainValidate (denL env₂ vis₂ ms) c) := by
  unfold chainValidate
  rw [nvs_denL _ _ hn₁, nvs_denL _ _ hn₂]
  exact Sim.bind (sim_validateLoop (fun m hm => h m (mem_nvsM hm)) []) (fun a => Sim.raiseMsgs hv a)

theorem sim_colLoop {c : Ctx} {item₁ item₂ : Ops World} {all : Bool} {es : List (Key × Val)}
    (h : ∀ kv ∈ es, Sim K bad (item₁.validate (c.colval kv.2 kv.1)) (item₂.validate (c.colval kv.2 kv.1)))
    (acc) :
    Sim K bad (colValidateLoop item₁ c all es acc) (colValidateLoop item₂ c all es acc) := by
  induction es generalizing acc with
  | nil => exact Sim.pure acc
  | cons e es ih =>
    obtain ⟨k, v⟩ := e
    have ih := fun acc => ih (fun m' hm' => h m' (by simp [hm'])) acc
    intro w₁ w₂ hk
    have h' := h (k, v) (by simp) w₁ w₂ hk
    simp only [colValidateLoop]
    simp only at h'
    rcases h1 : item₁.validate (c.colval v k) w₁ with ⟨r₁, w₁'⟩
    rcases h2 : item₂.validate (c.colval v k) w₂ with ⟨r₂, w₂'⟩
    rw [h1, h2] at h'
    obtain ⟨heq, hb, hk'⟩ := h'
    simp only at heq hb hk'
    subst heq
    cases r₁ with
    | ok a => exact ih acc w₁' w₂' hk'
    | error e =>
      cases e with
      | validation msgs =>
        simp only
        split
        · exact ih _ w₁' w₂' hk'
        · exact ⟨rfl, fun e' he' => hb e' (by simpa using he'), hk'⟩
      | _ => exact ⟨rfl, fun e' he' => hb e' (by simpa using he'), hk'⟩

theorem enumVals_mem {n : Nat} {xs : List Val} {kv : Key × Val} (h : kv ∈ enumVals n xs) :
    kv.2 ∈ xs := by
  induction xs generalizing n with
  | nil => simp [enumVals] at h
  | cons x xs ih =>
    simp only [enumVals, List.mem_cons] at h
    rcases h with rfl | h
    · simp
    · exact List.mem_cons_of_mem _ (ih h)

theorem enumDict_mem {kvs : List (String × Val)} {kv : Key × Val} (h : kv ∈ enumDict kvs) :
    kv.2 ∈ kvs.map Prod.snd := by
  simp only [enumDict, List.mem_map] at h
  obtain ⟨a, ha, rfl⟩ := h
  exact List.mem_map_of_mem ha

/-- What the two runs must share for `validate`. -/
structure SimValidate (K : World → World → Prop) (bad : Exc → Prop) (env₁ env₂ : Env)
    (vis₁ vis₂ : Visitor) (P : Ctx → Prop) : Prop where
  hv : ∀ msgs, ¬ bad (.validation msgs)
  ha : ¬ bad .attributeError
  noMarks₁ : NoMarks vis₁
  noMarks₂ : NoMarks vis₂
  col : ∀ c v k, P c → v ∈ c.val.children → P (c.colval v k)
  alter : ∀ c, P c → P c.alterfdef
  owner : ∀ w₁ w₂ o, K w₁ w₂ →
    (w₁.cdef env₁ o).validateAllFields = (w₂.cdef env₂ o).validateAllFields
  vis : ∀ cls st c, P c → Sim K bad ((vis₁ cls st).validate c) ((vis₂ cls st).validate c)

/-- The leaf runs alike in related states. -/
def SimLeafV (K : World → World → Prop) (bad : Exc → Prop) (P : Ctx → Prop) (l : Leaf) : Prop :=
  ∀ c w₁ w₂, P c → K w₁ w₂ → l.validate w₁.heap c = l.validate w₂.heap c ∧
    ∀ e, l.validate w₁.heap c = .error e → ¬ bad e

section
variable {env₁ env₂ : Env} {vis₁ vis₂ : Visitor} {P : Ctx → Prop}

theorem sim_colValidate (hs : SimValidate K bad env₁ env₂ vis₁ vis₂ P) {c : Ctx} {sp₁ sp₂ : Special}
    {item₁ item₂ : Ops World} {es : List (Key × Val)}
    (h : ∀ kv ∈ es, Sim K bad (item₁.validate (c.colval kv.2 kv.1)) (item₂.validate (c.colval kv.2 kv.1))) :
    Sim K bad (colValidate (colEnv env₁ sp₁) item₁ c es) (colValidate (colEnv env₂ sp₂) item₂ c es) := by
  unfold colValidate
  apply Sim.bind
  · simp only [colEnv]
    cases ho : c.owner with
    | none => exact Sim.raise hs.ha
    | some o =>
      apply Sim.read
      intro w₁ w₂ hk
      exact ⟨by rw [hs.owner w₁ w₂ o hk], by intro e he; cases he⟩
  · intro b
    exact Sim.bind (sim_colLoop h []) (fun a => Sim.raiseMsgs hs.hv a)

mutual
theorem sim_den_validate (hs : SimValidate K bad env₁ env₂ vis₁ vis₂ P) :
    ∀ (m : Mod), m.All (SimLeafV K bad P) (fun _ => True) → ∀ c, P c →
      Sim K bad ((m.den env₁ vis₁).validate c) ((m.den env₂ vis₂).validate c)
  | .eager, _, c, _ => Sim.pure ()
  | .pre, _, c, _ => Sim.pure ()
  | .leaf l, hl, c, hp => by
    simp only [Mod.den, leafOps]
    exact Sim.read (fun w₁ w₂ hk => hl c w₁ w₂ hp hk)
  | .listOf nn sp item, hl, c, hp => by
    simp only [Mod.den, listOps]
    split
    · exact Sim.pure ()
    · next xs hval =>
      apply sim_colValidate hs
      intro kv hkv
      exact sim_den_chain hs item hl _ (hs.col c _ _ hp (by rw [hval]; exact enumVals_mem hkv))
    · exact Sim.raise (hs.hv _)
  | .dictOf nn item, hl, c, hp => by
    simp only [Mod.den, dictOps]
    split
    · exact Sim.pure ()
    · next xs hval =>
      apply sim_colValidate hs
      intro kv hkv
      exact sim_den_chain hs item hl _ (hs.col c _ _ hp (by rw [hval]; exact enumDict_mem hkv))
    · exact Sim.raise (hs.hv _)
  | .instOf cls st, _, c, hp => by
    simp only [Mod.den]
    exact hs.vis cls st c hp
  | .union alts, hl, c, hp => by
    simp only [Mod.den, unionOps]
    split
    · exact Sim.pure ()
    · exact sim_den_union hs alts hl _ (hs.alter c hp)
theorem sim_den_chain (hs : SimValidate K bad env₁ env₂ vis₁ vis₂ P) :
    ∀ (ms : List Mod), Mod.AllL (SimLeafV K bad P) (fun _ => True) ms → ∀ c, P c →
      Sim K bad (chainValidate (denL env₁ vis₁ ms) c) (chainValidate (denL env₂ vis₂ ms) c)
  | ms, hl, c, hp =>
    sim_chainValidate hs.noMarks₁ hs.noMarks₂ hs.hv (sim_den_list hs ms hl c hp)
theorem sim_den_list (hs : SimValidate K bad env₁ env₂ vis₁ vis₂ P) :
    ∀ (ms : List Mod), Mod.AllL (SimLeafV K bad P) (fun _ => True) ms → ∀ c, P c →
      ∀ m ∈ ms, Sim K bad ((m.den env₁ vis₁).validate c) ((m.den env₂ vis₂).validate c)
  | [], _, _, _ => by intro m hm; cases hm
  | m :: ms, hl, c, hp => by
    intro m' hm'
    rcases List.mem_cons.1 hm' with h | h
    · rw [h]; exact sim_den_validate hs m hl.1 c hp
    · exact sim_den_list hs ms hl.2 c hp m' h
theorem sim_den_union (hs : SimValidate K bad env₁ env₂ vis₁ vis₂ P) :
    ∀ (as : List (List Mod)), Mod.AllA (SimLeafV K bad P) (fun _ => True) as → ∀ c, P c →
      Sim K bad (unionValidate c (denA env₁ vis₁ as)) (unionValidate c (denA env₂ vis₂ as))
  | [], _, c, _ => Sim.raise (hs.hv _)
  | a :: as, hl, c, hp => by
    simp only [denA, unionValidate]
    exact Sim.catchV (sim_den_chain hs a hl.1 c hp) (fun _ => sim_den_union hs as hl.2 c hp)
end
end

end JC
