import Verif.Props.ValidateSim

/-
Relational lemmas for the `tojson` family of functions: two runs that agree on outcomes.
Used for C28 (non-interference), C29 (termination) and C52 (tojson is read-only).
-/
namespace JC

variable {K : World → World → Prop} {bad : Exc → Prop}

mutual
/-- Conditions on a modifier for `tojson`: effect free modifiers satisfy `pj`; those inside
unions, which `tojson` also validates, satisfy `pv` too; instances occur only if `qj`
holds, and inside unions only if `qv` holds too. -/
def Mod.Shown (pj pv : Leaf → Prop) (qj qv : Prop) : Mod → Prop
  | .eager => True
  | .pre => True
  | .leaf l => pj l
  | .listOf _ _ item => Mod.ShownL pj pv qj qv item
  | .dictOf _ item => Mod.ShownL pj pv qj qv item
  | .instOf _ _ => qj
  | .union alts => Mod.ShownA pj pv qj qv alts ∧ Mod.AllA pv (fun _ => qv) alts
/-- every modifier of a chain satisfies `Mod.Shown` -/
def Mod.ShownL (pj pv : Leaf → Prop) (qj qv : Prop) : List Mod → Prop
  | [] => True
  | m :: ms => Mod.Shown pj pv qj qv m ∧ Mod.ShownL pj pv qj qv ms
/-- every modifier of every alternative satisfies `Mod.Shown` -/
def Mod.ShownA (pj pv : Leaf → Prop) (qj qv : Prop) : List (List Mod) → Prop
  | [] => True
  | a :: as => Mod.ShownL pj pv qj qv a ∧ Mod.ShownA pj pv qj qv as
end

mutual
theorem Mod.Shown.mono {pj pj' pv pv' : Leaf → Prop} {qj qj' qv qv' : Prop} (hj : ∀ l, pj l → pj' l)
    (hv : ∀ l, pv l → pv' l) (hqj : qj → qj') (hqv : qv → qv') :
    ∀ (m : Mod), m.Shown pj pv qj qv → m.Shown pj' pv' qj' qv'
  | .eager, _ => trivial
  | .pre, _ => trivial
  | .leaf l, h => hj l h
  | .listOf _ _ item, h => Mod.ShownL.mono hj hv hqj hqv item h
  | .dictOf _ item, h => Mod.ShownL.mono hj hv hqj hqv item h
  | .instOf _ _, h => hqj h
  | .union alts, h => ⟨Mod.ShownA.mono hj hv hqj hqv alts h.1, Mod.AllA.mono hv (fun _ => hqv) alts h.2⟩
theorem Mod.ShownL.mono {pj pj' pv pv' : Leaf → Prop} {qj qj' qv qv' : Prop} (hj : ∀ l, pj l → pj' l)
    (hv : ∀ l, pv l → pv' l) (hqj : qj → qj') (hqv : qv → qv') :
    ∀ (ms : List Mod), Mod.ShownL pj pv qj qv ms → Mod.ShownL pj' pv' qj' qv' ms
  | [], _ => trivial
  | m :: ms, h => ⟨Mod.Shown.mono hj hv hqj hqv m h.1, Mod.ShownL.mono hj hv hqj hqv ms h.2⟩
theorem Mod.ShownA.mono {pj pj' pv pv' : Leaf → Prop} {qj qj' qv qv' : Prop} (hj : ∀ l, pj l → pj' l)
    (hv : ∀ l, pv l → pv' l) (hqj : qj → qj') (hqv : qv → qv') :
    ∀ (as : List (List Mod)), Mod.ShownA pj pv qj qv as → Mod.ShownA pj' pv' qj' qv' as
  | [], _ => trivial
  | a :: as, h => ⟨Mod.ShownL.mono hj hv hqj hqv a h.1, Mod.ShownA.mono hj hv hqj hqv as h.2⟩
end

mutual
theorem Mod.shown_of_forall {pj pv : Leaf → Prop} (hj : ∀ l, pj l) (hv : ∀ l, pv l) :
    ∀ (m : Mod), m.Shown pj pv True True
  | .eager => trivial
  | .pre => trivial
  | .leaf l => hj l
  | .listOf _ _ item => Mod.shownL_of_forall hj hv item
  | .dictOf _ item => Mod.shownL_of_forall hj hv item
  | .instOf _ _ => trivial
  | .union alts => ⟨Mod.shownA_of_forall hj hv alts, Mod.allA_of_forall hv alts⟩
theorem Mod.shownL_of_forall {pj pv : Leaf → Prop} (hj : ∀ l, pj l) (hv : ∀ l, pv l) :
    ∀ (ms : List Mod), Mod.ShownL pj pv True True ms
  | [] => trivial
  | m :: ms => ⟨Mod.shown_of_forall hj hv m, Mod.shownL_of_forall hj hv ms⟩
theorem Mod.shownA_of_forall {pj pv : Leaf → Prop} (hj : ∀ l, pj l) (hv : ∀ l, pv l) :
    ∀ (as : List (List Mod)), Mod.ShownA pj pv True True as
  | [] => trivial
  | a :: as => ⟨Mod.shownL_of_forall hj hv a, Mod.shownA_of_forall hj hv as⟩
end

mutual
/-- A modifier that contains no instance does not depend on how instances are handled. -/
theorem denJ_noInst {env : Env} {p : Leaf → Prop} (vis vis' : Visitor) :
    ∀ (m : Mod), m.All p (fun _ => False) → m.den env vis = m.den env vis'
  | .eager, _ => rfl
  | .pre, _ => rfl
  | .leaf _, _ => rfl
  | .listOf _ _ item, h => by simp only [Mod.den, denJL_noInst vis vis' item h]
  | .dictOf _ item, h => by simp only [Mod.den, denJL_noInst vis vis' item h]
  | .instOf _ _, h => h.elim
  | .union alts, h => by simp only [Mod.den, denJA_noInst vis vis' alts h]
theorem denJL_noInst {env : Env} {p : Leaf → Prop} (vis vis' : Visitor) :
    ∀ (ms : List Mod), Mod.AllL p (fun _ => False) ms → denL env vis ms = denL env vis' ms
  | [], _ => rfl
  | m :: ms, h => by simp only [denL, denJ_noInst vis vis' m h.1, denJL_noInst vis vis' ms h.2]
theorem denJA_noInst {env : Env} {p : Leaf → Prop} (vis vis' : Visitor) :
    ∀ (as : List (List Mod)), Mod.AllA p (fun _ => False) as → denA env vis as = denA env vis' as
  | [], _ => rfl
  | a :: as, h => by simp only [denA, denJL_noInst vis vis' a h.1, denJA_noInst vis vis' as h.2]
end

/-- What the two runs must share for `tojson`. -/
structure SimTojson (K : World → World → Prop) (bad : Exc → Prop) (env : Env)
    (vis₁ vis₂ : Visitor) (P : Ctx → Prop) (qj qv : Prop) : Prop where
  hv : ∀ msgs, ¬ bad (.validation msgs)
  ha : ¬ bad .attributeError
  nval : ∀ c v, P c → P (c.nval v)
  col : ∀ c v k, P c → P (c.colval v k)
  alter : ∀ c, P c → P c.alterfdef
  owner : ∀ w₁ w₂ o, K w₁ w₂ → (w₁.cdef env o).validateAllFields = (w₂.cdef env o).validateAllFields
  vis : qj → ∀ cls st c, P c → Sim K bad ((vis₁ cls st).tojson c) ((vis₂ cls st).tojson c)
  noMarks : qv → NoMarks vis₁ ∧ NoMarks vis₂
  visV : qv → ∀ cls st c, P c → Sim K bad ((vis₁ cls st).validate c) ((vis₂ cls st).validate c)

/-- The leaf's `tojson` runs alike in related states. -/
def SimLeafJ (K : World → World → Prop) (bad : Exc → Prop) (P : Ctx → Prop) (l : Leaf) : Prop :=
  ∀ c w₁ w₂, P c → K w₁ w₂ → l.tojson w₁.heap c = l.tojson w₂.heap c ∧
    ∀ e, l.tojson w₁.heap c = .error e → ¬ bad e

section
variable {env : Env} {vis₁ vis₂ : Visitor} {P : Ctx → Prop} {qj qv : Prop}

theorem sim_alt_validate (hs : SimTojson K bad env vis₁ vis₂ P qj qv) (a : List Mod)
    (h : Mod.AllL (SimLeafV K bad P) (fun _ => qv) a) (c : Ctx) (hp : P c) :
    Sim K bad (chainValidate (denL env vis₁ a) c) (chainValidate (denL env vis₂ a) c) := by
  by_cases hq : qv
  · have hsv : SimValidate K bad env env vis₁ vis₂ P :=
      { hv := hs.hv, ha := hs.ha, noMarks₁ := (hs.noMarks hq).1, noMarks₂ := (hs.noMarks hq).2
        col := fun c v k hp _ => hs.col c v k hp, alter := hs.alter, owner := hs.owner
        vis := hs.visV hq }
    exact sim_den_chain hsv a (Mod.AllL.mono (fun _ h => h) (fun _ _ => trivial) a h) c hp
  · have h' : Mod.AllL (SimLeafV K bad P) (fun _ => False) a :=
      Mod.AllL.mono (fun _ h => h) (fun _ h => hq h) a h
    let vis : Visitor := fun _ _ => {}
    have hsv : SimValidate K bad env env vis vis P :=
      { hv := hs.hv, ha := hs.ha, noMarks₁ := fun _ _ => ⟨rfl, rfl⟩, noMarks₂ := fun _ _ => ⟨rfl, rfl⟩
        col := fun c v k hp _ => hs.col c v k hp, alter := hs.alter, owner := hs.owner
        vis := fun _ _ _ _ => Sim.pure () }
    rw [denJL_noInst vis₁ vis a h', denJL_noInst vis₂ vis a h']
    exact sim_den_chain hsv a (Mod.AllL.mono (fun _ h => h) (fun _ _ => trivial) a h) c hp

theorem sim_colMapJson {sp₁ sp₂ : Special} {c : Ctx} {f₁ f₂ : Ctx → Py World Val}
    (ha : ¬ bad .attributeError) (h : ∀ v k, Sim K bad (f₁ (c.colval v k)) (f₂ (c.colval v k)))
    (es : List (Key × Val)) :
    Sim K bad (colMapLoop (colEnv env sp₁) false f₁ c es) (colMapLoop (colEnv env sp₂) false f₂ c es) := by
  induction es with
  | nil => exact Sim.pure []
  | cons e es ih =>
    obtain ⟨k, v⟩ := e
    simp only [colMapLoop, Bool.false_eq_true, if_false]
    refine Sim.bind (h v k) (fun a => Sim.bind ?_ (fun _ => Sim.bind ih (fun _ => Sim.pure _)))
    simp only [colEnv]
    cases c.owner with
    | none => exact Sim.raise ha
    | some o => exact Sim.pure ()

mutual
theorem sim_den_tojson (hs : SimTojson K bad env vis₁ vis₂ P qj qv) :
    ∀ (m : Mod), m.Shown (SimLeafJ K bad P) (SimLeafV K bad P) qj qv → ∀ c, P c →
      Sim K bad ((m.den env vis₁).tojson c) ((m.den env vis₂).tojson c)
  | .eager, _, c, _ => Sim.pure _
  | .pre, _, c, _ => Sim.pure _
  | .leaf l, hl, c, hp => by
    simp only [Mod.den, leafOps]
    exact Sim.read (fun w₁ w₂ hk => hl c w₁ w₂ hp hk)
  | .listOf nn sp item, hl, c, hp => by
    simp only [Mod.den, listOps]
    split
    · exact Sim.pure _
    · exact Sim.bind (sim_colMapJson hs.ha
        (fun v k => sim_chainTojson hs item hl _ (hs.col c v k hp)) _) (fun _ => Sim.pure _)
    · exact Sim.pure _
  | .dictOf nn item, hl, c, hp => by
    simp only [Mod.den, dictOps]
    split
    · exact Sim.pure _
    · exact Sim.bind (sim_colMapJson hs.ha
        (fun v k => sim_chainTojson hs item hl _ (hs.col c v k hp)) _) (fun _ => Sim.pure _)
    · exact Sim.pure _
  | .instOf cls st, hq, c, hp => by
    simp only [Mod.den]
    exact hs.vis hq cls st c hp
  | .union alts, hl, c, hp => by
    simp only [Mod.den, unionOps]
    split
    · exact Sim.pure _
    · exact sim_unionTojson hs alts hl.1 hl.2 _ (hs.alter c hp)
theorem sim_chainTojson (hs : SimTojson K bad env vis₁ vis₂ P qj qv) :
    ∀ (ms : List Mod), Mod.ShownL (SimLeafJ K bad P) (SimLeafV K bad P) qj qv ms → ∀ c, P c →
      Sim K bad (chainTojson (denL env vis₁ ms) c) (chainTojson (denL env vis₂ ms) c)
  | ms, hl, c, hp => sim_reduceTojson hs ms hl c hp c.val
theorem sim_reduceTojson (hs : SimTojson K bad env vis₁ vis₂ P qj qv) :
    ∀ (ms : List Mod), Mod.ShownL (SimLeafJ K bad P) (SimLeafV K bad P) qj qv ms → ∀ c, P c → ∀ v,
      Sim K bad (reduceM (fun m v => m.tojson (c.nval v)) (denL env vis₁ ms) v)
        (reduceM (fun m v => m.tojson (c.nval v)) (denL env vis₂ ms) v)
  | [], _, _, _, v => Sim.pure v
  | m :: ms, hl, c, hp, v => by
    simp only [denL, reduceM]
    exact Sim.bind (sim_den_tojson hs m hl.1 _ (hs.nval c v hp))
      (fun v' => sim_reduceTojson hs ms hl.2 c hp v')
theorem sim_unionTojson (hs : SimTojson K bad env vis₁ vis₂ P qj qv) :
    ∀ (as : List (List Mod)), Mod.ShownA (SimLeafJ K bad P) (SimLeafV K bad P) qj qv as →
      Mod.AllA (SimLeafV K bad P) (fun _ => qv) as → ∀ c, P c →
      Sim K bad (unionConv (·.tojson) c (denA env vis₁ as)) (unionConv (·.tojson) c (denA env vis₂ as))
  | [], _, _, _, _ => Sim.pure _
  | a :: as, hl, hl', c, hp => by
    simp only [denA, unionConv]
    exact Sim.catchV (Sim.bind (sim_alt_validate hs a hl'.1 c hp)
      (fun _ => sim_chainTojson hs a hl.1 c hp)) (fun _ => sim_unionTojson hs as hl.2 hl'.2 c hp)
end

/-! ### The field loop -/

/-- The context in which a field's value is converted. -/
def jsonCtx (c : Ctx) (f : Field) (v : Val) (ek clsKey clsName : String) : Ctx :=
  if f.ftype = .inst then c.nextoc v f.name ek (clsKey, f.name) clsName
  else c.nextvc v f.name ek (clsKey, f.name) clsName

theorem sim_jsonFields {ops₁ ops₂ : Field → Ops World} {c : Ctx} {i : Nat} {on nk : Bool}
    (ha : ¬ bad .attributeError)
    (hcls : ∀ w₁ w₂, K w₁ w₂ → ∀ j, (w₁.heap j).cls = (w₂.heap j).cls)
    (hpick : ∀ w₁ w₂, K w₁ w₂ → (w₁.heap i).picks = (w₂.heap i).picks) {fs : List Field}
    (hkey : ∀ f ∈ fs, f.store = .localKey → ∀ w₁ w₂, K w₁ w₂ →
      w₁.attr i f.refName = w₂.attr i f.refName)
    (hget : ∀ f ∈ fs, ∀ w₁ w₂, K w₁ w₂ →
      GetAgree env bad (skipJson env c (w₁.heap i) nk f) w₁ w₂ i f.name)
    (hops : ∀ f ∈ fs, ∀ w₁ w₂, K w₁ w₂ → skipJson env c (w₁.heap i) nk f = false → ∀ v ek,
      Sim K bad ((ops₁ f).tojson (jsonCtx c f v ek (w₁.heap i).cls (w₁.cdef env i).name))
        ((ops₂ f).tojson (jsonCtx c f v ek (w₁.heap i).cls (w₁.cdef env i).name))) (acc) :
    Sim K bad (jsonFields env ops₁ c i on nk fs acc) (jsonFields env ops₂ c i on nk fs acc) := by
  induction fs generalizing acc with
  | nil => exact Sim.pure acc
  | cons f fs ih =>
    have ih := fun acc => ih (fun m' hm' => hkey m' (by simp [hm']))
      (fun m' hm' => hget m' (by simp [hm'])) (fun m' hm' => hops m' (by simp [hm'])) acc
    intro w₁ w₂ hk
    have hnp : notPicked (w₂.heap i) f = notPicked (w₁.heap i) f := by
      simp only [notPicked, hpick w₁ w₂ hk]
    have hsk : skipJson env c (w₂.heap i) nk f = skipJson env c (w₁.heap i) nk f := by
      simp only [skipJson, hnp]
    have hke : keyEntry w₂ i on f acc = keyEntry w₁ i on f acc := by
      by_cases hs : f.store = .localKey
      · simp only [keyEntry, hkey f (by simp) hs w₁ w₂ hk]
      · simp [keyEntry, hs]
    have hcd : ∀ j, w₂.cdef env j = w₁.cdef env j := fun j => by
      simp only [World.cdef, hcls w₁ w₂ hk j]
    have hek : c.ekey env w₂ f.name = c.ekey env w₁ f.name := by
      simp only [Ctx.ekey, hcd]
    have main : ∀ v₁ v₂, w₁.getattr env i f.name = .ok v₁ → w₂.getattr env i f.name = .ok v₂ →
        (v₁ = v₂ ∨ skipJson env c (w₁.heap i) nk f = true) →
        (jsonFields env ops₁ c i on nk (f :: fs) acc w₁).1 =
            (jsonFields env ops₂ c i on nk (f :: fs) acc w₂).1 ∧
          (∀ e, (jsonFields env ops₁ c i on nk (f :: fs) acc w₁).1 = .error e → ¬ bad e) ∧
          K (jsonFields env ops₁ c i on nk (f :: fs) acc w₁).2
            (jsonFields env ops₂ c i on nk (f :: fs) acc w₂).2 := by
      intro v₁ v₂ h1 h2 hor
      simp only [jsonFields, h1, h2, hnp, hke, hsk, hek]
      by_cases hn : (f.store = .localKey && notPicked (w₁.heap i) f) = true
      · rw [if_pos hn, if_pos hn]; exact ih acc w₁ w₂ hk
      · rw [if_neg hn, if_neg hn]
        by_cases hs : skipJson env c (w₁.heap i) nk f = true
        · rw [if_pos hs, if_pos hs]; exact ih _ w₁ w₂ hk
        · rw [if_neg hs, if_neg hs]
          obtain rfl : v₁ = v₂ := hor.resolve_right hs
          have hs' : skipJson env c (w₁.heap i) nk f = false := by simpa using hs
          rcases he : c.ekey env w₁ f.name with e | ek
          · refine ⟨rfl, ?_, hk⟩
            intro e' h'
            cases h'
            simp only [Ctx.ekey] at he
            split at he
            · cases he
            · cases he; exact ha
          · simp only
            have h' := hops f (by simp) w₁ w₂ hk hs' v₁ ek w₁ w₂ hk
            simp only [jsonCtx] at h'
            simp only [hcd, ← hcls w₁ w₂ hk i]
            rcases e1 : (ops₁ f).tojson (if f.ftype = .inst then
                c.nextoc v₁ f.name ek ((w₁.heap i).cls, f.name) (w₁.cdef env i).name
              else c.nextvc v₁ f.name ek ((w₁.heap i).cls, f.name) (w₁.cdef env i).name) w₁
              with ⟨r₁, w₁'⟩
            rcases e2 : (ops₂ f).tojson (if f.ftype = .inst then
                c.nextoc v₁ f.name ek ((w₁.heap i).cls, f.name) (w₁.cdef env i).name
              else c.nextvc v₁ f.name ek ((w₁.heap i).cls, f.name) (w₁.cdef env i).name) w₂
              with ⟨r₂, w₂'⟩
            rw [e1, e2] at h'
            obtain ⟨heq, hb, hk'⟩ := h'
            simp only at heq hb hk'
            subst heq
            cases r₁ with
            | error e => exact ⟨rfl, fun e' he' => hb e' (by simpa using he'), hk'⟩
            | ok r => exact ih _ w₁' w₂' hk'
    rcases hget f (by simp) w₁ w₂ hk with ⟨v, h1, h2⟩ | ⟨e, h1, h2, hb⟩ | ⟨hs, v₁, v₂, h1, h2⟩
    · exact main v v h1 h2 (.inl rfl)
    · simp only [jsonFields, h1, h2]
      exact ⟨trivial, (by intro e' he'; cases he'; exact hb), hk⟩
    · exact main v₁ v₂ h1 h2 (.inr hs)

/-- `InstanceOfModifier.tojson` in related states. -/
theorem sim_instTojson {ops₁ ops₂ : Field → Ops World} {c : Ctx} (ha : ¬ bad .attributeError)
    (hcls : ∀ w₁ w₂, K w₁ w₂ → ∀ j, (w₁.heap j).cls = (w₂.heap j).cls)
    (hpick : ∀ w₁ w₂ i, c.val = .obj i → K w₁ w₂ → (w₁.heap i).picks = (w₂.heap i).picks)
    (hfields : ∀ i, c.val = .obj i → ∀ u₁ u₂, K u₁ u₂ → ∀ f ∈ (u₁.cdef env i).fields,
      (f.store = .localKey → ∀ w₁ w₂, K w₁ w₂ → w₁.attr i f.refName = w₂.attr i f.refName) ∧
      (∀ w₁ w₂, K w₁ w₂ →
        GetAgree env bad (skipJson env c (w₁.heap i) (c.idchain.contains (u₁.cdef env i).name) f)
          w₁ w₂ i f.name) ∧
      (∀ w₁ w₂, K w₁ w₂ →
        skipJson env c (w₁.heap i) (c.idchain.contains (u₁.cdef env i).name) f = false → ∀ v ek,
        Sim K bad ((ops₁ f).tojson (jsonCtx c f v ek (w₁.heap i).cls (w₁.cdef env i).name))
          ((ops₂ f).tojson (jsonCtx c f v ek (w₁.heap i).cls (w₁.cdef env i).name)))) :
    Sim K bad (instTojson env ops₁ c) (instTojson env ops₂ c) := by
  unfold instTojson
  cases hv : c.val with
  | none => exact Sim.pure _
  | obj i =>
    intro u₁ u₂ hk
    have hcd : u₂.cdef env i = u₁.cdef env i := by simp only [World.cdef, hcls u₁ u₂ hk i]
    have hs : Sim K bad
        (jsonFields env ops₁ c i (c.cfg.outputNull.getD (u₁.cdef env i).outputNull)
          (c.idchain.contains (u₁.cdef env i).name) (u₁.cdef env i).fields [])
        (jsonFields env ops₂ c i (c.cfg.outputNull.getD (u₁.cdef env i).outputNull)
          (c.idchain.contains (u₁.cdef env i).name) (u₁.cdef env i).fields []) :=
      sim_jsonFields ha hcls (fun w₁ w₂ h => hpick w₁ w₂ i hv h)
        (fun f hf => (hfields i hv u₁ u₂ hk f hf).1) (fun f hf => (hfields i hv u₁ u₂ hk f hf).2.1)
        (fun f hf => (hfields i hv u₁ u₂ hk f hf).2.2) []
    have hs' := Sim.bind hs (fun kvs => Sim.pure (K := K) (bad := bad) (Val.dict kvs)) u₁ u₂ hk
    simp only [Py.bind_run, Py.get, hcd]
    simpa only [Py.bind_run] using hs'
  | _ => exact Sim.raise ha
end

end JC
