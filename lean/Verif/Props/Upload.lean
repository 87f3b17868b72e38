import Verif.Model.Upload
import Verif.Props.UConf
import Verif.Props.DateTime

/-
C82: where uploaded files go.
-/
namespace JC

variable {E : UploadEnv} {conf : Val}

/-! ### Specification -/

/-- What is used of `uuid4` and `str.lower`: the texts have 32 characters without slashes, lowering a text
makes no slashes. -/
structure UploadEnv.Usual (E : UploadEnv) : Prop where
  size : ∀ n, (E.uuid n).length = 32
  plain : ∀ n, '/' ∉ E.uuid n
  lower : ∀ cs, '/' ∉ cs → '/' ∉ E.lower cs

/-- The first `N` texts of `uuid4` are different. -/
def UploadEnv.Distinct (E : UploadEnv) (N : Nat) : Prop := ∀ n m, n < N → m < N → E.uuid n = E.uuid m → n = m

/-- The name of a file, no path and no way up. -/
def PlainName (nm : List Char) : Prop := nm ≠ [] ∧ '/' ∉ nm ∧ nm ≠ ['.'] ∧ nm ≠ ['.', '.']

/-- `config.json` has a local uploader of that name for the directory `dir`. -/
def LocalDir (conf : Val) (name : String) (dir : String) : Prop :=
  ∃ u, makeUploader conf name 0 = .ok u ∧ u.engine = .localfs ∧ u.config.item "dir" = .ok (.plain (.str dir))

/-- The directory `public/dir`. -/
def UploadEnv.dest (E : UploadEnv) (dir : String) : FPath := joinPath (E.cwd ++ ["public".toList]) dir.toList

/-- Successive uploads, whatever they return or raise. -/
def uploads (E : UploadEnv) (conf : Val) : List (UploadArg × Ctx) → Disk → Disk
  | [], s => s
  | (a, c) :: r, s => uploads E conf r (uploadTransform E conf a c s).2

/-- The state of a new process: no uploader was used yet. -/
def Disk.New (s : Disk) : Prop := s.cache = [] ∧ s.clients = []

/-- No file on the disk has a name that starts with one of the first `N` texts of `uuid4` that are still to come. -/
def Disk.Unused (E : UploadEnv) (N : Nat) (s : Disk) : Prop :=
  ∀ p, s.files p ≠ none → ∀ d nm, p = d ++ [nm] → ∀ n, s.uuids ≤ n → n < N → ¬ E.uuid n <+: nm

/-! ### Names -/

theorem splitSlash_ne (cs : List Char) : splitSlash cs ≠ [] := by
  cases cs with
  | nil => simp [splitSlash]
  | cons c r =>
    unfold splitSlash
    split
    · simp
    · split <;> simp

theorem splitSlash_cons {c : Char} {r : List Char} (h : c ≠ '/') : ∃ p ps, splitSlash r = p :: ps ∧ splitSlash (c :: r) = (c :: p) :: ps := by
  cases hr : splitSlash r with
  | nil => exact absurd hr (splitSlash_ne r)
  | cons p ps => exact ⟨p, ps, rfl, by rw [splitSlash, if_neg h, hr]⟩

theorem splitSlash_plain {cs : List Char} (h : '/' ∉ cs) : splitSlash cs = [cs] := by
  induction cs with
  | nil => rfl
  | cons c r ih =>
    simp only [List.mem_cons, not_or] at h
    obtain ⟨p, ps, h1, h2⟩ := splitSlash_cons (r := r) (Ne.symm h.1)
    rw [ih h.2] at h1
    cases h1
    exact h2

theorem splitSlash_mem (cs : List Char) : ∀ p ∈ splitSlash cs, '/' ∉ p := by
  induction cs with
  | nil => intro p hp; simp [splitSlash] at hp; simp [hp]
  | cons c r ih =>
    intro p hp
    by_cases hc : c = '/'
    · rw [splitSlash, if_pos hc] at hp
      rcases List.mem_cons.1 hp with rfl | hp
      · simp
      · exact ih p hp
    · obtain ⟨q, qs, h1, h2⟩ := splitSlash_cons (r := r) hc
      rw [h1] at ih
      rw [h2] at hp
      rcases List.mem_cons.1 hp with rfl | hp
      · have := ih q (by simp)
        simp only [List.mem_cons, not_or]
        exact ⟨Ne.symm hc, this⟩
      · exact ih p (by simp [hp])

theorem splitSlash_slash (a b : List Char) : splitSlash (a ++ '/' :: b) = splitSlash a ++ splitSlash b := by
  induction a with
  | nil => simp [splitSlash]
  | cons c r ih =>
    by_cases hc : c = '/'
    · rw [List.cons_append, splitSlash, if_pos hc, splitSlash, if_pos hc, ih]; rfl
    · obtain ⟨p, ps, h1, h2⟩ := splitSlash_cons (r := r) hc
      obtain ⟨q, qs, h3, h4⟩ := splitSlash_cons (r := r ++ '/' :: b) hc
      rw [List.cons_append, h4, h2]
      rw [ih, h1, List.cons_append] at h3
      cases h3
      rfl

theorem fileName_plain (cs : List Char) : '/' ∉ fileName cs := by
  unfold fileName
  cases h : (pathParts cs).getLast? with
  | none => simp
  | some p =>
    have := List.mem_of_getLast? h
    unfold pathParts at this
    exact splitSlash_mem cs p (List.mem_filter.1 this).1

theorem fileName_last {pre nm : List Char} (hp : pre = [] ∨ ∃ q, pre = q ++ ['/']) (hn : '/' ∉ nm) (h1 : nm ≠ []) (h2 : nm ≠ ['.']) :
    fileName (pre ++ nm) = nm := by
  have hb : (nm != [] && nm != ['.']) = true := by simp [h1, h2]
  unfold fileName pathParts
  rcases hp with rfl | ⟨q, rfl⟩
  · rw [List.nil_append, splitSlash_plain hn]
    simp [h1, h2]
  · rw [List.append_assoc, List.singleton_append, splitSlash_slash, splitSlash_plain hn, List.filter_append]
    simp [h1, h2]

theorem suffixOf_mem {nm : List Char} {c : Char} (h : c ∈ suffixOf nm) : c ∈ nm ∨ c = '.' := by
  unfold suffixOf at h
  split at h
  · rcases List.mem_cons.1 h with rfl | h
    · exact .inr rfl
    · exact .inl (List.mem_reverse.1 ((List.takeWhile_prefix _).subset (List.mem_reverse.1 h)))
  · cases h

theorem suffixOf_dot {stem ext : List Char} (hs : stem ≠ []) (he : ext ≠ []) (hd : '.' ∉ ext) : suffixOf (stem ++ '.' :: ext) = '.' :: ext := by
  have h1 : (stem ++ '.' :: ext).reverse.takeWhile (· != '.') = ext.reverse := by
    rw [List.reverse_append, List.reverse_cons, List.append_assoc, List.takeWhile_append_of_pos]
    · simp
    · intro c hc
      simp only [bne_iff_ne, ne_eq]
      rintro rfl
      exact hd (List.mem_reverse.1 hc)
  unfold suffixOf
  rw [h1, if_pos, List.reverse_reverse]
  constructor
  · have := List.length_pos_iff.2 hs
    simp only [List.length_reverse, List.length_append, List.length_cons]
    omega
  · simpa using he

theorem suffixOf_none {nm : List Char} (hd : '.' ∉ nm) : suffixOf nm = [] := by
  have h1 : nm.reverse.takeWhile (· != '.') = nm.reverse := by
    have := List.takeWhile_append_of_pos (p := (· != '.')) (l₁ := nm.reverse) (l₂ := []) (fun c hc => by
      simp only [bne_iff_ne, ne_eq]
      rintro rfl
      exact hd (List.mem_reverse.1 hc))
    simpa using this
  unfold suffixOf
  rw [h1, if_neg]
  rintro ⟨h, -⟩
  rw [List.length_reverse] at h
  omega

/-- **C82**. The extension that is kept is what follows the last dot of the last component of the client's file
name, whatever comes before. -/
theorem extension_kept {pre stem ext : List Char} (hp : pre = [] ∨ ∃ q, pre = q ++ ['/']) (hs : stem ≠ []) (hs' : '/' ∉ stem)
    (he : ext ≠ []) (hd : '.' ∉ ext) (he' : '/' ∉ ext) : suffixOf (fileName (pre ++ (stem ++ '.' :: ext))) = '.' :: ext := by
  rw [fileName_last hp (by simp [hs', he']) (by simp)]
  · exact suffixOf_dot hs he hd
  · intro h
    have := congrArg List.length h
    have := List.length_pos_iff.2 hs
    have := List.length_pos_iff.2 he
    simp at *
    omega

/-- **C82**. Names without a dot, `..` and names that only start with a dot have no extension. -/
theorem no_extension {pre nm : List Char} (hp : pre = [] ∨ ∃ q, pre = q ++ ['/']) (hn : '/' ∉ nm) (h1 : nm ≠ []) (hd : '.' ∉ nm) :
    suffixOf (fileName (pre ++ nm)) = [] ∧ suffixOf (fileName (pre ++ '.' :: nm)) = [] ∧ suffixOf (fileName (pre ++ ['.', '.'])) = [] := by
  refine ⟨?_, ?_, ?_⟩
  · rw [fileName_last hp hn h1 (by rintro rfl; simp at hd)]
    exact suffixOf_none hd
  · rw [fileName_last hp (by simp [hn]) (by simp) (by simpa using h1)]
    have h2 : (('.' :: nm).reverse).takeWhile (· != '.') = nm.reverse := by
      rw [List.reverse_cons, List.takeWhile_append_of_pos]
      · simp
      · intro c hc
        simp only [bne_iff_ne, ne_eq]
        rintro rfl
        exact hd (List.mem_reverse.1 hc)
    unfold suffixOf
    rw [h2, if_neg]
    simp
  · rw [fileName_last hp (by simp) (by simp) (by simp)]
    decide

theorem plainName_unique (hE : E.Usual) (n : Nat) (f : List Char) : PlainName (E.uuid n ++ E.lower (suffixOf (fileName f))) := by
  have hl := hE.size n
  have h0 : ∀ k, k < 32 → ∀ l : List Char, l.length = k → E.uuid n ++ E.lower (suffixOf (fileName f)) ≠ l := by
    intro k hk l hl' he
    have := congrArg List.length he
    rw [List.length_append] at this
    omega
  refine ⟨h0 0 (by decide) _ rfl, ?_, h0 1 (by decide) _ rfl, h0 2 (by decide) _ rfl⟩
  rw [List.mem_append, not_or]
  refine ⟨hE.plain n, hE.lower _ fun h => ?_⟩
  rcases suffixOf_mem h with h | h
  · exact fileName_plain f h
  · cases h

/-! ### The state -/

/-- the client was made from the configuration of the uploader -/
def ClientOf (E : UploadEnv) (u : Uploader) (c : LocalClient) : Prop :=
  ∃ d, u.config.item "dir" = .ok (.plain (.str d)) ∧ c.dir = d.toList ∧ u.config.item "url" = .ok c.url ∧ c.dest = E.dest d

structure Disk.Good (E : UploadEnv) (conf : Val) (s : Disk) : Prop where
  cache : CacheOk conf s.cache
  clients : ∀ p ∈ s.clients, ∃ n u, dictGet s.cache n = some u ∧ u.uid = p.1 ∧ ClientOf E u p.2

theorem Disk.New.good {s : Disk} (h : s.New) : s.Good E conf := by
  refine ⟨?_, fun p hp => ?_⟩
  · rw [h.1]; exact ⟨fun _ _ h => (by cases h), fun _ _ h => (by cases h), fun _ _ _ _ h => (by cases h)⟩
  · rw [h.2] at hp; cases hp

/-- all but the directories and the clients is the same -/
def Disk.SameFiles (s s' : Disk) : Prop := s'.files = s.files ∧ s'.uuids = s.uuids ∧ s'.cache = s.cache ∧ s'.s3 = s.s3

theorem makeDir_spec (dest : FPath) (s : Disk) : s.SameFiles (makeDir E dest s).2 ∧ (makeDir E dest s).2.clients = s.clients := by
  unfold makeDir
  split
  · exact ⟨⟨rfl, rfl, rfl, rfl⟩, rfl⟩
  · split
    · exact ⟨⟨rfl, rfl, rfl, rfl⟩, rfl⟩
    · split <;> exact ⟨⟨rfl, rfl, rfl, rfl⟩, rfl⟩

theorem localClient_spec {s : Disk} {n : String} {u : Uploader} (h : s.Good E conf) (hu : dictGet s.cache n = some u) :
    (localClient E u s).2.Good E conf ∧ s.SameFiles (localClient E u s).2 ∧ ∀ c, (localClient E u s).1 = .ok c → ClientOf E u c := by
  unfold localClient
  cases hf : s.clients.find? (fun p => p.1 = u.uid) with
  | some p =>
    refine ⟨h, ⟨rfl, rfl, rfl, rfl⟩, fun c hc => ?_⟩
    cases hc
    obtain ⟨m, v, h1, h2, h3⟩ := h.clients p (List.mem_of_find?_eq_some hf)
    have h4 : p.1 = u.uid := by simpa using List.find?_some hf
    have h5 := h.cache.distinct n m u v hu h1 (by rw [h2, h4])
    rw [h5, h1] at hu
    cases hu
    exact h3
  | none =>
    simp only [Py.bind_run, Py.ofExcept]
    cases hd : u.config.item "dir" with
    | error e => exact ⟨h, ⟨rfl, rfl, rfl, rfl⟩, fun c hc => by cases hc⟩
    | ok d =>
      simp only []
      cases hr : u.config.item "url" with
      | error e => exact ⟨h, ⟨rfl, rfl, rfl, rfl⟩, fun c hc => by cases hc⟩
      | ok url =>
        simp only []
        cases hx : dirText d with
        | error e => exact ⟨h, ⟨rfl, rfl, rfl, rfl⟩, fun c hc => by cases hc⟩
        | ok dir =>
          simp only []
          obtain ⟨t, ht, hdir⟩ : ∃ t, d = .plain (.str t) ∧ dir = t.toList := by
            unfold dirText at hx
            split at hx
            · cases hx; exact ⟨_, rfl, rfl⟩
            · cases hx
          have hc : ClientOf E u { dir := dir, url := url, dest := joinPath (E.cwd ++ ["public".toList]) dir } :=
            ⟨t, by rw [hd, ht], hdir, hr, by rw [hdir]; rfl⟩
          obtain ⟨⟨m1, m2, m3, m4⟩, m5⟩ := makeDir_spec (E := E) (joinPath (E.cwd ++ ["public".toList]) dir) s
          cases hm : makeDir E (joinPath (E.cwd ++ ["public".toList]) dir) s with
          | mk r s' =>
            rw [hm] at m1 m2 m3 m4 m5
            cases r with
            | error e => exact ⟨⟨m3 ▸ h.cache, by rw [m5, m3]; exact h.clients⟩, ⟨m1, m2, m3, m4⟩, fun c hc => by cases hc⟩
            | ok _ =>
              refine ⟨⟨?_, ?_⟩, ⟨m1, m2, m3, m4⟩, fun c hc' => by cases hc'; exact hc⟩
              · show CacheOk conf s'.cache
                rw [m3]; exact h.cache
              · intro p hp
                rcases List.mem_cons.1 hp with rfl | hp
                · exact ⟨n, u, (by show dictGet s'.cache n = some u; rw [m3]; exact hu), rfl, hc⟩
                · rw [m5] at hp
                  obtain ⟨m, v, h1, h2⟩ := h.clients p hp
                  exact ⟨m, v, (by show dictGet s'.cache m = some v; rw [m3]; exact h1), h2⟩

theorem uniqueName_spec (v : Val) (s : Disk) : (uniqueName E v s).2 = { s with uuids := s.uuids + 1 } ∧
    ∀ f nm, (uniqueName E v s).1 = .ok (f, nm) → ∃ n, E.fileOf v = some f ∧ f.filename = some n ∧ nm = E.uuid s.uuids ++ E.lower (suffixOf (fileName n.toList)) := by
  unfold uniqueName
  cases hf : E.fileOf v with
  | none => exact ⟨rfl, fun _ _ h => by cases h⟩
  | some f =>
    cases hn : f.filename with
    | none => exact ⟨by simp only [hn], fun _ _ h => by simp only [hn] at h; cases h⟩
    | some n =>
      refine ⟨by simp only [hn], fun f' nm h => ?_⟩
      simp only [hn] at h
      cases h
      exact ⟨n, rfl, hn, rfl⟩

theorem slash_end (a nm : List Char) : a ++ "/".toList ++ nm = a ++ '/' :: nm := by simp

/-- what an upload may do -/
structure MayDo (E : UploadEnv) (conf : Val) (s : Disk) (where_ : FPath → Prop) (r : Except Exc Val × Disk) : Prop where
  good : r.2.Good E conf
  later : s.uuids ≤ r.2.uuids
  files : ∀ p, r.2.files p ≠ s.files p → s.uuids < r.2.uuids ∧ ∃ d nm, p = d ++ [nm] ∧ where_ d ∧ PlainName nm ∧ E.uuid s.uuids <+: nm
  text : ∀ x, r.1 = .ok (.str x) → s.uuids < r.2.uuids ∧ ∃ a nm, x.toList = a ++ '/' :: nm ∧ PlainName nm ∧ E.uuid s.uuids <+: nm

theorem writeFile_spec (dest : FPath) (nm : List Char) (x : String) (s : Disk) :
    (∀ p, (writeFile E dest nm x s).2.files p ≠ s.files p → p = dest ++ [nm]) ∧
    (writeFile E dest nm x s).2.uuids = s.uuids ∧ (writeFile E dest nm x s).2.cache = s.cache ∧ (writeFile E dest nm x s).2.clients = s.clients := by
  unfold writeFile
  split
  · exact ⟨fun p h => absurd rfl h, rfl, rfl, rfl⟩
  · split
    · exact ⟨fun p h => absurd rfl h, rfl, rfl, rfl⟩
    · refine ⟨fun p h => ?_, rfl, rfl, rfl⟩
      by_contra hp
      exact h (if_neg hp)

theorem local_fits (hE : E.Usual) {s : Disk} {n : String} {u : Uploader} (h : s.Good E conf) (hu : dictGet s.cache n = some u) (v : Val) :
    MayDo E conf s (fun d => ∃ t, u.config.item "dir" = .ok (.plain (.str t)) ∧ d = E.dest t) (localUpload E u v s) := by
  obtain ⟨g1, ⟨g2, g3, g4, g5⟩, g6⟩ := localClient_spec (E := E) h hu
  unfold localUpload
  simp only [Py.bind_run]
  cases hc : localClient E u s with
  | mk r s₁ =>
    rw [hc] at g1 g2 g3 g4 g5 g6
    simp only at g1 g2 g3 g4 g5
    cases r with
    | error e => exact ⟨g1, (by rw [g3]; exact Nat.le_refl _), fun p hp => absurd (by rw [g2]) hp, fun x hx => by cases hx⟩
    | ok c =>
      obtain ⟨d, c1, c2, c3, c4⟩ := g6 c rfl
      obtain ⟨n1, n2⟩ := uniqueName_spec (E := E) v s₁
      simp only []
      cases hn : uniqueName E v s₁ with
      | mk r s₂ =>
        rw [hn] at n1 n2
        simp only at n1
        cases r with
        | error e =>
          rw [n1]
          exact ⟨⟨g1.cache, g1.clients⟩, (by simp only [g3]; omega), fun p hp => absurd (congrFun g2 p) hp, fun x hx => by cases hx⟩
        | ok fn =>
          obtain ⟨nn, -, -, hnm⟩ := n2 fn.1 fn.2 rfl
          have hpl := plainName_unique hE s₁.uuids nn.toList
          rw [← hnm] at hpl
          have hpre : E.uuid s.uuids <+: fn.2 := by rw [hnm, g3]; exact List.prefix_append _ _
          obtain ⟨w1, w2, w3, w4⟩ := writeFile_spec (E := E) c.dest fn.2 fn.1.content s₂
          have hu2 : s₂.uuids = s.uuids + 1 := by rw [n1, ← g3]
          simp only []
          cases hw : writeFile E c.dest fn.2 fn.1.content s₂ with
          | mk r s₃ =>
            rw [hw] at w1 w2 w3 w4
            simp only at w1 w2 w3 w4
            have hlt : s.uuids < s₃.uuids := by rw [w2, hu2]; omega
            have hgood : s₃.Good E conf := by
              refine ⟨?_, ?_⟩
              · rw [w3, n1]; exact g1.cache
              · rw [w3, w4, n1]; exact g1.clients
            have hfiles : ∀ p, s₃.files p ≠ s.files p → s.uuids < s₃.uuids ∧ ∃ d nm, p = d ++ [nm] ∧
                (∃ t, u.config.item "dir" = .ok (.plain (.str t)) ∧ d = E.dest t) ∧ PlainName nm ∧ E.uuid s.uuids <+: nm := by
              intro p hp
              have : s₂.files = s.files := by rw [n1, ← g2]
              exact ⟨hlt, c.dest, fn.2, w1 p (by rw [this]; exact hp), ⟨d, c1, c4⟩, hpl, hpre⟩
            cases r with
            | error e => exact ⟨hgood, Nat.le_of_lt hlt, hfiles, fun x hx => by cases hx⟩
            | ok _ =>
              refine ⟨hgood, Nat.le_of_lt hlt, hfiles, fun x hx => ?_⟩
              have hx' : localUrl c.url c.dir fn.2 = .ok (.str x) := hx
              unfold localUrl at hx'
              split at hx'
              · cases hx'
                exact ⟨hlt, _, fn.2, String.toList_ofList.trans (slash_end _ _), hpl, hpre⟩
              · cases hx'

theorem s3_fits (hE : E.Usual) {s : Disk} {u : Uploader} (h : s.Good E conf) (v : Val) : MayDo E conf s (fun _ => False) (s3Upload E u v s) := by
  obtain ⟨n1, n2⟩ := uniqueName_spec (E := E) v s
  unfold s3Upload
  simp only [Py.bind_run, Py.ofExcept]
  have stop : ∀ e, MayDo E conf s (fun _ => False) ((.error e, { s with uuids := s.uuids + 1 }) : Except Exc Val × Disk) := fun e =>
    ⟨⟨h.cache, h.clients⟩, Nat.le_succ _, fun p hp => absurd rfl hp, fun x hx => by cases hx⟩
  cases hn : uniqueName E v s with
  | mk r s₂ =>
    rw [hn] at n1 n2
    simp only at n1
    subst n1
    cases r with
    | error e => exact stop e
    | ok fn =>
      obtain ⟨nn, -, -, hnm⟩ := n2 fn.1 fn.2 rfl
      have hpl := plainName_unique hE s.uuids nn.toList
      rw [← hnm] at hpl
      simp only []
      cases u.config.item "bucket" with
      | error e => exact stop e
      | ok b =>
        simp only []
        cases u.config.item "acl" with
        | error e => exact stop e
        | ok a =>
          simp only []
          cases E.s3refuses { bucket := b, key := fn.2, acl := a, contentType := fn.1.contentType, content := fn.1.content } with
          | some e => exact stop e
          | none =>
            simp only []
            cases u.config.item "endpoint_url" with
            | error e => exact ⟨⟨h.cache, h.clients⟩, Nat.le_succ _, fun p hp => absurd rfl hp, fun x hx => by cases hx⟩
            | ok ep =>
              refine ⟨⟨h.cache, h.clients⟩, Nat.le_succ _, fun p hp => absurd rfl hp, fun x hx => ?_⟩
              cases hx
              exact ⟨Nat.lt_succ_self _, _, fn.2, String.toList_ofList.trans (slash_end _ _), hpl, (by rw [hnm]; exact List.prefix_append _ _)⟩

/-- what every use of the modifier does -/
theorem step_fits (hE : E.Usual) {s : Disk} (h : s.Good E conf) (arg : UploadArg) (c : Ctx) :
    (uploadTransform E conf arg c s).2.Good E conf ∧ s.uuids ≤ (uploadTransform E conf arg c s).2.uuids ∧
    (∀ p, (uploadTransform E conf arg c s).2.files p ≠ s.files p → s.uuids < (uploadTransform E conf arg c s).2.uuids ∧
      ∃ n t nm, arg = .named n ∧ LocalDir conf n t ∧ p = E.dest t ++ [nm] ∧ PlainName nm ∧ E.uuid s.uuids <+: nm) ∧
    ∀ n, arg = .named n → ∀ x, (uploadTransform E conf arg c s).1 = .ok (.str x) → s.uuids < (uploadTransform E conf arg c s).2.uuids ∧
      ∃ a nm, x.toList = a ++ '/' :: nm ∧ PlainName nm ∧ E.uuid s.uuids <+: nm := by
  have idle : ∀ {r : Except Exc Val} {t : Except Exc Val × Disk}, (∀ n, arg = .named n → ∀ x, r ≠ .ok (.str x)) → t = (r, s) →
      t.2.Good E conf ∧ s.uuids ≤ t.2.uuids ∧ (∀ p, t.2.files p ≠ s.files p → s.uuids < t.2.uuids ∧
        ∃ n t nm, arg = .named n ∧ LocalDir conf n t ∧ p = E.dest t ++ [nm] ∧ PlainName nm ∧ E.uuid s.uuids <+: nm) ∧
      ∀ n, arg = .named n → ∀ x, t.1 = .ok (.str x) → s.uuids < t.2.uuids ∧
        ∃ a nm, x.toList = a ++ '/' :: nm ∧ PlainName nm ∧ E.uuid s.uuids <+: nm := by
    intro r t hr he
    rw [he]
    exact ⟨h, Nat.le_refl _, fun p hp => absurd rfl hp, fun n hn x hx => absurd hx (hr n hn x)⟩
  by_cases hv : c.val.isNone
  · exact idle (r := .ok .none) (fun _ _ x hx => by cases hx) (by simp only [uploadTransform, hv, if_true]; rfl)
  cases arg with
  | call1 f => exact idle (fun n hn => by cases hn) (by simp only [uploadTransform, hv]; rfl)
  | call2 f => exact idle (fun n hn => by cases hn) (by simp only [uploadTransform, hv]; rfl)
  | named n =>
    clear idle
    obtain ⟨q1, q2, q3, -⟩ := request_spec h.cache n
    have he : uploadTransform E conf (.named n) c s = match requestUploader conf n s.cache with
      | (.ok u, cache) => uploadBy E u c.val { s with cache := cache }
      | (.error e, cache) => (.error e, { s with cache := cache }) := by simp only [uploadTransform, hv]; rfl
    rw [he]
    cases hq : requestUploader conf n s.cache with
    | mk r cache =>
      rw [hq] at q1 q2 q3
      have g1 : Disk.Good E conf { s with cache := cache } := by
        refine ⟨q1, fun p hp => ?_⟩
        obtain ⟨m, v, h1, h2⟩ := h.clients p hp
        exact ⟨m, v, q2 m v h1, h2⟩
      cases r with
      | error e => exact ⟨g1, Nat.le_refl _, fun p hp => absurd rfl hp, fun _ _ x hx => by cases hx⟩
      | ok u =>
        have hu := q3 u rfl
        have hm := q1.made n u hu
        have hm0 : makeUploader conf n 0 = .ok { u with uid := 0 } := by rw [makeUploader_uid conf n 0 u.uid, hm]; rfl
        simp only [uploadBy]
        cases heng : u.engine with
        | alioss => exact ⟨g1, Nat.le_refl _, fun p hp => absurd rfl hp, fun _ _ x hx => by cases hx⟩
        | s3 =>
          obtain ⟨f1, f2, f3, f4⟩ := s3_fits (E := E) (conf := conf) (u := u) hE g1 c.val
          exact ⟨f1, f2, fun p hp => by obtain ⟨-, _, _, _, hf, -⟩ := f3 p hp; exact hf.elim, fun _ _ => f4⟩
        | localfs =>
          obtain ⟨f1, f2, f3, f4⟩ := local_fits (E := E) hE g1 hu c.val
          refine ⟨f1, f2, fun p hp => ?_, fun _ _ => f4⟩
          obtain ⟨hl, d, nm, hp', ⟨t, ht, hd⟩, hpn⟩ := f3 p hp
          exact ⟨hl, n, t, nm, rfl, ⟨_, hm0, heng, ht⟩, hd ▸ hp', hpn⟩

theorem uploads_good (hE : E.Usual) : ∀ (l : List (UploadArg × Ctx)) {s : Disk}, s.Good E conf →
    (uploads E conf l s).Good E conf ∧ s.uuids ≤ (uploads E conf l s).uuids
  | [], _, h => ⟨h, Nat.le_refl _⟩
  | (a, c) :: r, s, h => by
    obtain ⟨h1, h2, -⟩ := step_fits hE h a c
    obtain ⟨h3, h4⟩ := uploads_good hE r h1
    exact ⟨h3, Nat.le_trans h2 h4⟩

/-! ### Theorems -/

/-- **C82**. Whatever was uploaded before and whatever file name the client sends: an upload changes no file
but those directly in the directory configured for the uploader. -/
theorem upload_confined (hE : E.Usual) {s : Disk} (hs : s.New) (past : List (UploadArg × Ctx)) (arg : UploadArg) (c : Ctx) (p : FPath)
    (hp : (uploadTransform E conf arg c (uploads E conf past s)).2.files p ≠ (uploads E conf past s).files p) :
    ∃ n dir nm, arg = .named n ∧ LocalDir conf n dir ∧ p = E.dest dir ++ [nm] ∧ PlainName nm := by
  obtain ⟨-, n, t, nm, h1, h2, h3, h4, -⟩ := (step_fits hE (uploads_good hE past hs.good).1 arg c).2.2.1 p hp
  exact ⟨n, t, nm, h1, h2, h3, h4⟩

theorem uploads_keep (hE : E.Usual) {N : Nat} (hN : E.Distinct N) : ∀ (l : List (UploadArg × Ctx)) {s : Disk}, s.Good E conf → s.Unused E N →
    (uploads E conf l s).uuids ≤ N → (uploads E conf l s).Unused E N ∧ ∀ p x, s.files p = some x → (uploads E conf l s).files p = some x
  | [], _, _, h, _ => ⟨h, fun _ _ h => h⟩
  | (a, c) :: r, s, hg, hf, hb => by
    obtain ⟨g1, g2, g3, -⟩ := step_fits hE hg a c
    have hb' : (uploadTransform E conf a c s).2.uuids ≤ N := Nat.le_trans (uploads_good hE r g1).2 hb
    have keep : ∀ p x, s.files p = some x → (uploadTransform E conf a c s).2.files p = some x := by
      intro p x hx
      by_contra hne
      obtain ⟨hlt, n, t, nm, -, -, hp, -, hpre⟩ := g3 p (by rw [hx]; exact hne)
      exact hf p (by rw [hx]; simp) _ _ hp s.uuids (Nat.le_refl _) (by omega) hpre
    have hf' : (uploadTransform E conf a c s).2.Unused E N := by
      intro p hp d nm hd n hn hnN hpre
      by_cases hc : (uploadTransform E conf a c s).2.files p = s.files p
      · exact hf p (by rw [← hc]; exact hp) d nm hd n (Nat.le_trans g2 hn) hnN hpre
      · obtain ⟨hlt, -, t, nm', -, -, hp', -, hpre'⟩ := g3 p hc
        rw [hd] at hp'
        have := List.append_inj_right' hp' rfl
        cases this
        have h1 := List.prefix_of_prefix_length_le hpre hpre' (by rw [hE.size, hE.size]; exact Nat.le_refl _)
        have h2 := hN _ _ hnN (by omega) (h1.eq_of_length (by rw [hE.size, hE.size]))
        omega
    obtain ⟨k1, k2⟩ := uploads_keep hE hN r g1 hf' hb
    exact ⟨k1, fun p x hx => k2 p x (keep p x hx)⟩

theorem uploads_append (l m : List (UploadArg × Ctx)) : ∀ s : Disk, uploads E conf (l ++ m) s = uploads E conf m (uploads E conf l s) := by
  induction l with
  | nil => intro s; rfl
  | cons x r ih => intro s; exact ih _

/-- **C82**. No sequence of uploads overwrites a file, of an earlier upload or any other, as long as the texts
that `uuid4` gives do not repeat and start no name on the disk. -/
theorem uploads_never_overwrite (hE : E.Usual) {N : Nat} (hN : E.Distinct N) {s : Disk} (hs : s.New) (hf : s.Unused E N)
    (past later : List (UploadArg × Ctx)) (hb : (uploads E conf (past ++ later) s).uuids ≤ N) (p : FPath) (x : String)
    (hx : (uploads E conf past s).files p = some x) : (uploads E conf (past ++ later) s).files p = some x := by
  rw [uploads_append] at hb ⊢
  have hg := (uploads_good hE past hs.good (conf := conf)).1
  have hb' := Nat.le_trans (uploads_good hE later hg).2 hb
  exact (uploads_keep hE hN later hg (uploads_keep hE hN past hs.good hf hb').1 hb).2 p x hx

theorem last_part {a b nm nm' : List Char} (h : a ++ '/' :: nm = b ++ '/' :: nm') (h1 : '/' ∉ nm) (h2 : '/' ∉ nm') : nm = nm' := by
  have := congrArg splitSlash h
  rw [splitSlash_slash, splitSlash_slash, splitSlash_plain h1, splitSlash_plain h2] at this
  have := List.append_inj_right' this rfl
  simpa using this

/-- **C82**. Two uploads never return the same URL, whichever uploaders they use and whatever happens in
between, as long as the texts that `uuid4` gives do not repeat. -/
theorem urls_differ (hE : E.Usual) {N : Nat} (hN : E.Distinct N) {s : Disk} (hs : s.New) (past between : List (UploadArg × Ctx)) (m n : String) (c c' : Ctx)
    (x y : String) (hb : (uploads E conf (past ++ (.named m, c) :: between ++ [(.named n, c')]) s).uuids ≤ N)
    (hx : (uploadTransform E conf (.named m) c (uploads E conf past s)).1 = .ok (.str x))
    (hy : (uploadTransform E conf (.named n) c' (uploads E conf (past ++ (.named m, c) :: between) s)).1 = .ok (.str y)) : x ≠ y := by
  rw [uploads_append] at hb
  rw [uploads_append] at hy hb
  have g0 := (uploads_good hE past hs.good (conf := conf)).1
  obtain ⟨g1, -, -, g4⟩ := step_fits hE g0 (.named m) c
  obtain ⟨hl, a, nm, e1, p1, q1⟩ := g4 m rfl x hx
  obtain ⟨g2, hle⟩ := uploads_good hE between g1
  obtain ⟨hl', b, nm', e2, p2, q2⟩ := (step_fits hE g2 (.named n) c').2.2.2 n rfl y hy
  rintro rfl
  have he := last_part (e1.symm.trans e2) p1.2.1 p2.2.1
  subst he
  have hb' : (uploadTransform E conf (.named n) c' (uploads E conf between (uploadTransform E conf (.named m) c (uploads E conf past s)).2)).2.uuids ≤ N := hb
  have h1 := List.prefix_of_prefix_length_le q1 q2 (by rw [hE.size, hE.size]; exact Nat.le_refl _)
  have h2 := hN _ _ (by omega) (by omega) (h1.eq_of_length (by rw [hE.size, hE.size]))
  omega

/-- **C82**. For names without dots, slashes and brackets that are no numbers: where the directory comes from. -/
theorem localDir_iff {name : String} (hc : Component name) (hk : keyInt name = none) (dir : String) :
    LocalDir conf name dir ↔ ∃ c, c.Holds ∧ ConfiguredAs conf name .localfs c ∧ confGet c "dir" = .ok (.plain (.str dir)) := by
  constructor
  · rintro ⟨u, h1, h2, h3⟩
    obtain ⟨c, k1, k2, -⟩ := (uploader_iff conf hc hk 0 u).1 h1
    rcases k2 with ⟨k2, k3⟩ | ⟨-, k3⟩
    · rw [k3] at h3
      exact ⟨c, k2, h2 ▸ k1, h3⟩
    · rw [k3] at h3; cases h3
  · rintro ⟨c, h0, h1, h2⟩
    exact ⟨⟨0, .localfs, .conf c⟩, (uploader_iff conf hc hk 0 _).2 ⟨c, h1, .inl ⟨h0, rfl⟩, rfl⟩, rfl, h2⟩

/-- **C82**. A directory that does not start with a slash is one under `public` of the working directory, with the
components that are written. -/
theorem relative_dir {dir : String} (h : dir.toList.head? ≠ some '/') : E.dest dir = E.cwd ++ "public".toList :: pathParts dir.toList := by
  unfold UploadEnv.dest joinPath
  rw [if_neg h, List.append_assoc]
  rfl

/-- what the components of a text are: put back together they give the text, up to empty ones and dots -/
theorem pathParts_slash (a b : List Char) : pathParts (a ++ '/' :: b) = pathParts a ++ pathParts b := by
  unfold pathParts
  rw [splitSlash_slash, List.filter_append]

theorem pathParts_one {a : List Char} (h : '/' ∉ a) (h1 : a ≠ []) (h2 : a ≠ ['.']) : pathParts a = [a] := by
  unfold pathParts
  rw [splitSlash_plain h]
  simp [h1, h2]

/-- **C82** violated: a directory that starts with a slash is used as it is. The files are then not under `public`,
although the URL says so. -/
theorem absolute_dir {dir : String} (h : dir.toList.head? = some '/') : E.dest dir = pathParts dir.toList := by
  unfold UploadEnv.dest joinPath
  rw [if_pos h]

theorem mem_onWay (p : FPath) : p ∈ onWay p := List.mem_map.2 ⟨p.length, List.mem_range.2 (Nat.lt_succ_self _), List.take_length⟩

theorem onWay_length {p q : FPath} (h : q ∈ onWay p) : q.length ≤ p.length := by
  obtain ⟨k, -, rfl⟩ := List.mem_map.1 h
  rw [List.length_take]
  exact Nat.min_le_right _ _

/-- the directory is there, or the uploader is used for the first time and nothing is in its way -/
def Disk.Ready (E : UploadEnv) (s : Disk) (name dir : String) : Prop :=
  E.dest dir ∈ s.dirs ∨ (dictGet s.cache name = none ∧ ∀ q ∈ onWay (E.dest dir), s.files q = none)

theorem localClient_ready {s : Disk} {name dir : String} {u : Uploader} (h : s.Good E conf) (hu : dictGet s.cache name = some u)
    (hd : u.config.item "dir" = .ok (.plain (.str dir))) {url : Got} (hr : u.config.item "url" = .ok url) (hok : ∀ p, E.refuses p = none)
    (hw : E.dest dir ∈ s.dirs ∨ (s.clients.find? (fun p => p.1 = u.uid) = none ∧ ∀ q ∈ onWay (E.dest dir), s.files q = none)) :
    ∃ s', localClient E u s = (.ok ⟨dir.toList, url, E.dest dir⟩, s') ∧ s.SameFiles s' ∧ E.dest dir ∈ s'.dirs ∧
      ∀ q ∈ s'.dirs, q ∈ s.dirs ∨ q ∈ onWay (E.dest dir) := by
  cases hf : s.clients.find? (fun p => p.1 = u.uid) with
  | some p =>
    have hl : localClient E u s = (.ok p.2, s) := by unfold localClient; rw [hf]
    obtain ⟨d, k1, k2, k3, k4⟩ := (localClient_spec (E := E) h hu).2.2 p.2 (by rw [hl])
    rw [hd] at k1
    cases k1
    rw [hr] at k3
    cases k3
    have hp : p.2 = ⟨dir.toList, p.2.url, E.dest dir⟩ := by
      rw [← k2, ← k4]
    have hin : E.dest dir ∈ s.dirs := by
      rcases hw with hw | ⟨hw, -⟩
      · exact hw
      · rw [hf] at hw; cases hw
    exact ⟨s, by rw [hl, ← hp], ⟨rfl, rfl, rfl, rfl⟩, hin, fun q hq => .inl hq⟩
  | none =>
    have hl : localClient E u s = match makeDir E (E.dest dir) s with
        | (.ok _, s') => (.ok ⟨dir.toList, url, E.dest dir⟩, { s' with clients := (u.uid, ⟨dir.toList, url, E.dest dir⟩) :: s'.clients })
        | (.error e, s') => (.error e, s') := by
      unfold localClient
      rw [hf]
      simp only [Py.bind_run, Py.ofExcept, hd, hr, dirText, Py.modify_run, Py.pure_run]
      rw [show joinPath (E.cwd ++ ["public".toList]) dir.toList = E.dest dir from rfl]
      cases makeDir E (E.dest dir) s with
      | mk r s' => cases r <;> rfl
    by_cases hin : E.dest dir ∈ s.dirs
    · have hm : makeDir E (E.dest dir) s = (.ok (), s) := by unfold makeDir; rw [if_pos hin]
      rw [hl, hm]
      exact ⟨_, rfl, ⟨rfl, rfl, rfl, rfl⟩, hin, fun q hq => .inl hq⟩
    · have hq : ∀ q ∈ onWay (E.dest dir), s.files q = none := by
        rcases hw with hw | ⟨-, hw⟩
        · exact absurd hw hin
        · exact hw
      have hb : blocked s.files (E.dest dir) = false := by
        unfold blocked
        rw [List.any_eq_false]
        intro q hq'
        rw [hq q hq']; simp
      have hm : makeDir E (E.dest dir) s = (.ok (), { s with dirs := s.dirs ++ onWay (E.dest dir) }) := by
        unfold makeDir
        rw [if_neg hin, hok]
        simp only [hb]
        rfl
      rw [hl, hm]
      exact ⟨_, rfl, ⟨rfl, rfl, rfl, rfl⟩, List.mem_append.2 (.inr (mem_onWay _)), fun q hq => List.mem_append.1 hq⟩

theorem request_local {s : Disk} {name dir : String} (h : s.Good E conf) (hc : LocalDir conf name dir) (hw : s.Ready E name dir) :
    ∃ u cache, requestUploader conf name s.cache = (.ok u, cache) ∧ u.engine = .localfs ∧ u.config.item "dir" = .ok (.plain (.str dir)) ∧
      (∃ u₀, makeUploader conf name 0 = .ok u₀ ∧ u.config = u₀.config) ∧
      Disk.Good E conf { s with cache := cache } ∧ dictGet cache name = some u ∧
      (E.dest dir ∈ s.dirs ∨ (s.clients.find? (fun p => p.1 = u.uid) = none ∧ ∀ q ∈ onWay (E.dest dir), s.files q = none)) := by
  obtain ⟨u₀, h1, h2, h3⟩ := hc
  obtain ⟨q1, q2, q3, q4⟩ := request_spec h.cache name
  cases hq : requestUploader conf name s.cache with
  | mk r cache =>
    rw [hq] at q1 q2 q3 q4
    cases r with
    | error e =>
      have := q4 e rfl 0
      rw [h1] at this; cases this
    | ok u =>
      have hu := q3 u rfl
      have hm := q1.made name u hu
      rw [makeUploader_uid conf name u.uid 0, h1] at hm
      have hm' : { u₀ with uid := u.uid } = u := by injection hm
      refine ⟨u, cache, rfl, by rw [← hm']; exact h2, by rw [← hm']; exact h3, ⟨u₀, h1, by rw [← hm']⟩, ⟨q1, fun p hp => ?_⟩, hu, ?_⟩
      · obtain ⟨m, v, k1, k2⟩ := h.clients p hp
        exact ⟨m, v, q2 m v k1, k2⟩
      · rcases hw with hw | ⟨hw, hq'⟩
        · exact .inl hw
        · refine .inr ⟨?_, hq'⟩
          rw [List.find?_eq_none]
          intro p hp
          obtain ⟨m, v, k1, k2, -⟩ := h.clients p hp
          simp only [decide_eq_true_eq]
          intro he
          have := q1.distinct name m u v hu (q2 m v k1) (by rw [k2, he])
          subst this
          rw [hw] at k1; cases k1

theorem notNone_false {v : Val} (hv : v ≠ .none) : v.isNone = false := by
  cases hx : v.isNone with
  | true => exact absurd ((Val.isNone_iff _).1 hx) hv
  | false => rfl

theorem upload_named {t : Disk} {name : String} {u : Uploader} {cache : List (String × Uploader)} {c : Ctx} (hv : c.val.isNone = false)
    (h : requestUploader conf name t.cache = (.ok u, cache)) : uploadTransform E conf (.named name) c t = uploadBy E u c.val { t with cache := cache } := by
  unfold uploadTransform
  rw [hv, if_neg (by simp)]
  simp only [h]

theorem local_run {t : Disk} (hg : t.Good E conf) {name dir filename : String} {url : Got} {c : Ctx} {f : UFile} {u₀ : Uploader}
    (hc : LocalDir conf name dir) (hu : makeUploader conf name 0 = .ok u₀) (hurl : u₀.config.item "url" = .ok url)
    (hv : c.val ≠ .none) (hf : E.fileOf c.val = some f) (hn : f.filename = some filename) (hok : ∀ p, E.refuses p = none)
    (hr : t.Ready E name dir) (nm : List Char) (hnm : nm = E.uuid t.uuids ++ E.lower (suffixOf (fileName filename.toList)))
    (hnd : E.dest dir ++ [nm] ∉ t.dirs) :
    ∃ s', uploadTransform E conf (.named name) c t = (localUrl url dir.toList nm, s') ∧
      ∀ p, s'.files p = if p = E.dest dir ++ [nm] then some f.content else t.files p := by
  obtain ⟨u, cache, h1, h2, h3, ⟨u₁, h4, h5⟩, h6, h7, h8⟩ := request_local hg hc hr
  rw [hu] at h4
  cases h4
  obtain ⟨s₁, k1, ⟨k2, k3, k4, k5⟩, k6, k7⟩ := localClient_ready (E := E) (s := { t with cache := cache }) h6 h7 h3 (h5 ▸ hurl) hok h8
  have hv' := notNone_false hv
  have hname : uniqueName E c.val s₁ = (.ok (f, nm), { s₁ with uuids := s₁.uuids + 1 }) := by
    unfold uniqueName
    simp only [hf, hn]
    rw [hnm, k3]
  have hwrite : writeFile E (E.dest dir) nm f.content { s₁ with uuids := s₁.uuids + 1 } =
      (.ok (), { s₁ with uuids := s₁.uuids + 1, files := fun p => if p = E.dest dir ++ [nm] then some f.content else s₁.files p }) := by
    unfold writeFile
    rw [hok]
    simp only []
    rw [if_neg]
    rintro (h | h)
    · exact h k6
    · rcases k7 _ h with h | h
      · exact hnd h
      · have := onWay_length h
        rw [List.length_append, List.length_singleton] at this
        omega
  refine ⟨{ s₁ with uuids := s₁.uuids + 1, files := fun p => if p = E.dest dir ++ [nm] then some f.content else s₁.files p }, ?_, fun p => ?_⟩
  · rw [upload_named hv' h1]
    simp only [uploadBy, h2, localUpload, Py.bind_run, k1, hname, hwrite, Py.ofExcept]
  · simp only []
    rw [k2]

/-- **C82**. An upload through a local uploader writes the content under a new name with the lowered extension of the
client's file name, and returns the URL of that file. Nothing else on the disk changes. -/
theorem upload_stored (hE : E.Usual) {s : Disk} (hs : s.New) (past : List (UploadArg × Ctx)) {name dir url filename : String} {c : Ctx} {f : UFile} {u₀ : Uploader}
    (hc : LocalDir conf name dir) (hu : makeUploader conf name 0 = .ok u₀) (hurl : u₀.config.item "url" = .ok (.plain (.str url)))
    (hv : c.val ≠ .none) (hf : E.fileOf c.val = some f) (hn : f.filename = some filename) (hok : ∀ p, E.refuses p = none)
    (hr : (uploads E conf past s).Ready E name dir) (nm : List Char)
    (hnm : nm = E.uuid (uploads E conf past s).uuids ++ E.lower (suffixOf (fileName filename.toList)))
    (hnd : E.dest dir ++ [nm] ∉ (uploads E conf past s).dirs) :
    (uploadTransform E conf (.named name) c (uploads E conf past s)).1 = .ok (.str (url ++ "/public/" ++ dir ++ "/" ++ String.ofList nm)) ∧
    ∀ p, (uploadTransform E conf (.named name) c (uploads E conf past s)).2.files p =
      if p = E.dest dir ++ [nm] then some f.content else (uploads E conf past s).files p := by
  obtain ⟨s', h1, h2⟩ := local_run (uploads_good hE past hs.good (conf := conf)).1 hc hu hurl hv hf hn hok hr nm hnm hnd
  rw [h1]
  refine ⟨?_, h2⟩
  simp only [localUrl]
  congr 2
  apply String.toList_injective
  simp

/-- **C82** violated: with no `url` in the configuration the file is stored, then the upload raises. -/
theorem no_url_leaves_file (hE : E.Usual) {s : Disk} (hs : s.New) (past : List (UploadArg × Ctx)) {name dir filename : String} {c : Ctx} {f : UFile} {u₀ : Uploader}
    (hc : LocalDir conf name dir) (hu : makeUploader conf name 0 = .ok u₀) (hurl : u₀.config.item "url" = .ok (.plain .none))
    (hv : c.val ≠ .none) (hf : E.fileOf c.val = some f) (hn : f.filename = some filename) (hok : ∀ p, E.refuses p = none)
    (hr : (uploads E conf past s).Ready E name dir) (nm : List Char)
    (hnm : nm = E.uuid (uploads E conf past s).uuids ++ E.lower (suffixOf (fileName filename.toList)))
    (hnd : E.dest dir ++ [nm] ∉ (uploads E conf past s).dirs) :
    (uploadTransform E conf (.named name) c (uploads E conf past s)).1 = .error .typeError ∧
    (uploadTransform E conf (.named name) c (uploads E conf past s)).2.files (E.dest dir ++ [nm]) = some f.content := by
  obtain ⟨s', h1, h2⟩ := local_run (uploads_good hE past hs.good (conf := conf)).1 hc hu hurl hv hf hn hok hr nm hnm hnd
  rw [h1]
  exact ⟨rfl, (h2 _).trans (if_pos rfl)⟩

theorem request_made {t : Disk} (hg : t.Good E conf) {name : String} {u₀ : Uploader} (hu : makeUploader conf name 0 = .ok u₀) :
    ∃ k cache, requestUploader conf name t.cache = (.ok { u₀ with uid := k }, cache) := by
  obtain ⟨q1, -, q3, q4⟩ := request_spec hg.cache name
  cases hq : requestUploader conf name t.cache with
  | mk r cache =>
    rw [hq] at q1 q3 q4
    cases r with
    | error e =>
      have := q4 e rfl 0
      rw [hu] at this; cases this
    | ok u =>
      have hm := q1.made name u (q3 u rfl)
      rw [makeUploader_uid conf name u.uid 0, hu] at hm
      have hm' : { u₀ with uid := u.uid } = u := by injection hm
      exact ⟨u.uid, cache, by rw [hm']⟩

/-- **C82**. An upload to S3 hands over the content under a new name with the lowered extension, and returns the
endpoint, the bucket and that name. -/
theorem s3_stored (hE : E.Usual) {s : Disk} (hs : s.New) (past : List (UploadArg × Ctx)) {name filename : String} {c : Ctx} {f : UFile} {u₀ : Uploader}
    {bucket acl endpoint : Got} (hu : makeUploader conf name 0 = .ok u₀) (he : u₀.engine = .s3) (hb : u₀.config.item "bucket" = .ok bucket)
    (ha : u₀.config.item "acl" = .ok acl) (hp : u₀.config.item "endpoint_url" = .ok endpoint) (hv : c.val ≠ .none) (hf : E.fileOf c.val = some f)
    (hn : f.filename = some filename) (nm : List Char)
    (hnm : nm = E.uuid (uploads E conf past s).uuids ++ E.lower (suffixOf (fileName filename.toList)))
    (hok : E.s3refuses ⟨bucket, nm, acl, f.contentType, f.content⟩ = none) :
    (uploadTransform E conf (.named name) c (uploads E conf past s)).1 =
      .ok (.str (String.ofList (E.shown endpoint) ++ "/" ++ String.ofList (E.shown bucket) ++ "/" ++ String.ofList nm)) ∧
    (uploadTransform E conf (.named name) c (uploads E conf past s)).2.s3 = (uploads E conf past s).s3 ++ [⟨bucket, nm, acl, f.contentType, f.content⟩] ∧
    (uploadTransform E conf (.named name) c (uploads E conf past s)).2.files = (uploads E conf past s).files := by
  have hg := (uploads_good hE past hs.good (conf := conf)).1
  generalize uploads E conf past s = t at hg hnm ⊢
  obtain ⟨k, cache, h1⟩ := request_made hg hu
  have hname : uniqueName E c.val { t with cache := cache } = (.ok (f, nm), { t with cache := cache, uuids := t.uuids + 1 }) := by
    unfold uniqueName
    simp only [hf, hn]
    rw [hnm]
  have hrun : uploadTransform E conf (.named name) c t = (.ok (.str (String.ofList (E.shown endpoint ++ "/".toList ++ E.shown bucket ++ "/".toList ++ nm))),
      { t with cache := cache, uuids := t.uuids + 1, s3 := t.s3 ++ [⟨bucket, nm, acl, f.contentType, f.content⟩] }) := by
    rw [upload_named (notNone_false hv) h1]
    simp only [uploadBy, he, s3Upload, Py.bind_run, hname, Py.ofExcept, hb, ha, hp, hok, Py.pure_run]
  rw [hrun]
  refine ⟨?_, rfl, rfl⟩
  simp only []
  congr 2
  apply String.toList_injective
  simp

/-- **C82** violated: a text, such as the URL of an earlier upload, is no acceptable input of a file field. Every
uploader but that for Aliyun OSS raises. -/
theorem text_raises (hE : E.Usual) {s : Disk} (hs : s.New) (past : List (UploadArg × Ctx)) {name x : String} {c : Ctx} {u₀ : Uploader}
    (hu : makeUploader conf name 0 = .ok u₀) (he : u₀.engine ≠ .alioss) (hv : c.val = .str x) (hf : E.fileOf (.str x) = none) :
    ∃ e, (uploadTransform E conf (.named name) c (uploads E conf past s)).1 = .error e := by
  have hg := (uploads_good hE past hs.good (conf := conf)).1
  generalize uploads E conf past s = t at hg ⊢
  obtain ⟨k, cache, h1⟩ := request_made hg hu
  have hname : ∀ t, uniqueName E (.str x) t = (.error .attributeError, { t with uuids := t.uuids + 1 }) := by
    intro t
    unfold uniqueName
    rw [hf]
  have hrun : uploadTransform E conf (.named name) c t = uploadBy E { u₀ with uid := k } (.str x) { t with cache := cache } := by
    rw [upload_named (by rw [hv]; rfl) h1, hv]
  rw [hrun]
  unfold uploadBy
  cases hx : u₀.engine with
  | alioss => exact absurd hx he
  | s3 =>
    refine ⟨.attributeError, ?_⟩
    simp only [s3Upload, Py.bind_run, hname]
  | localfs =>
    simp only [localUpload, Py.bind_run]
    cases hc : localClient E ⟨k, .localfs, u₀.config⟩ { t with cache := cache } with
    | mk r s' =>
      cases r with
      | error e => exact ⟨e, rfl⟩
      | ok c => exact ⟨.attributeError, by simp only [hname]⟩

/-- **C82** violated: an uploader for Aliyun OSS uploads nothing and loses the value. -/
theorem alioss_loses {name : String} {u₀ : Uploader} (hE : E.Usual) {s : Disk} (hs : s.New) (past : List (UploadArg × Ctx)) (hu : makeUploader conf name 0 = .ok u₀)
    (he : u₀.engine = .alioss) (c : Ctx) : (uploadTransform E conf (.named name) c (uploads E conf past s)).1 = .ok .none ∧
      (uploadTransform E conf (.named name) c (uploads E conf past s)).2.files = (uploads E conf past s).files ∧
      (uploadTransform E conf (.named name) c (uploads E conf past s)).2.s3 = (uploads E conf past s).s3 := by
  have hg := (uploads_good hE past hs.good (conf := conf)).1
  generalize uploads E conf past s = t at hg ⊢
  by_cases hv : c.val.isNone
  · simp only [uploadTransform, hv, if_true]
    exact ⟨rfl, rfl, rfl⟩
  · obtain ⟨k, cache, h1⟩ := request_made hg hu
    have : uploadTransform E conf (.named name) c t = (.ok .none, { t with cache := cache }) := by
      rw [upload_named (Bool.eq_false_iff.2 hv) h1]
      simp only [uploadBy, he]
      rfl
    rw [this]
    exact ⟨rfl, rfl, rfl⟩

/-- **C82**. None is not uploaded, and a callable takes the place of an uploader. -/
theorem other_arguments (s : Disk) (c : Ctx) :
    (c.val = .none → ∀ arg, uploadTransform E conf arg c s = (.ok .none, s)) ∧
    (c.val ≠ .none → ∀ f, uploadTransform E conf (.call1 f) c s = (f c.val, s)) ∧
    (c.val ≠ .none → ∀ f, uploadTransform E conf (.call2 f) c s = (f c.val c, s)) := by
  refine ⟨fun h arg => ?_, fun h f => ?_, fun h f => ?_⟩
  · simp only [uploadTransform, h, Val.isNone, if_true]; rfl
  · simp only [uploadTransform, notNone_false h]; rfl
  · simp only [uploadTransform, notNone_false h]; rfl

/-! ### The hypotheses are met -/

namespace UploadDemo

/-- `uuid4` giving the decimal numbers of 32 digits, an identity for `lower`, and one uploadable value -/
def env : UploadEnv where
  uuid := fun n => List.replicate 31 '0' ++ [digitChar n]
  lower := fun cs => cs
  cwd := ["app".toList]
  fileOf := fun v => match v with
    | .other _ => some ⟨some "../../etc/x.tar.gz", "data", .str "image/png"⟩
    | _ => none
  refuses := fun _ => none
  s3refuses := fun _ => none
  shown := fun g => match g with
    | .plain (.str s) => s.toList
    | _ => "None".toList

def settings : Val := .dict [("uploaders", .dict [
  ("pics", .dict [("client", .str "localfs"), ("config", .dict [("dir", .str "img"), ("url", .str "https://x.y")])]),
  ("nourl", .dict [("client", .str "localfs"), ("config", .dict [("dir", .str "img")])]),
  ("oss", .dict [("client", .str "alioss"), ("config", .dict [])]),
  ("s3", .dict [("client", .str "s3"), ("config", .dict [("bucket", .str "b")])])])]

def disk : Disk := { dirs := [], files := fun _ => none, s3 := [], uuids := 0, cache := [], clients := [] }

theorem usual : env.Usual where
  size := fun n => by simp [env]
  plain := fun n => by
    simp only [env, List.mem_append, List.mem_replicate, List.mem_singleton, not_or]
    refine ⟨by simp, ?_⟩
    intro h
    have := digitVal_digitChar n
    rw [← h] at this
    exact absurd this (by simp [digitVal])
  lower := fun _ h => h

theorem distinct : env.Distinct 10 := by
  intro n m hn hm h
  simp only [env, List.append_cancel_left_eq, List.cons.injEq, and_true] at h
  have : ∀ n : Fin 10, ∀ m : Fin 10, digitChar n.1 = digitChar m.1 → n = m := by decide
  exact congrArg Fin.val (this ⟨n, hn⟩ ⟨m, hm⟩ h)

theorem unused : disk.Unused env 10 := fun p hp => absurd rfl hp

def pics : Uploader := ⟨0, .localfs, .conf (.dict [("dir", .str "img"), ("url", .str "https://x.y")])⟩

theorem made : makeUploader settings "pics" 0 = .ok pics := rfl
theorem dir : LocalDir settings "pics" "img" := ⟨pics, made, rfl, rfl⟩

def file (c : Ctx) : Ctx := c.nval (.other 7)

example (c : Ctx) := upload_confined (conf := settings) usual (s := disk) ⟨rfl, rfl⟩ [(.named "pics", file c)] (.named "pics") (file c)
example (c : Ctx) : (uploadTransform env settings (.named "pics") (file c) disk).1 = .ok (.str "https://x.y/public/img/00000000000000000000000000000000.gz") :=
  (upload_stored (conf := settings) usual (s := disk) ⟨rfl, rfl⟩ [] (c := file c) dir made rfl (by simp [file, Ctx.nval]) rfl rfl (fun _ => rfl) (.inr ⟨rfl, fun _ _ => rfl⟩)
    (url := "https://x.y") _ rfl (by simp [uploads, disk])).1.trans (congrArg (fun x => Except.ok (Val.str x)) (by decide +kernel))
example (c : Ctx) := no_url_leaves_file (conf := settings) usual (s := disk) ⟨rfl, rfl⟩ [] (name := "nourl") (dir := "img") (c := file c) ⟨_, rfl, rfl, rfl⟩ rfl rfl
  (by simp [file, Ctx.nval]) rfl rfl (fun _ => rfl) (.inr ⟨rfl, fun _ _ => rfl⟩) _ rfl (by simp [uploads, disk])
example (c : Ctx) (p : FPath) (x : String) (h : (uploads env settings [(.named "pics", file c)] disk).files p = some x) :
    (uploads env settings ([(.named "pics", file c)] ++ [(.named "pics", file c), (.named "s3", file c)]) disk).files p = some x :=
  uploads_never_overwrite (conf := settings) usual distinct ⟨rfl, rfl⟩ unused [(.named "pics", file c)] [(.named "pics", file c), (.named "s3", file c)]
    (show 3 ≤ 10 by decide) p x h
example (c : Ctx) := s3_stored (conf := settings) usual (s := disk) ⟨rfl, rfl⟩ [] (name := "s3") (c := file c) rfl rfl rfl rfl rfl (by simp [file, Ctx.nval]) rfl rfl _ rfl rfl
/-- without an endpoint the URL starts with `None` -/
theorem no_endpoint (c : Ctx) : (uploadTransform env settings (.named "s3") (file c) disk).1 = .ok (.str "None/b/00000000000000000000000000000000.gz") := rfl
example (c : Ctx) := alioss_loses (conf := settings) (E := env) usual (s := disk) ⟨rfl, rfl⟩ [] (name := "oss") rfl rfl (file c)
example (c : Ctx) := text_raises (conf := settings) (E := env) usual (s := disk) ⟨rfl, rfl⟩ [] (name := "pics") (x := "https://x.y/a.png") (c := c.nval (.str "https://x.y/a.png")) made
  (by decide) rfl rfl

/-- the configured directory `/img` is outside of the working directory -/
theorem outside_public : env.dest "/img" = ["img".toList] ∧ env.dest "img" = ["app".toList, "public".toList, "img".toList] := by decide +kernel

end UploadDemo

end JC
