import Verif.Props.Frame
import Verif.Props.Demo

/-
C31: new objects are not marked modified.
-/
namespace JC
variable {env : Env}

/-! ### Specification -/

/-- A history: operations on any objects; exceptions are caught. -/
def runHist (env : Env) : List (Nat × FOp) → World → World
  | [], w => w
  | (i, op) :: ops, w => runHist env ops (op.run env i w).2

/-- The operation is an assignment, or a method of a list or dict whose previous value is
not recorded: the field is a relation, or reset is enabled neither for the class nor for
the field. -/
def RecordsNothing (cd : ClassDef) : FOp → Prop
  | .set _ _ => True
  | .lst n _ => ∀ f, cd.field? n = some f → f.isRef = true ∨ (cd.resetAllFields = false ∧ f.hasReset = false)
  | .dct n _ => ∀ f, cd.field? n = some f → f.isRef = true ∨ (cd.resetAllFields = false ∧ f.hasReset = false)

/-! ### Proof -/

/-- the modified flag of a new object -/
def FlagInv (b : Bool) (i : Nat) (w : World) : Prop := (w.heap i).isNew = true ∧ (w.heap i).isModified = b

/-- a step that changes values only -/
theorem rawSet_core (j : Nat) (n : String) (v : Val) (w : World) (i : Nat) :
    ((rawSet j n v w).2.heap i).isNew = (w.heap i).isNew ∧ ((rawSet j n v w).2.heap i).isModified = (w.heap i).isModified ∧
    ((rawSet j n v w).2.heap i).prev = (w.heap i).prev ∧ ((rawSet j n v w).2.heap i).modFields = (w.heap i).modFields ∧
    ((rawSet j n v w).2.heap i).cls = (w.heap i).cls := by
  have h : (rawSet j n v w).2 = w.upd j (fun o => { o with attrs := fun m => if m = n then v else o.attrs m }) := rfl
  rw [h]
  by_cases hj : i = j
  · subst hj; simp [World.upd]
  · simp [World.upd, hj]

theorem flagInv_closed (env : Env) (b : Bool) (i : Nat) : LinkClosed env (FlagInv b i) where
  quiet := by
    rintro w w' ⟨h1, h2⟩ ⟨_, _, h⟩
    obtain ⟨_, _, h3, h4⟩ := h i
    exact ⟨by rw [h3, h1], by rw [(h4 h1).1, h2]⟩
  rel := by
    rintro w j n v _ ⟨h1, h2⟩
    obtain ⟨h3, h4, _⟩ := rawSet_core j n v w i
    exact ⟨by rw [h3, h1], by rw [h4, h2]⟩

theorem kp_forEvs {I : World → Prop} {ε : Type} {run : ε → Py World Unit} (log : List ε) (h : ∀ e ∈ log, Kp' I (run e)) :
    Kp' I (forEvs run log) := by
  induction log with
  | nil => exact Kp.pure' ()
  | cons e es ih => exact (h e (by simp)).bind' (fun _ => ih (fun e' h' => h e' (by simp [h'])))

theorem kp_raiseOpt {I : World → Prop} (e : Option Exc) : Kp' I (raiseOpt e) := by
  cases e
  · exact Kp.pure' ()
  · exact Kp.raise _

theorem kp_odictAdd {I : World → Prop} (C : LinkClosed env I) (i : Nat) (n : String) (m : Nat) : ∀ v, Kp' I (odictAdd i n m v) := by
  induction m with
  | zero => intro v; exact Kp.raise _
  | succ m ih =>
    intro v
    cases v with
    | list xs => exact (kp_markModified C _ _).bind' (fun _ => ih _)
    | dict xs => exact (kp_markModified C _ _).bind' (fun _ => ih _)
    | _ => exact kp_markModified C _ _

/-- an operation keeps what bookkeeping keeps, given the announcement and the write -/
theorem kp_fop {I : World → Prop} (C : LinkClosed env I) {i : Nat} {op : FOp}
    (hw : (∀ n v, op ≠ .set n v) → ∀ b, Kp' I (willChange env b i op.name)) (hs : ∀ v, Kp' I (rawSet i op.name v)) : Kp' I (op.run env i) := by
  cases op with
  | set n v => exact kp_setAttr C (hs v)
  | lst n op =>
    have hw := hw (by intro _ _ h; cases h)
    refine Kp.get.bind (fun w _ => ?_)
    cases w.attr i n with
    | list xs =>
      refine (kp_forEvs _ (fun e he => ?_)).bind' (fun _ => (hs _).bind' (fun _ => (kp_forEvs _ (fun e he => ?_)).bind' (fun _ => kp_raiseOpt _)))
      · cases e with
        | will => exact hw false
        | _ => simp [LEv.isWill] at he
      · cases e with
        | will => simp [LEv.isWill] at he
        | add k v => exact kp_runL C _ (.add ..) trivial
        | del v => exact kp_runU C _ (.del ..) trivial
        | sor => exact kp_markModified C _ _
    | _ => exact Kp.raise _
  | dct n op =>
    have hw := hw (by intro _ _ h; cases h)
    refine Kp.get.bind (fun w _ => ?_)
    cases w.attr i n with
    | dict kvs =>
      refine (kp_forEvs _ (fun e he => ?_)).bind' (fun _ => (hs _).bind' (fun _ => (kp_forEvs _ (fun e he => ?_)).bind' (fun _ => kp_raiseOpt _)))
      · cases e with
        | will => exact hw true
        | _ => simp [DEv.isWill] at he
      · cases e with
        | will => simp [DEv.isWill] at he
        | add k v => exact kp_odictAdd C _ _ _ _
        | del v => exact kp_markModified C _ _
    | _ => exact Kp.raise _

/-- an announcement changes previous values only -/
theorem willChange_core (b : Bool) (j : Nat) (n : String) (w : World) (i : Nat) :
    ((willChange env b j n w).2.heap i).isNew = (w.heap i).isNew ∧ ((willChange env b j n w).2.heap i).isModified = (w.heap i).isModified ∧
    ((willChange env b j n w).2.heap i).modFields = (w.heap i).modFields ∧ ((willChange env b j n w).2.heap i).cls = (w.heap i).cls := by
  simp only [willChange]
  cases (w.cdef env j).field? n with
  | none => cases b <;> exact ⟨rfl, rfl, rfl, rfl⟩
  | some f =>
    simp only []
    split
    · by_cases hj : i = j
      · subst hj; simp [World.upd]
      · simp [World.upd, hj]
    · exact ⟨rfl, rfl, rfl, rfl⟩

theorem runHist_keeps {I : World → Prop} (ops : List (Nat × FOp)) : (∀ p ∈ ops, Kp' I (p.2.run env p.1)) →
    ∀ {w : World}, I w → I (runHist env ops w) := by
  induction ops with
  | nil => intro _ w h; exact h
  | cons p ops ih =>
    intro hk w h
    obtain ⟨i, op⟩ := p
    exact ih (fun p hp => hk p (by simp [hp])) ((hk (i, op) (by simp)) w h).1

/-- **C31** (modified flag): whatever assignments and list and dict methods are performed,
on this object and on any others, linked to it or not, an object that is new stays new and
its `is_modified` does not change. -/
theorem new_never_modified {ops : List (Nat × FOp)} {w : World} {i : Nat} (hn : (w.heap i).isNew = true) :
    ((runHist env ops w).heap i).isNew = true ∧ ((runHist env ops w).heap i).isModified = (w.heap i).isModified := by
  refine runHist_keeps (I := FlagInv (w.heap i).isModified i) ops (fun p _ => ?_) ⟨hn, rfl⟩
  refine kp_fop (flagInv_closed env _ i) (fun _ b w' h => ?_) (fun v w' h => ?_)
  · obtain ⟨h1, h2, _⟩ := willChange_core (env := env) b p.1 p.2.name w' i
    exact ⟨⟨by rw [h1, h.1], by rw [h2, h.2]⟩, fun _ _ => trivial⟩
  · obtain ⟨h1, h2, _⟩ := rawSet_core p.1 p.2.name v w' i
    exact ⟨⟨by rw [h1, h.1], by rw [h2, h.2]⟩, fun _ _ => trivial⟩

/-- previous values of a new object -/
def PrevKept (cls : String) (p : List (String × Val)) (i : Nat) (w : World) : Prop :=
  (w.heap i).isNew = true ∧ (w.heap i).prev = p ∧ (w.heap i).cls = cls

theorem prevKept_closed (hR : RelNames env) (cls : String) (p : List (String × Val)) (i : Nat) : LinkClosed env (PrevKept cls p i) where
  quiet := by
    rintro w w' ⟨h1, h2, h0⟩ ⟨_, _, h⟩
    obtain ⟨h5, _, h3, h4⟩ := h i
    exact ⟨by rw [h3, h1], by rw [(h4 h1).2.1 hR, h2], by rw [h5, h0]⟩
  rel := by
    rintro w j n v _ ⟨h1, h2, h0⟩
    obtain ⟨h3, _, h4, _, h5⟩ := rawSet_core j n v w i
    exact ⟨by rw [h3, h1], by rw [h4, h2], by rw [h5, h0]⟩

/-- **C31** (previous values), in part: no assignment, and no list or dict method on
a relation field or on a field without reset, records previous values of a new object.
Missing: methods on a plain list or dict with reset enabled do record them
(`NewObjDemo.new_list_change_records_previous`). Names of relation fields and reference keys
are not reused for plain fields. -/
theorem new_previous_partial (hR : RelNames env) {ops : List (Nat × FOp)} {w : World} {i : Nat} (hn : (w.heap i).isNew = true)
    (h : ∀ op, (i, op) ∈ ops → RecordsNothing (w.cdef env i) op) : ((runHist env ops w).heap i).prev = (w.heap i).prev := by
  refine (runHist_keeps (I := PrevKept (w.heap i).cls (w.heap i).prev i) ops (fun p hp => ?_) ⟨hn, rfl, rfl⟩).2.1
  obtain ⟨j, op⟩ := p
  refine kp_fop (prevKept_closed hR _ _ i) (fun hset b w' hI => ?_) (fun v w' hI => ?_)
  · refine ⟨?_, fun _ _ => trivial⟩
    obtain ⟨h1, _, _, h2⟩ := willChange_core (env := env) b j op.name w' i
    refine ⟨by rw [h1, hI.1], ?_, by rw [h2, hI.2.2]⟩
    rw [← hI.2.1]
    simp only [willChange]
    cases hf : (w'.cdef env j).field? op.name with
    | none => cases b <;> rfl
    | some f =>
      simp only []
      split
      · rename_i hc
        by_cases hj : i = j
        · subst hj
          exfalso
          have hcd : w'.cdef env i = w.cdef env i := by unfold World.cdef; rw [hI.2.2]
          rw [hcd] at hf hc
          have : f.isRef = true ∨ ((w.cdef env i).resetAllFields = false ∧ f.hasReset = false) := by
            cases op with
            | set n v => exact absurd rfl (hset n v)
            | lst n op => exact h _ hp f hf
            | dct n op => exact h _ hp f hf
          rcases this with h' | ⟨h', h''⟩
          · simp [h'] at hc
          · simp [recordsPrev, h', h''] at hc
        · simp only [World.upd, if_neg hj]
      · rfl
  · obtain ⟨h1, _, h2, _, h3⟩ := rawSet_core j op.name v w' i
    exact ⟨⟨by rw [h1, hI.1], by rw [h2, hI.2.1], by rw [h3, hI.2.2]⟩, fun _ _ => trivial⟩

/-- names of modified fields of a new object -/
def NamesKept (p : List String) (i : Nat) (w : World) : Prop := (w.heap i).isNew = true ∧ (w.heap i).modFields = p

/-- **C31** (modified names), in part: in a class graph without local keys the
`modified_fields` of a new object never change. Missing: with a local key they do
(`NewObjDemo.new_object_gets_modified_field`). -/
theorem new_modified_names_partial (hN : NoLocalKeys env) {ops : List (Nat × FOp)} {w : World} {i : Nat} (hn : (w.heap i).isNew = true) :
    ((runHist env ops w).heap i).modFields = (w.heap i).modFields := by
  have C : LinkClosed env (NamesKept (w.heap i).modFields i) := {
    quiet := by
      rintro w₁ w₂ ⟨h1, h2⟩ ⟨_, _, h⟩
      obtain ⟨_, _, h3, h4⟩ := h i
      exact ⟨by rw [h3, h1], by rw [(h4 h1).2.2 hN, h2]⟩
    rel := by
      rintro w₁ j n v _ ⟨h1, h2⟩
      obtain ⟨h3, _, _, h4, _⟩ := rawSet_core j n v w₁ i
      exact ⟨by rw [h3, h1], by rw [h4, h2]⟩ }
  refine (runHist_keeps ops (fun p _ => ?_) ⟨hn, rfl⟩ : NamesKept _ i _).2
  refine kp_fop C (fun _ b w' h => ?_) (fun v w' h => ?_)
  · obtain ⟨h1, _, h2, _⟩ := willChange_core (env := env) b p.1 p.2.name w' i
    exact ⟨⟨by rw [h1, h.1], by rw [h2, h.2]⟩, fun _ _ => trivial⟩
  · obtain ⟨h1, _, _, h2, _⟩ := rawSet_core p.1 p.2.name v w' i
    exact ⟨⟨by rw [h1, h.1], by rw [h2, h.2]⟩, fun _ _ => trivial⟩

end JC

namespace JC.NewObjDemo
open JC
open JC.Demo (env world fId fName fSecret fTmp fFriend fPosts fAuthor user post env_cases)

theorem relName_cases {n : String} (h : RelName env n) : n = "friend" ∨ n = "posts" ∨ n = "author" ∨ n = "author_id" ∨ n = "" := by
  obtain ⟨c, f, hf, h⟩ := h
  have hm : f = fId ∨ f = fName ∨ f = fSecret ∨ f = fTmp ∨ f = fFriend ∨ f = fPosts ∨ f = fAuthor := by
    rcases env_cases c with h | h | h <;> rw [h] at hf
    · simp only [user, List.mem_cons, List.not_mem_nil, or_false] at hf
      rcases hf with rfl | rfl | rfl | rfl | rfl | rfl <;> simp
    · simp only [post, List.mem_cons, List.not_mem_nil, or_false] at hf
      rcases hf with rfl | rfl | rfl <;> simp
    · cases hf
  rcases hm with rfl | rfl | rfl | rfl | rfl | rfl | rfl
  all_goals
    rcases h with ⟨h, rfl⟩ | rfl | ⟨h, of, ho, rfl⟩
    · first | exact absurd h (by decide) | decide
    · decide
    · first | exact absurd h (by decide) | (cases ho; decide)

theorem relNames : RelNames env := by
  intro c n f hn hf
  have key : ∀ m ∈ ["friend", "posts", "author", "author_id", ""], ∀ cd ∈ [user, post, {}], ∀ g, cd.field? m = some g → g.isRef = true := by
    intro m hm cd hcd g hg
    simp only [List.mem_cons, List.not_mem_nil, or_false] at hm hcd
    rcases hcd with rfl | rfl | rfl <;> rcases hm with rfl | rfl | rfl | rfl | rfl <;> first
      | (cases (show (none : Option Field) = some g from hg))
      | (cases (show some fFriend = some g from hg); rfl)
      | (cases (show some fPosts = some g from hg); rfl)
      | (cases (show some fAuthor = some g from hg); rfl)
  refine key n ?_ (env.cls c) ?_ f hf
  · rcases relName_cases hn with h | h | h | h | h <;> simp [h]
  · rcases env_cases c with h | h | h <;> simp [h]

/-- Both users and the post are new; the friend is replaced, a post is removed, a name is
set. -/
def ops : List (Nat × FOp) := [(0, .set "friend" .none), (0, .lst "posts" (.pop none)), (1, .set "name" (.str "eve")), (2, .set "author" (.obj 1))]

example : ((runHist env ops world).heap 0).isModified = false ∧ ((runHist env ops world).heap 0).prev = [] ∧
    (runHist env ops world).attr 0 "posts" = .list [] ∧ (runHist env ops world).attr 1 "name" = .str "eve" := by
  refine ⟨(new_never_modified (i := 0) rfl).2, new_previous_partial relNames (i := 0) rfl ?_, ?_, ?_⟩
  · intro op h
    simp only [ops, List.mem_cons, Prod.mk.injEq, List.not_mem_nil, or_false, true_and] at h
    rcases h with rfl | rfl | ⟨h, _⟩ | ⟨h, _⟩
    · trivial
    · intro f hf
      cases (show some fPosts = some f from hf)
      exact .inl rfl
    · cases h
    · cases h
  · rfl
  · rfl

/-- A new post is removed from its author's list: the post is new and not modified, but it
reports `author` among its modified fields. -/
theorem new_object_gets_modified_field :
    (world.heap 2).isNew = true ∧ (world.heap 2).modFields = [] ∧
    ((runHist env [(0, .set "posts" (.list []))] world).heap 2).isNew = true ∧
    ((runHist env [(0, .set "posts" (.list []))] world).heap 2).modFields = ["author"] := by
  refine ⟨rfl, rfl, rfl, ?_⟩
  rfl

/-- a class with reset enabled and a list field -/
def doc : ClassDef := { name := "Doc", fields := [{ name := "tags", jsonName := "tags", ftype := .list }], resetAllFields := true }
def env₂ : Env where
  cls := fun _ => doc
  pystr := fun _ => ""
def world₂ : World where
  heap := fun _ => { cls := "Doc", attrs := Demo.attrsOf [("tags", .list [.str "a"])] }
  next := 1

/-- Appending to a list of a new object records the previous value. -/
theorem new_list_change_records_previous :
    (world₂.heap 0).isNew = true ∧ (world₂.heap 0).prev = [] ∧
    ((runHist env₂ [(0, .lst "tags" (.append (.str "b")))] world₂).heap 0).isNew = true ∧
    ((runHist env₂ [(0, .lst "tags" (.append (.str "b")))] world₂).heap 0).prev = [("tags", .list [.str "a"])] :=
  ⟨rfl, rfl, rfl, rfl⟩

/-- no local keys: `modified_fields` stays empty -/
example : ((runHist env₂ [(0, .lst "tags" (.append (.str "b"))), (0, .set "tags" .none)] world₂).heap 0).modFields = [] :=
  new_modified_names_partial (by
    intro c f hf
    have hf' : f ∈ doc.fields := hf
    simp only [doc, List.mem_cons, List.not_mem_nil, or_false] at hf'
    subst hf'; decide) rfl

end JC.NewObjDemo
