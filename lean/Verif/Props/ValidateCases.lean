import Verif.Props.ValidateComplete
import Verif.Props.Demo

/-
C20: the full soundness statement, three reachable situations in which the code violates
it, and a concrete case meeting the hypotheses of the positive theorems.
-/
namespace JC

/-- Every place in `J` holds an instance of the class expected there, all of whose
validated fields are accepted, objects inside values being accepted when their place is
in `J`. -/
def Coherent (env : Env) (w : World) (J : String → Ctx → Prop) : Prop :=
  ∀ cls c, J cls c → ∃ j, c.val = .obj j ∧ env.isSub (w.heap j).cls cls = true ∧ ObjOk env w J c j

/-- The full soundness statement: a successful `validate()` means that nothing reachable is
rejected. (The converse is `validate_complete`.) -/
def ValidateSound (env : Env) (w : World) (i : Nat) (n : Nat) : Prop :=
  (apiValidate env n i none w).1 = .ok () →
    ∃ J, J (w.heap i).cls (rootCtx w i {} (.obj i)) ∧ Coherent env w J

namespace Demo

/-- A holder whose field accepts a `User` or a `Post`. -/
def fEither : Field := { name := "either", jsonName := "either",
                         chain := [.union [[.instOf "User" none], [.instOf "Post" none]]] }
def fUser : Field := { name := "u", jsonName := "u", ftype := .inst, isInst := true,
                       chain := [.instOf "User" none] }
def fPost : Field := { name := "p", jsonName := "p", ftype := .inst, isInst := true,
                       chain := [.instOf "Post" none] }
def fUser2 : Field := { name := "u2", jsonName := "u2", ftype := .inst, isInst := true,
                        chain := [.instOf "User" none] }
def holder : ClassDef := { name := "Holder", fields := [fEither, fUser, fPost, fUser2] }
def env2 : Env := { env with cls := fun n => if n = "Holder" then holder else env.cls n }

/-- The holder's union field holds a user without the required name. -/
def worldUnion : World where
  heap := fun i => match i with
    | 0 => { cls := "Holder", isNew := true, attrs := attrsOf [("either", .obj 1)] }
    | 1 => { cls := "User", isNew := true, attrs := attrsOf [("id", .str "u")] }
    | _ => {}
  next := 2
/-- The holder's post is a (valid) user, reached first as a user. -/
def worldClass : World where
  heap := fun i => match i with
    | 0 => { cls := "Holder", isNew := true, attrs := attrsOf [("u", .obj 1), ("p", .obj 1)] }
    | 1 => { cls := "User", isNew := true, attrs := attrsOf [("id", .str "u"), ("name", .str "ann")] }
    | _ => {}
  next := 2
/-- Two user objects with the same primary key, the second without a name. -/
def worldDup : World where
  heap := fun i => match i with
    | 0 => { cls := "Holder", isNew := true, attrs := attrsOf [("u", .obj 1), ("u2", .obj 2)] }
    | 1 => { cls := "User", isNew := true, attrs := attrsOf [("id", .str "u"), ("name", .str "ann")] }
    | 2 => { cls := "User", isNew := true, attrs := attrsOf [("id", .str "u")] }
    | _ => {}
  next := 3

theorem checked_single (m : Mod) (h1 : m.isEagerM = false) (h2 : m.isPreM = false) : Checked [m] m :=
  ⟨[], [], rfl, by simpa using h1, by simpa using h2⟩

/-- a nameless new user is never fine -/
theorem nameless_bad {w : World} {J : String → Ctx → Prop} {c : Ctx} {j : Nat}
    (hc : (w.heap j).cls = "User") (hnew : (w.heap j).isNew = true) (hn : (w.heap j).attrs "name" = .none)
    (h : ObjOk env2 w J c j) : False := by
  have hcd : w.cdef env2 j = user := by unfold World.cdef; rw [hc]; rfl
  obtain ⟨v, hv, ha⟩ := h fName (by rw [hcd]; simp [user]) (by simp [MustCheck, hnew])
  have hf : user.field? fName.name = some fName := rfl
  have hs : fName.store ≠ .calculated := by decide
  have hval : v = .none := by
    simp only [World.getattr, hcd, hf, if_neg hs, World.attr] at hv
    rw [show fName.name = "name" from rfl, hn] at hv
    cases hv; rfl
  subst hval
  cases ha (.leaf reqStr) (checked_single _ rfl rfl) with
  | leaf h =>
    have hne : fName.ftype ≠ .inst := by decide
    simp only [fieldCtx, if_neg hne, reqStr, Ctx.nextvo] at h
    cases h

/-- the value of a holder's field, from coherence -/
theorem holder_field {w : World} {J : String → Ctx → Prop} (hJ : Coherent env2 w J)
    (h0 : (w.heap 0).cls = "Holder") (h1 : (w.heap 0).isNew = true)
    (hroot : J (w.heap 0).cls (rootCtx w 0 {} (.obj 0))) (f : Field) (hf : f ∈ holder.fields) (m : Mod)
    (hm : Checked f.chain m) :
    ∃ v, w.getattr env2 0 f.name = .ok v ∧ Accepted J w.heap m (fieldCtx env2 w (rootCtx w 0 {} (.obj 0)) 0 f v) := by
  obtain ⟨j, hj, -, hok⟩ := hJ _ _ hroot
  have : j = 0 := by simpa [rootCtx] using hj.symm
  subst this
  have hcd : w.cdef env2 0 = holder := by unfold World.cdef; rw [h0]; rfl
  obtain ⟨v, hv, ha⟩ := hok f (by rw [hcd]; exact hf) (by simp [MustCheck, h1])
  exact ⟨v, hv, ha m hm⟩

end Demo

open Demo

/-- Soundness fails for a union of object types: the first alternative rejects the user
for lacking a name, but leaves it marked as visited, so the second alternative accepts it
although it is not even a post. -/
theorem validate_union_unsound : ∃ n, ¬ ValidateSound env2 worldUnion 0 n := by
  refine ⟨4, fun h => ?_⟩
  obtain ⟨J, hroot, hJ⟩ := h rfl
  obtain ⟨v, hv, ha⟩ := holder_field hJ rfl rfl hroot fEither (by simp [holder])
    (.union [[.instOf "User" none], [.instOf "Post" none]]) (checked_single _ rfl rfl)
  have hv' : v = .obj 1 := by
    have : worldUnion.getattr env2 0 fEither.name = .ok (.obj 1) := rfl
    rw [this] at hv; cases hv; rfl
  subst hv'
  cases ha with
  | unionNone h => cases h
  | @union alts a c hmem hacc =>
    rcases List.mem_cons.1 hmem with rfl | hmem
    · cases hacc (.instOf "User" none) (checked_single _ rfl rfl) with
      | instNone h => cases h
      | inst h =>
        obtain ⟨j, hj, -, hok⟩ := hJ _ _ h
        cases hj
        exact nameless_bad rfl rfl rfl hok
    · rcases List.mem_singleton.1 hmem with rfl
      cases hacc (.instOf "Post" none) (checked_single _ rfl rfl) with
      | instNone h => cases h
      | inst h =>
        obtain ⟨j, hj, hs, -⟩ := hJ _ _ h
        cases hj
        revert hs; decide

/-- Soundness fails when an object is met a second time where another class is expected:
the visited mark is consulted before the class check. -/
theorem validate_class_unsound : ∃ n, ¬ ValidateSound env2 worldClass 0 n := by
  refine ⟨4, fun h => ?_⟩
  obtain ⟨J, hroot, hJ⟩ := h rfl
  obtain ⟨v, hv, ha⟩ := holder_field hJ rfl rfl hroot fPost (by simp [holder])
    (.instOf "Post" none) (checked_single _ rfl rfl)
  have hv' : v = .obj 1 := by
    have : worldClass.getattr env2 0 fPost.name = .ok (.obj 1) := rfl
    rw [this] at hv; cases hv; rfl
  subst hv'
  cases ha with
  | instNone h => cases h
  | inst h =>
    obtain ⟨j, hj, hs, -⟩ := hJ _ _ h
    cases hj
    revert hs; decide

/-- Soundness fails for two objects of one class with the same primary key: the second one
is never looked at. -/
theorem validate_duplicate_unsound : ∃ n, ¬ ValidateSound env2 worldDup 0 n := by
  refine ⟨4, fun h => ?_⟩
  obtain ⟨J, hroot, hJ⟩ := h rfl
  obtain ⟨v, hv, ha⟩ := holder_field hJ rfl rfl hroot fUser2 (by simp [holder])
    (.instOf "User" none) (checked_single _ rfl rfl)
  have hv' : v = .obj 2 := by
    have : worldDup.getattr env2 0 fUser2.name = .ok (.obj 2) := rfl
    rw [this] at hv; cases hv; rfl
  subst hv'
  cases ha with
  | instNone h => cases h
  | inst h =>
    obtain ⟨j, hj, -, hok⟩ := hJ _ _ h
    cases hj
    exact nameless_bad rfl rfl rfl hok

namespace Demo

theorem reqStr_proper (h : Heap) (c : Ctx) : reqStr.validate h c ≠ .error (.validation []) := by
  simp only [reqStr]; split <;> simp [Ctx.vexc]
theorem optStr_proper (h : Heap) (c : Ctx) : optStr.validate h c ≠ .error (.validation []) := by
  simp only [optStr]; split <;> simp [Ctx.vexc]

theorem soundEnv : SoundEnv env where
  errors := by
    constructor
    · intro cls f hf
      rcases env_cases cls with h | h | h <;> rw [h] at hf
      · simp only [user, List.mem_cons, List.not_mem_nil, or_false] at hf
        rcases hf with rfl | rfl | rfl | rfl | rfl | rfl <;>
          simp [fId, fName, fSecret, fTmp, fFriend, fPosts, Mod.AllL, Mod.All, reqStr_proper, optStr_proper]
      · simp only [post, List.mem_cons, List.not_mem_nil, or_false] at hf
        rcases hf with rfl | rfl | rfl <;>
          simp [fId, fName, fAuthor, Mod.AllL, Mod.All, reqStr_proper, optStr_proper]
      · cases hf
    · intro cls f hf
      rcases env_cases cls with h | h | h <;> rw [h] at hf
      · simp only [user, List.mem_cons, List.not_mem_nil, or_false] at hf
        rcases hf with rfl | rfl | rfl | rfl | rfl | rfl <;> intro _ _ _ h <;> cases h
      · simp only [post, List.mem_cons, List.not_mem_nil, or_false] at hf
        rcases hf with rfl | rfl | rfl <;> intro _ _ _ h <;> cases h
      · cases hf
  unions := by
    intro cls f hf
    rcases env_cases cls with h | h | h <;> rw [h] at hf
    · simp only [user, List.mem_cons, List.not_mem_nil, or_false] at hf
      rcases hf with rfl | rfl | rfl | rfl | rfl | rfl <;>
        simp [fId, fName, fSecret, fTmp, fFriend, fPosts, Mod.PlainUnionsL, Mod.PlainUnions]
    · simp only [post, List.mem_cons, List.not_mem_nil, or_false] at hf
      rcases hf with rfl | rfl | rfl <;>
        simp [fId, fName, fAuthor, Mod.PlainUnionsL, Mod.PlainUnions]
    · cases hf

/-- the hypotheses of `validate_sound_partial` hold for the cyclic demo graph -/
example : SoundEnv env ∧ (apiValidate env 6 0 none world).1 = .ok () := ⟨soundEnv, rfl⟩

/-- and the same graph with the other user's name removed is rejected, wherever one starts -/
example : ∃ msgs, (apiValidate env 6 2 none
    { world with heap := fun i => if i = 1 then { world.heap 1 with isNew := true, attrs := attrsOf [("id", .str "u1"), ("friend", .obj 0)] }
                                  else world.heap i }).1 = .error (.validation msgs) := ⟨_, rfl⟩

/-- a coherent family for `validate_complete`: a valid user without relations -/
def worldOne : World where
  heap := fun i => match i with
    | 0 => { cls := "User", isNew := true, attrs := attrsOf [("id", .str "u"), ("name", .str "ann")] }
    | _ => {}
  next := 1

example : ∃ J : String → Ctx → Prop, J "User" (rootCtx worldOne 0 {} (.obj 0)) ∧ Coherent env worldOne J := by
  refine ⟨fun cls c => cls = "User" ∧ c = rootCtx worldOne 0 {} (.obj 0), ⟨rfl, rfl⟩, ?_⟩
  rintro cls c ⟨rfl, rfl⟩
  refine ⟨0, rfl, rfl, ?_⟩
  intro f hf _
  change f ∈ [fId, fName, fSecret, fTmp, fFriend, fPosts] at hf
  simp only [List.mem_cons, List.not_mem_nil, or_false] at hf
  have one : ∀ {x m : Mod}, Checked [x] m → m = x := by
    rintro x m ⟨a, b, h, -, -⟩
    have : m ∈ [x] := by rw [h]; simp
    simpa using this
  rcases hf with rfl | rfl | rfl | rfl | rfl | rfl
  · exact ⟨.str "u", rfl, fun m hm => one hm ▸ .leaf rfl⟩
  · exact ⟨.str "ann", rfl, fun m hm => one hm ▸ .leaf rfl⟩
  · exact ⟨.none, rfl, fun m hm => one hm ▸ .leaf rfl⟩
  · exact ⟨.none, rfl, fun m hm => one hm ▸ .leaf rfl⟩
  · exact ⟨.none, rfl, fun m hm => one hm ▸ .instNone rfl⟩
  · exact ⟨.none, rfl, fun m hm => one hm ▸ .listNone rfl⟩

end Demo
end JC
