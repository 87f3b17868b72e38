import Verif.Model.Instance

/-
A small concrete program used by the non-vacuity examples: a class `User` with a primary
key, a required name, a secret (writeonly) and a temp field, a one-to-one relation to
itself and a list of posts; a class `Post` with an author.
-/
namespace JC.Demo

/-- `types.str.required`-like validator -/
def reqStr : Leaf where
  validate := fun _ c => match c.val with
    | .str _ => .ok ()
    | .none => .error (c.vexc "value required")
    | _ => .error (c.vexc "value is not str")

/-- `types.str` -/
def optStr : Leaf where
  validate := fun _ c => match c.val with
    | .str _ => .ok ()
    | .none => .ok ()
    | _ => .error (c.vexc "value is not str")

def fId : Field := { name := "id", jsonName := "id", chain := [.leaf optStr] }
def fName : Field := { name := "name", jsonName := "name", chain := [.leaf reqStr] }
def fSecret : Field := { name := "secret", jsonName := "secret", noRead := true,
                         chain := [.leaf optStr] }
def fTmp : Field := { name := "tmp", jsonName := "tmp", store := .temp, chain := [.leaf optStr] }
def fFriend : Field := { name := "friend", jsonName := "friend", store := .foreignKey, ftype := .inst,
                         isInst := true, foreign := some ("User", "friend"),
                         chain := [.instOf "User" none] }
def fPosts : Field := { name := "posts", jsonName := "posts", store := .foreignKey, ftype := .list,
                        foreign := some ("Post", "author"),
                        chain := [.listOf false .no [.instOf "Post" none]] }
def fAuthor : Field := { name := "author", jsonName := "author", store := .localKey, ftype := .inst,
                         isInst := true, refName := "author_id", jrefName := "authorId",
                         foreign := some ("User", "posts"),
                         chain := [.instOf "User" none] }

def user : ClassDef := { name := "User", primary := some "id",
                         fields := [fId, fName, fSecret, fTmp, fFriend, fPosts] }
def post : ClassDef := { name := "Post", primary := some "id",
                         fields := [fId, fName, fAuthor] }

def env : Env where
  cls := fun n => if n = "User" then user else if n = "Post" then post else {}
  pystr := fun v => match v with
    | .str s => s
    | _ => ""

/-- attributes from a table -/
def attrsOf (kvs : List (String × Val)) : String → Val := fun n => (dictGet kvs n).getD .none

/-- Two users who are each other's friend, and a post of the first one: a cyclic graph. -/
def world : World where
  heap := fun i => match i with
    | 0 => { cls := "User", attrs := attrsOf [("id", .str "u0"), ("name", .str "ann"),
             ("secret", .str "s"), ("friend", .obj 1), ("posts", .list [.obj 2])] }
    | 1 => { cls := "User", attrs := attrsOf [("id", .str "u1"), ("name", .str "bob"),
             ("friend", .obj 0)] }
    | 2 => { cls := "Post", attrs := attrsOf [("id", .str "p"), ("name", .str "post"),
             ("author", .obj 0), ("author_id", .str "u0")] }
    | _ => {}
  next := 3

/-- the field of each class by cases -/
theorem env_cases (cls : String) : env.cls cls = user ∨ env.cls cls = post ∨ env.cls cls = {} := by
  simp only [env]
  split
  · exact .inl rfl
  · split
    · exact .inr (.inl rfl)
    · exact .inr (.inr rfl)

end JC.Demo
