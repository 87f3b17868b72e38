import Verif.Model.World

/-
The object graph as an API: ograph.py. The tables and the merge are in Model/World
(`gLookup`, `gPut`, `graphKey`, `mergeLoop`, `linkGraph`).
-/
namespace JC
variable (env : Env)

/-- the content of a graph: class name and `str(id)` to object -/
abbrev GTable := List ((String × String) × Nat)

/-- `OGraph.put`: ograph.py:54-61. -/
def ographPut (w : World) (i : Nat) (g : GTable) : Except Exc GTable :=
  match graphKey env w i with
  | .error e => .error e
  | .ok k => .ok (gPut k i g)

/-- `OGraph.get`: ograph.py:68-74. -/
def ographGet (w : World) (i : Nat) (g : GTable) : Except Exc (Option Nat) :=
  match graphKey env w i with
  | .error e => .error e
  | .ok k => .ok (gLookup g k)

/-- `OGraph.has`: ograph.py:63-66. -/
def ographHas (w : World) (i : Nat) (g : GTable) : Except Exc Bool :=
  match ographGet env w i g with
  | .error e => .error e
  | .ok r => .ok r.isSome

/-- `OGraph(objects)` for a list of objects: ograph.py:17-27. The first object that cannot
be put ends the loop silently. -/
def ographInit (w : World) : List Nat → GTable → GTable
  | [], g => g
  | i :: is, g => match ographPut env w i g with
    | .error _ => g
    | .ok g' => ographInit w is g'

/-- `list(graph)`: ograph.py:29-34 (grouped by class there; the order is not used). -/
def ographIter (g : GTable) : List Nat := g.map Prod.snd

end JC
