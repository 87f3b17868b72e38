import Verif.Model.Keypath

/-
Conversion between plain and owned containers: outils.py.

A value is a leaf (anything that is neither a list nor a dict), a list or a dict; a
container is plain (`own = none`) or owned, and then it knows its owner and its key path.
Dict keys are strings.
-/
namespace JC

/-- Nested containers. -/
inductive CVal (α : Type) where
  | leaf (a : α)
  | list (own : Option (Nat × String)) (xs : List (CVal α))
  | dict (own : Option (Nat × String)) (kvs : List (String × CVal α))

variable {α : Type}

mutual
/-- `to_owned_dict(owner, dct, keypath)` / `to_owned_list(owner, lst, keypath)`:
outils.py:14-46; on a leaf the value itself, which is the `else` branch of both
loops. -/
def toOwned (o : Nat) (kp : String) : CVal α → CVal α
  | .leaf a => .leaf a
  | .list _ xs => .list (some (o, kp)) (toOwnedItems o kp 0 xs)
  | .dict _ kvs => .dict (some (o, kp)) (toOwnedEntries o kp kvs)
/-- the loop outils.py:35-41 -/
def toOwnedItems (o : Nat) (kp : String) (i : Nat) : List (CVal α) → List (CVal α)
  | [] => []
  | v :: vs => toOwned o (concatKeypath [.s kp, .i i]) v :: toOwnedItems o kp (i + 1) vs
/-- the loop outils.py:18-24 -/
def toOwnedEntries (o : Nat) (kp : String) : List (String × CVal α) → List (String × CVal α)
  | [] => []
  | (k, v) :: kvs => (k, toOwned o (concatKeypath [.s kp, .s k]) v) :: toOwnedEntries o kp kvs
end

mutual
/-- `unowned_copy_dict(any_dict)` / `unowned_copy_list(any_list)`: outils.py:49-69. -/
def unownedCopy : CVal α → CVal α
  | .leaf a => .leaf a
  | .list _ xs => .list none (unownedItems xs)
  | .dict _ kvs => .dict none (unownedEntries kvs)
/-- the loop outils.py:62-68 -/
def unownedItems : List (CVal α) → List (CVal α)
  | [] => []
  | v :: vs => unownedCopy v :: unownedItems vs
/-- the loop outils.py:51-57 -/
def unownedEntries : List (String × CVal α) → List (String × CVal α)
  | [] => []
  | (k, v) :: kvs => (k, unownedCopy v) :: unownedEntries kvs
end

end JC
