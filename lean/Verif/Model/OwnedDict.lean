import Verif.Model.Value

/-
Owned dicts: odict.py. As for owned lists: first Python's own `dict` (the `super()`
calls), then the methods of `OwnedDict` with the calls made to the owner. Keys are
strings; a dict is a list of pairs in insertion order with distinct keys. The owner's
callbacks are assumed not to touch the dict or raise. Calls with a wrong number of
arguments or an argument that is not a collection of pairs (TypeError) are left out.
-/
namespace JC
variable {α : Type}

/-- An argument giving pairs: a mapping or another re-iterable collection, or an iterator
(consumed by one pass). -/
inductive DArg (α : Type) where
  | map (kvs : List (String × α))
  | iter (kvs : List (String × α))

/-- The dict operations. -/
inductive DOp (α : Type) where
  | clear
  | pop (k : String) (dflt : Option α)
  | popitem
  | setdefault1 (k : String)
  | setdefault2 (k : String) (v : α)
  | update (a : DArg α) (kw : List (String × α))
  | setItem (k : String) (v : α)
  | delItem (k : String)
  | ior (a : DArg α)

/-- what a call returns -/
inductive DRet (α : Type) where
  | none
  | val (v : α)
  | pair (k : String) (v : α)

/-- the pairs of an argument -/
def DArg.pairs : DArg α → List (String × α)
  | .map kvs => kvs
  | .iter kvs => kvs

/-- the pairs of an argument that was iterated once already -/
def DArg.again : DArg α → List (String × α)
  | .map kvs => kvs
  | .iter _ => []

/-- `del d[k]` -/
def dictDrop (k : String) (d : List (String × α)) : List (String × α) := d.filter (fun kv => !(kv.1 == k))

/-- The operations on a plain dict: exception, returned value, contents. `nul` is
None. -/
def plainDOp (nul : α) (op : DOp α) (d : List (String × α)) : Option Exc × DRet α × List (String × α) :=
  match op with
  | .clear => (none, .none, [])
  | .pop k dflt => match dictGet d k, dflt with
    | some v, _ => (none, .val v, dictDrop k d)
    | none, some w => (none, .val w, d)
    | none, none => (some .keyError, .none, d)
  | .popitem => match d.getLast? with
    | some kv => (none, .pair kv.1 kv.2, d.dropLast)
    | none => (some .keyError, .none, d)
  | .setdefault1 k => match dictGet d k with
    | some v => (none, .val v, d)
    | none => (none, .val nul, dictSet k nul d)
  | .setdefault2 k v => match dictGet d k with
    | some w => (none, .val w, d)
    | none => (none, .val v, dictSet k v d)
  | .update a kw => (none, .none, dictUpdate d (a.pairs ++ kw))
  | .setItem k v => (none, .none, dictSet k v d)
  | .delItem k => match dictGet d k with
    | some _ => (none, .none, dictDrop k d)
    | none => (some .keyError, .none, d)
  | .ior a => (none, .none, dictUpdate d a.pairs)

/-- calls to the owner -/
inductive DEv (α : Type) where
  | will
  | add (k : String) (v : α)
  | del (v : α)

/-- outcome, returned value, contents and calls -/
structure DRes (α : Type) where
  exc : Option Exc
  ret : DRet α
  items : List (String × α)
  log : List (DEv α)

/-- `[i[1] for i in self.items() if i[0] in new_dict.keys()]` -/
def itemsToDel (d new : List (String × α)) : List α :=
  (d.filter (fun kv => (dictGet new kv.1).isSome)).map Prod.snd

/-- the notifications of `update` and `|=` -/
def updateEvents (d new : List (String × α)) : List (DEv α) :=
  .will :: ((itemsToDel d new).map .del ++ new.map (fun kv => .add kv.1 kv.2))

/-- `OwnedDict`: odict.py:50-144. -/
def ownedDOp (nul : α) (op : DOp α) (d : List (String × α)) : DRes α :=
  match op with
  -- 50-55
  | .clear => ⟨none, .none, [], .will :: d.map (fun kv => .del kv.2)⟩
  -- 57-69
  | .pop k dflt => match dictGet d k, dflt with
    | some v, _ => ⟨none, .val v, dictDrop k d, [.will, .del v]⟩
    | none, some w => ⟨none, .val w, d, [.will]⟩
    | none, none => ⟨some .keyError, .none, d, [.will]⟩
  -- 71-75
  | .popitem => match d.getLast? with
    | some kv => ⟨none, .pair kv.1 kv.2, d.dropLast, [.will, .del kv.2]⟩
    | none => ⟨some .keyError, .none, d, [.will]⟩
  -- 77-90: with one argument `will_set` stays false
  | .setdefault1 k => match dictGet d k with
    | some v => ⟨none, .val v, d, []⟩
    | none => ⟨none, .val nul, dictSet k nul d, []⟩
  | .setdefault2 k v => match dictGet d k with
    | some w => ⟨none, .val w, d, []⟩
    | none => ⟨none, .val v, dictSet k v d, [.will, .add k v]⟩
  -- 92-110: `dict(args[0], **kwargs)` is the first pass over the argument
  | .update a kw =>
    ⟨none, .none, dictUpdate d (a.again ++ kw), updateEvents d (dictUpdate [] (a.pairs ++ kw))⟩
  -- 112-124
  | .setItem k v =>
    ⟨none, .none, dictSet k v d, .will :: ((dictGet d k).toList.map .del ++ [.add k v])⟩
  -- 126-133
  | .delItem k => match dictGet d k with
    | some v => ⟨none, .none, dictDrop k d, [.will, .del v]⟩
    | none => ⟨some .keyError, .none, d, [.will]⟩
  -- 135-144
  | .ior a => ⟨none, .none, dictUpdate d a.again, updateEvents d (dictUpdate [] a.pairs)⟩

/-- a history; an exception is caught by the caller, who goes on -/
def ownedDRun (nul : α) : List (DOp α) → List (String × α) → List (String × α) × List (DEv α)
  | [], d => (d, [])
  | op :: ops, d =>
    let r := ownedDOp nul op d
    let r' := ownedDRun nul ops r.items
    (r'.1, r.log ++ r'.2)

/-- the same history on a plain dict -/
def plainDRun (nul : α) : List (DOp α) → List (String × α) → List (String × α)
  | [], d => d
  | op :: ops, d => plainDRun nul ops (plainDOp nul op d).2.2

end JC
