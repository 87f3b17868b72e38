import Verif.Model.Value

/-
Owned lists: olist.py. The first part is the behaviour of Python's own `list` (the
`super()` calls), transcribed by hand; the second part is the methods of `OwnedList`, which
return the outcome, the contents and the calls made to the owner, in order. The owner's
callbacks are assumed not to touch the list or raise (their effect is modelled in
Model/Link).
-/
namespace JC

/-! ### Python lists -/

/-- An iterable argument: a sized, re-iterable one; an iterator (no `len`, consumed by one
pass); or the list itself. -/
inductive ItArg (α : Type) where
  | seq (xs : List α)
  | iter (xs : List α)
  | self

/-- a slice object -/
structure Slice where
  start : Option Int
  stop : Option Int
  step : Option Int

/-- The list operations. `sort f e`: the comparison function and `kwargs` are abstracted to
the resulting order `f`, `e` is the exception a comparison raises, if any. -/
inductive LOp (α : Type) where
  | append (v : α)
  | extend (a : ItArg α)
  | insert (i : Int) (v : α)
  | remove (v : α)
  | sort (f : List α → List α) (e : Option Exc)
  | clear
  | pop (i : Option Int)
  | reverse
  | iadd (a : ItArg α)
  | imul (n : Int)
  | setIdx (i : Int) (v : α)
  | setSlice (s : Slice) (a : ItArg α)
  | delIdx (i : Int)
  | delSlice (s : Slice)

variable {α : Type}

/-- the items an argument yields when `xs` is the list itself -/
def ItArg.items (xs : List α) : ItArg α → List α
  | .seq ys => ys
  | .iter ys => ys
  | .self => xs

/-- a list index, or `none` (IndexError) -/
def normIdx (n : Nat) (i : Int) : Option Nat :=
  let k := if i < 0 then i + n else i
  if 0 ≤ k ∧ k < n then some k.toNat else none

/-- one end of `slice.indices(n)`: `lo`/`hi` are the bounds for clipping -/
def clipEnd (n : Nat) (lo hi dflt : Int) : Option Int → Int
  | none => dflt
  | some i => if i < 0 then max lo (i + n) else min hi i

/-- `slice.indices(n)` as (start, stop, step) -/
def Slice.bounds (s : Slice) (n : Nat) : Int × Int × Int :=
  let step := s.step.getD 1
  if 0 < step then (clipEnd n 0 n 0 s.start, clipEnd n 0 n n s.stop, step)
  else (clipEnd n (-1) (n - 1) (n - 1) s.start, clipEnd n (-1) (n - 1) (-1) s.stop, step)

/-- number of items of `range(start, stop, step)` -/
def rangeLen (start stop step : Int) : Nat :=
  if 0 < step then (if start < stop then ((stop - start - 1) / step + 1).toNat else 0)
  else (if stop < start then ((start - stop - 1) / (-step) + 1).toNat else 0)

/-- the indices selected by a slice -/
def Slice.idxs (s : Slice) (n : Nat) : List Nat :=
  let b := s.bounds n
  (List.range (rangeLen b.1 b.2.1 b.2.2)).map (fun (k : Nat) => (b.1 + k * b.2.2).toNat)

/-- `xs[i]` for a list of indices -/
def getIdxs (xs : List α) (is : List Nat) : List α := is.filterMap (fun i => xs[i]?)

/-- `xs.insert(i, v)` -/
def pyInsert (xs : List α) (i : Int) (v : α) : List α :=
  let k := if i < 0 then (i + xs.length).toNat else min i.toNat xs.length
  xs.take k ++ v :: xs.drop k

/-- `xs.remove(v)`; `none` is ValueError -/
def pyRemove (eqv : α → α → Bool) (v : α) : List α → Option (List α)
  | [] => none
  | x :: xs => if eqv x v then some xs else (pyRemove eqv v xs).map (x :: ·)

/-- `n * xs` -/
def pyTimes (xs : List α) (n : Int) : List α := (List.replicate n.toNat xs).flatten

/-- pairwise assignment `xs[is[k]] = vs[k]` -/
def setAt (xs : List α) : List Nat → List α → List α
  | i :: is, v :: vs => setAt (xs.set i v) is vs
  | _, _ => xs

/-- `xs[slice] = vs`: with step 1 a splice, otherwise sizes must agree -/
def pySetSlice (xs : List α) (s : Slice) (vs : List α) : Except Exc (List α) :=
  let b := s.bounds xs.length
  if b.2.2 = 0 then .error .valueError
  else if b.2.2 = 1 then .ok (xs.take b.1.toNat ++ vs ++ xs.drop (max b.1 b.2.1).toNat)
  else if (s.idxs xs.length).length = vs.length then .ok (setAt xs (s.idxs xs.length) vs)
  else .error .valueError

/-- `del xs[slice]` -/
def pyDelSlice (xs : List α) (s : Slice) : Except Exc (List α) :=
  if (s.bounds xs.length).2.2 = 0 then .error .valueError
  else .ok (getIdxs xs ((List.range xs.length).filter (fun i => !(s.idxs xs.length).contains i)))

/-- contents and exception of a plain operation that either raises and changes nothing or
succeeds -/
def plainRes (xs : List α) : Except Exc (List α) → Option Exc × List α
  | .ok ys => (none, ys)
  | .error e => (some e, xs)

/-- result of an index operation -/
def withIdx (xs : List α) (i : Int) (f : Nat → List α) : Except Exc (List α) :=
  match normIdx xs.length i with
  | some k => .ok (f k)
  | none => .error .indexError

/-- The operations on a plain Python list: exception, if any, and resulting contents. -/
def plainOp (eqv : α → α → Bool) (op : LOp α) (xs : List α) : Option Exc × List α :=
  match op with
  | .append v => (none, xs ++ [v])
  | .extend a => (none, xs ++ a.items xs)
  | .insert i v => (none, pyInsert xs i v)
  | .remove v => plainRes xs (match pyRemove eqv v xs with
    | some ys => .ok ys
    | none => .error .valueError)
  | .sort f e => (e, f xs)
  | .clear => (none, [])
  | .pop i => plainRes xs (withIdx xs (i.getD (-1)) (fun k => xs.eraseIdx k))
  | .reverse => (none, xs.reverse)
  | .iadd a => (none, xs ++ a.items xs)
  | .imul n => (none, pyTimes xs n)
  | .setIdx i v => plainRes xs (withIdx xs i (fun k => xs.set k v))
  | .setSlice s a => plainRes xs (pySetSlice xs s (a.items xs))
  | .delIdx i => plainRes xs (withIdx xs i (fun k => xs.eraseIdx k))
  | .delSlice s => plainRes xs (pyDelSlice xs s)

/-! ### OwnedList -/

/-- calls to the owner; `del none` stands for `__olist_del__(self, None)` -/
inductive LEv (α : Type) where
  | will
  | add (i : Int) (v : α)
  | del (v : α)
  | sor

/-- outcome, contents and calls of an operation on an owned list -/
structure LRes (α : Type) where
  exc : Option Exc
  items : List α
  log : List (LEv α)

/-- `for v in vs: owner.__olist_add__(self, i, v); i += step` -/
def addsFrom (step : Int) : Int → List α → List (LEv α)
  | _, [] => []
  | i, v :: vs => .add i v :: addsFrom step (i + step) vs

/-- what iterating over the argument a second time yields, `ys` being the new contents -/
def ItArg.again (ys : List α) : ItArg α → List α
  | .seq xs => xs
  | .iter _ => []
  | .self => ys

/-- `extend` and `__iadd__`: olist.py:54-61, 101-109. `len` of an iterator is a
TypeError. -/
def ownedExtend (a : ItArg α) (xs : List α) : LRes α :=
  match a with
  | .iter _ => ⟨some .typeError, xs, []⟩
  | a =>
    let ys := xs ++ a.items xs
    ⟨none, ys, (if (a.items xs).length > 0 then [.will] else []) ++ addsFrom 1 xs.length (a.again ys)⟩

/-- `super()` call that raises after `__olist_will_change__` -/
def failed (xs : List α) (e : Exc) : LRes α := ⟨some e, xs, [.will]⟩

/-- `__olist_will_change__`, then the plain operation, then the notifications -/
def notified (xs : List α) (r : Except Exc (List α)) (evs : List α → List (LEv α)) : LRes α :=
  match r with
  | .error e => failed xs e
  | .ok ys => ⟨none, ys, .will :: evs ys⟩

/-- `del`s for a list of items -/
def dels (vs : List α) : List (LEv α) := vs.map .del

/-- `OwnedList`: olist.py:49-186. -/
def ownedOp (eqv : α → α → Bool) (op : LOp α) (xs : List α) : LRes α :=
  match op with
  -- 49-52
  | .append v => ⟨none, xs ++ [v], [.will, .add xs.length v]⟩
  -- 54-61
  | .extend a => ownedExtend a xs
  -- 63-68: `idx = min(curlen, index)`
  | .insert i v => ⟨none, pyInsert xs i v, [.will, .add (min xs.length i) v]⟩
  -- 70-73
  | .remove v => notified xs (match pyRemove eqv v xs with
    | some ys => .ok ys
    | none => .error .valueError) (fun _ => [.del v])
  -- 75-78
  | .sort f e => ⟨e, f xs, .will :: (if e.isNone then [.sor] else [])⟩
  -- 80-85
  | .clear => ⟨none, [], .will :: dels xs⟩
  -- 87-91: the popped item is reported
  | .pop i => notified xs (withIdx xs (i.getD (-1)) (fun k => xs.eraseIdx k))
      (fun _ => dels (getIdxs xs (normIdx xs.length (i.getD (-1))).toList))
  -- 93-96
  | .reverse => ⟨none, xs.reverse, [.will, .sor]⟩
  -- 101-109
  | .iadd a => ownedExtend a xs
  -- 111-135
  | .imul n =>
    let removed := if n ≤ 0 then xs else []
    let added := if n ≤ 1 then [] else pyTimes xs (n - 1)
    ⟨none, pyTimes xs n, (if removed.length > 0 ∨ added.length > 0 then [.will] else []) ++
      dels removed ++ addsFrom 1 (if n ≤ 1 then 0 else xs.length) added⟩
  -- 137-147
  | .setIdx i v => notified xs (withIdx xs i (fun k => xs.set k v))
      (fun _ => dels (getIdxs xs (normIdx xs.length i).toList) ++ [.add (if i < 0 then xs.length + i else i) v])
  -- 148-164: `self[slc]` raises for step 0 before anything is reported
  | .setSlice s a =>
    if s.step = some 0 then ⟨some .valueError, xs, []⟩ else
      let start := s.start.getD 0
      let start := if start < 0 then xs.length + start else start
      let start := min (max 0 start) xs.length
      notified xs (pySetSlice xs s (a.items xs)) (fun ys =>
        dels (getIdxs xs (s.idxs xs.length)) ++ addsFrom (s.step.getD 1) start (a.again ys))
  -- 168-177
  | .delIdx i => notified xs (withIdx xs i (fun k => xs.eraseIdx k))
      (fun _ => dels (getIdxs xs (normIdx xs.length i).toList))
  -- 178-184
  | .delSlice s =>
    if s.step = some 0 then ⟨some .valueError, xs, []⟩ else
      notified xs (pyDelSlice xs s) (fun _ => dels (getIdxs xs (s.idxs xs.length)))

/-- a history of operations; an exception is caught by the caller, who goes on -/
def ownedRun (eqv : α → α → Bool) : List (LOp α) → List α → LRes α
  | [], xs => ⟨none, xs, []⟩
  | op :: ops, xs =>
    let r := ownedOp eqv op xs
    let r' := ownedRun eqv ops r.items
    ⟨r'.exc, r'.items, r.log ++ r'.log⟩

/-- the same history on a plain list -/
def plainRun (eqv : α → α → Bool) : List (LOp α) → List α → List α
  | [], xs => xs
  | op :: ops, xs => plainRun eqv ops (plainOp eqv op xs).2

end JC
