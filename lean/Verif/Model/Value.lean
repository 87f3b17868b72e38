import Verif.Model.Keypath

/-
Python values, Python equality, exceptions and the effect monad used by the
model.  These are not functions of /repo: they are the fragment of Python the
model is written in (see DESIGN.md, trusted base).
-/
namespace JC

/-- A Python float: an exact rational or a special value. Rounding of float arithmetic
and the sign of zero are not modelled. -/
inductive Flt where
  | nan
  | pinf
  | ninf
  | fin (q : Rat)
  deriving DecidableEq, Repr, Inhabited

/-- `datetime.date` -/
structure PyDate where
  year : Nat
  month : Nat
  day : Nat
  deriving DecidableEq, Repr, Inhabited

/-- `datetime.datetime`, either naive (`utc = false`) or with tzinfo UTC (`utc = true`).
Other time zones are not modelled. -/
structure PyDateTime where
  year : Nat
  month : Nat
  day : Nat
  hour : Nat
  minute : Nat
  second : Nat
  micro : Nat
  utc : Bool
  deriving DecidableEq, Repr, Inhabited

/-- Python values that can be stored in a field. `obj i` is the JSON class object
at heap index `i`; `other t` is any other Python object, identified by a tag. -/
inductive Val where
  | none
  | bool (b : Bool)
  | int (n : Int)
  | flt (f : Flt)
  | str (s : String)
  | date (d : PyDate)
  | dt (d : PyDateTime)
  | enum (cls : String) (member : String)
  | list (xs : List Val)
  | dict (kvs : List (String × Val))
  | obj (i : Nat)
  | other (t : Nat)
  deriving Inhabited, Repr

/-- `value is None` -/
def Val.isNone : Val → Bool
  | .none => true
  | _ => false

@[simp] theorem Val.isNone_iff (v : Val) : v.isNone = true ↔ v = .none := by
  cases v <;> simp [Val.isNone]

/-- Exact value of a number-like Python value (bool, int, finite float). -/
def Val.num? : Val → Option Rat
  | .bool b => some (if b then 1 else 0)
  | .int n => some n
  | .flt (.fin q) => some q
  | _ => Option.none

mutual
/-- Python `==` on modelled values. Numbers compare across types (`True == 1 == 1.0`),
`nan` is unequal to everything, objects compare by identity (DESIGN.md section 2),
dicts compare independently of order. -/
def pyEq : Val → Val → Bool
  | .none, .none => true
  | .bool a, .bool b => a == b
  | .bool a, .int n => (if a then 1 else 0) == n
  | .int n, .bool a => (if a then 1 else 0) == n
  | .int a, .int b => a == b
  | .flt .pinf, .flt .pinf => true
  | .flt .ninf, .flt .ninf => true
  | .flt (.fin a), .flt (.fin b) => a == b
  | .flt (.fin a), .int n => a == n
  | .int n, .flt (.fin a) => a == n
  | .flt (.fin a), .bool n => a == (if n then 1 else 0)
  | .bool n, .flt (.fin a) => a == (if n then 1 else 0)
  | .str a, .str b => a == b
  | .date a, .date b => a == b
  | .dt a, .dt b => a == b
  | .enum a b, .enum c d => a == c && b == d
  | .list xs, .list ys => pyEqList xs ys
  | .dict xs, .dict ys => xs.length == ys.length && pyEqDict xs ys
  | .obj a, .obj b => a == b
  | .other a, .other b => a == b
  | _, _ => false
/-- element-wise list equality -/
def pyEqList : List Val → List Val → Bool
  | [], [] => true
  | x :: xs, y :: ys => pyEq x y && pyEqList xs ys
  | _, _ => false
/-- every entry of the first dict is in the second with an equal value -/
def pyEqDict : List (String × Val) → List (String × Val) → Bool
  | [], _ => true
  | (k, x) :: xs, ys => (match ys.lookup k with
    | some y => pyEq x y
    | Option.none => false) && pyEqDict xs ys
end

/-- Python truthiness of a value (used for `value or []` and guards). -/
def Val.truthy : Val → Bool
  | .none => false
  | .bool b => b
  | .int n => n != 0
  | .flt (.fin q) => q != 0
  | .str s => s.toList.length > 0
  | .list xs => xs.length > 0
  | .dict xs => xs.length > 0
  | _ => true

/-- Exceptions raised by the modelled code. `validation` carries the message map
of `ValidationException` (excs.py:160-177). `recursion` is Python's
`RecursionError`: in the model, running out of fuel. -/
inductive Exc where
  | validation (msgs : List (String × String))
  | attributeError
  | typeError
  | valueError
  | indexError
  | keyError
  | unauthorized
  | unlinkable
  | mergeConflict
  | resetError
  | resetNotEnabled
  | abstract
  | other (t : Nat)
  | recursion
  deriving DecidableEq, Repr, Inhabited

/-- Whether the exception is a `ValidationException`. -/
def Exc.isValidation : Exc → Bool
  | .validation _ => true
  | _ => false

/-- Effectful Python computation over a state `σ`: an exception keeps the state
changes made before it. -/
abbrev Py (σ α : Type) : Type := σ → Except Exc α × σ

namespace Py
variable {σ α β : Type}

/-- return a value -/
def ret (a : α) : Py σ α := fun s => (.ok a, s)
/-- sequencing -/
def andThen (m : Py σ α) (f : α → Py σ β) : Py σ β := fun s =>
  match m s with
  | (.ok a, s') => f a s'
  | (.error e, s') => (.error e, s')
/-- `raise` -/
def raise (e : Exc) : Py σ α := fun s => (.error e, s)
/-- `try m except: h` (any exception) -/
def catchAll (m : Py σ α) (h : Exc → Py σ α) : Py σ α := fun s =>
  match m s with
  | (.ok a, s') => (.ok a, s')
  | (.error e, s') => h e s'
/-- `try m except ValidationException as e: h e.keypath_messages` -/
def catchV (m : Py σ α) (h : List (String × String) → Py σ α) : Py σ α := fun s =>
  match m s with
  | (.error (.validation msgs), s') => h msgs s'
  | r => r
/-- read the state -/
def get : Py σ σ := fun s => (.ok s, s)
/-- update the state -/
def modify (f : σ → σ) : Py σ Unit := fun s => (.ok (), f s)

instance : Monad (Py σ) where
  pure := ret
  bind := andThen

@[simp] theorem pure_run (a : α) (s : σ) : (pure a : Py σ α) s = (.ok a, s) := rfl
theorem bind_run (m : Py σ α) (f : α → Py σ β) (s : σ) :
    (m >>= f) s = match m s with
      | (.ok a, s') => f a s'
      | (.error e, s') => (.error e, s') := rfl
@[simp] theorem raise_run (e : Exc) (s : σ) : (raise e : Py σ α) s = (.error e, s) := rfl
@[simp] theorem get_run (s : σ) : (get : Py σ σ) s = (.ok s, s) := rfl
@[simp] theorem modify_run (f : σ → σ) (s : σ) : (modify f : Py σ Unit) s = (.ok (), f s) := rfl

theorem bind_ok {m : Py σ α} {f : α → Py σ β} {s s' : σ} {a : α} (h : m s = (.ok a, s')) :
    (m >>= f) s = f a s' := by rw [bind_run, h]
theorem bind_err {m : Py σ α} {f : α → Py σ β} {s s' : σ} {e : Exc} (h : m s = (.error e, s')) :
    (m >>= f) s = (.error e, s') := by rw [bind_run, h]

instance : LawfulMonad (Py σ) := LawfulMonad.mk'
  (id_map := by
    intro α x; funext s
    show andThen x (fun a => ret (id a)) s = x s
    unfold andThen ret
    rcases h : x s with ⟨r | r, s'⟩ <;> rfl)
  (pure_bind := by intros; rfl)
  (bind_assoc := by
    intro α β γ x f g; funext s
    show andThen (andThen x f) g s = andThen x (fun a => andThen (f a) g) s
    unfold andThen
    rcases h : x s with ⟨r | r, s'⟩ <;> rfl)

end Py

/-- Association-list update, Python `d[k] = v`: replaces in place or appends. -/
def dictSet {α : Type} (k : String) (v : α) : List (String × α) → List (String × α)
  | [] => [(k, v)]
  | (k', v') :: r => if k' = k then (k, v) :: r else (k', v') :: dictSet k v r

/-- Python `d.update(e)`. -/
def dictUpdate {α : Type} (d e : List (String × α)) : List (String × α) :=
  e.foldl (fun d kv => dictSet kv.1 kv.2 d) d

/-- Python `d.get(k)` as an option. -/
def dictGet {α : Type} (d : List (String × α)) (k : String) : Option α :=
  (d.find? (fun kv => kv.1 = k)).map Prod.snd

end JC
