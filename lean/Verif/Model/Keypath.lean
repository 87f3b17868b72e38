/-
Model of `/repo/jsonclasses/keypath.py`.

Python strings are Lean `String`s; the text functions work on the list of
characters.  The inflection functions (`camelize`, `underscore`, `singularize`)
are external and appear as parameters where they are used.
-/
namespace JC

/-- Splitting on every character that satisfies `p`, keeping empty pieces:
Python's `str.split(sep)` for a one-character separator and `re.split` for an
alternation of single characters (used by keypath.py:73, 97, 109). -/
def splitP (p : Char → Bool) : List Char → List (List Char)
  | [] => [[]]
  | c :: cs =>
    if p c then [] :: splitP p cs
    else match splitP p cs with
      | [] => [[c]]
      | w :: ws => (c :: w) :: ws

/-- Python's `sep.join(parts)` on character lists (keypath.py:60, 73). -/
def joinL (sep : List Char) : List (List Char) → List Char
  | [] => []
  | [w] => w
  | w :: ws => w ++ sep ++ joinL sep ws

/-- `'.'.join(parts)` on strings. -/
def dotJoin (ks : List String) : String :=
  String.ofList (joinL ['.'] (ks.map String.toList))

/-- `s.split('.')` on strings. -/
def dotSplit (s : String) : List String :=
  (splitP (· == '.') s.toList).map String.ofList

/-- A key path argument: `Union[str, int]` (keypath.py:50). -/
inductive Key where
  | s (k : String)
  | i (k : Int)
  deriving DecidableEq, Repr, Inhabited

/-- Python's `str(arg)` for a key path argument (keypath.py:60). -/
def Key.str : Key → String
  | .s k => k
  | .i k => toString k

/-- `concat_keypath(*args)`: keypath.py:50-60. -/
def concatKeypath (args : List Key) : String :=
  dotJoin ((args.map Key.str).filter (fun s => s.toList.length > 0))

/-- `keypath_drop_last(keypath)`: keypath.py:63-73. -/
def keypathDropLast (s : String) : String := dotJoin (dotSplit s).dropLast

/-- `initial_keypath(keypath)`: keypath.py:88-97 (`split('.')[0]`; the split is
never empty, so the `headD` default is unreachable). -/
def initialKeypath (s : String) : String := (dotSplit s).headD ""

/-- `initial_keypaths(keypaths)`: keypath.py:76-85, the set as a list. -/
def initialKeypaths (ss : List String) : List String := ss.map initialKeypath

/-- The separators of the regular expression `\.|\[|\]` (keypath.py:101, 105, 109). -/
def isSep (c : Char) : Bool := c == '.' || c == '[' || c == ']'

/-- `keypath_split(key)`: keypath.py:108-109. -/
def keypathSplit (s : String) : List String :=
  ((splitP isSep s.toList).filter (fun w => w.length > 0)).map String.ofList

/-- `re.search(r'\.|\[|\]', k)` as a truth value (keypath.py:101, 105). -/
def isCompound (k : String) : Bool := k.toList.any isSep

/-- `single_key_args(kwargs)`: keypath.py:100-101. -/
def singleKeyArgs {α : Type} (kw : List (String × α)) : List (String × α) :=
  kw.filter (fun kv => !isCompound kv.1)

/-- `compound_key_args(kwargs)`: keypath.py:104-105. -/
def compoundKeyArgs {α : Type} (kw : List (String × α)) : List (String × α) :=
  kw.filter (fun kv => isCompound kv.1)

end JC
