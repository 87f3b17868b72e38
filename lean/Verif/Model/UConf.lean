import Verif.Model.KeySet
import Verif.Model.Annot

/-
The user's configuration file: uconf.py, and the uploaders configured there: uploaders.py.

A JSON value is a `Val`. The environment is a function from names to values; `underscore` of the
inflection package is a parameter.
-/
namespace JC

/-- What a lookup gives: a wrapped list or dict (`UserConf`), or a plain value. -/
inductive Got where
  | conf (v : Val)
  | plain (v : Val)

/-- uconf.py:39-44 -/
def wrapConf : Val → Got
  | .list xs => .conf (.list xs)
  | .dict kvs => .conf (.dict kvs)
  | v => .plain v

/-- `xs[k]` for a position counted from the start -/
def itemAt (xs : List Val) (k : Nat) : Except Exc Val := match xs[k]? with
  | some x => .ok x
  | none => .error .indexError

/-- `val[n]` for a list: uconf.py:30. -/
def listAt (xs : List Val) (n : Int) : Except Exc Val :=
  if n < 0 then (if xs.length < n.natAbs then .error .indexError else itemAt xs (xs.length - n.natAbs))
  else itemAt xs n.toNat

/-- One step: uconf.py:27-36. The outer `none` is the early `return None`. -/
def confStep (cur : String) : Val → Except Exc (Option Val)
  | .list xs => match keyInt cur with
    | none => .error .valueError
    | some n => if n < xs.length then (listAt xs n).map some else .ok (some .none)
  | .dict kvs => .ok (some ((dictGet kvs cur).getD .none))
  | _ => .ok none

/-- `UserConf._get`: uconf.py:24-46. -/
def confGetParts : List String → Val → Except Exc Got
  | [], v => if v.isNone then .ok (.plain .none) else .error .indexError
  | cur :: rest, v =>
    if v.isNone then .ok (.plain .none)
    else match confStep cur v with
      | .error e => .error e
      | .ok none => .ok (.plain .none)
      | .ok (some next) => match rest with
        | [] => .ok (wrapConf next)
        | _ :: _ => confGetParts rest next

/-- `UserConf.get`: uconf.py:20-22, for a key path given as text. -/
def confGet (conf : Val) (keypath : String) : Except Exc Got := confGetParts (keypathSplit keypath) conf

mutual
/-- `_normalize_keys_dict` and `_normalize_keys_list` on a value: uconf.py:77-97. -/
def normVal (under : String → String) : Val → Val
  | .dict kvs => .dict (dictUpdate [] (normKvs under kvs))
  | .list xs => .list (normList under xs)
  | v => v
/-- the entries, in order: uconf.py:79-85 -/
def normKvs (under : String → String) : List (String × Val) → List (String × Val)
  | [] => []
  | (k, v) :: r => (under k, normVal under v) :: normKvs under r
/-- the items: uconf.py:90-96 -/
def normList (under : String → String) : List Val → List Val
  | [] => []
  | v :: r => normVal under v :: normList under r
end

def isQuote (c : Char) : Bool := c == '\'' || c == '"'

/-- the end of the pattern, after the opening quote: `(.+)["']\]$`. The name is greedy, `$` also
matches before a final line break, and `.` matches no line break: uconf.py:129. -/
def envTail (cs : List Char) : Option (List Char) :=
  match (if cs.getLast? = some '\n' then cs.dropLast else cs).reverse with
  | ']' :: q :: n => if isQuote q && !n.isEmpty && !n.contains '\n' then some n.reverse else none
  | _ => none

/-- `match('^environ\[[\'\"](.+)[\"\']\]$', text)` and its group: uconf.py:129-131. -/
def envName (s : String) : Option String :=
  match s.toList with
  | 'e' :: 'n' :: 'v' :: 'i' :: 'r' :: 'o' :: 'n' :: '[' :: q :: r =>
    if isQuote q then (envTail r).map String.ofList else none
  | _ => none

/-- `_replace_envs_str`: uconf.py:128-136. -/
def replaceStr (environ : String → Option String) (s : String) : Except Exc String :=
  match envName s with
  | some n => match environ n with
    | some v => .ok v
    | none => .error .keyError
  | none => .ok s

mutual
/-- `_replace_envs_dict` and `_replace_envs_list` on a value: uconf.py:102-126. -/
def replaceVal (environ : String → Option String) : Val → Except Exc Val
  | .str s => (replaceStr environ s).map .str
  | .dict kvs => (replaceKvs environ kvs).map (fun r => .dict (dictUpdate [] r))
  | .list xs => (replaceList environ xs).map .list
  | v => .ok v
/-- the entries, in order: uconf.py:104-112 -/
def replaceKvs (environ : String → Option String) : List (String × Val) → Except Exc (List (String × Val))
  | [] => .ok []
  | (k, v) :: r => match replaceVal environ v with
    | .error e => .error e
    | .ok v' => (replaceKvs environ r).map (fun r' => (k, v') :: r')
/-- the items: uconf.py:117-125 -/
def replaceList (environ : String → Option String) : List Val → Except Exc (List Val)
  | [] => .ok []
  | v :: r => match replaceVal environ v with
    | .error e => .error e
    | .ok v' => (replaceList environ r).map (fun r' => v' :: r')
end

/-- `UserConfRoot._load` with the parsed contents of config.json, `none` if there is no such file:
uconf.py:60-72. Only a dict has `items`. -/
def loadConf (under : String → String) (environ : String → Option String) : Option Val → Except Exc Val
  | none => .ok (.dict [])
  | some (.dict kvs) => (replaceVal environ (.dict kvs)).map (normVal under)
  | some _ => .error .attributeError

/-- The kinds of uploaders: uploaders.py:21, 51, 78. -/
inductive Engine where
  | s3 | alioss | localfs
deriving DecidableEq, Repr

/-- An uploader: its identity, its class and its configuration. -/
structure Uploader where
  uid : Nat
  engine : Engine
  config : Got

/-- `x.get(key)` on what a lookup gave: plain values have no `get`. -/
def Got.get (g : Got) (key : String) : Except Exc Got := match g with
  | .conf v => confGet v key
  | .plain _ => .error .attributeError

/-- `x is None` -/
def Got.isNone : Got → Bool
  | .plain v => v.isNone
  | .conf _ => false

/-- `match engine`: uploaders.py:108-122. -/
def engineOf : Got → Except Exc Engine
  | .plain (.str s) =>
    if s = "s3" then .ok .s3 else if s = "alioss" then .ok .alioss else if s = "localfs" then .ok .localfs
    else .error .valueError
  | _ => .error .valueError

/-- the part of `request_uploader` that reads the configuration and makes the uploader: uploaders.py:95-122 -/
def makeUploader (conf : Val) (name : String) (uid : Nat) : Except Exc Uploader := do
  let ups ← confGet conf "uploaders"
  if ups.isNone then .error .valueError else do
  let up ← ups.get name
  if up.isNone then .error .valueError else do
  let engine ← up.get "client"
  if engine.isNone then .error .valueError else do
  let config ← up.get "config"
  if config.isNone then .error .valueError else do
  let e ← engineOf engine
  .ok { uid := uid, engine := e, config := config }

/-- `request_uploader`: uploaders.py:92-122. The cache holds the uploaders made so far, an uploader
is never false. A new uploader is identified by the number of those made before. -/
def requestUploader (conf : Val) (name : String) : Py (List (String × Uploader)) Uploader := fun cache =>
  match dictGet cache name with
  | some u => (.ok u, cache)
  | none => match makeUploader conf name cache.length with
    | .ok u => (.ok u, dictSet name u cache)
    | .error e => (.error e, cache)

end JC
