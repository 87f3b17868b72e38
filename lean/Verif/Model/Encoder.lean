import Verif.Model.Instance

/-
`json.dumps(…, cls=JSONEncoder)`: encoder.py. The writer of the standard library visits lists and
dicts and calls `default` for what it does not know; the model keeps the data it writes and leaves
the text out.
-/
namespace JC
variable (env : Env)

/-- The items of a list, visited in order by the writer (`json.encoder._make_iterencode`). -/
def encodeList (enc : Val → Py World Val) : List Val → Py World (List Val)
  | [] => pure []
  | x :: xs => do
    let y ← enc x
    let ys ← encodeList enc xs
    pure (y :: ys)

/-- The entries of a dict (the keys of the model are texts). -/
def encodeDict (enc : Val → Py World Val) : List (String × Val) → Py World (List (String × Val))
  | [] => pure []
  | (k, x) :: xs => do
    let y ← enc x
    let ys ← encodeDict enc xs
    pure ((k, y) :: ys)

/-- The data `json.dumps(v, cls=JSONEncoder)` writes. What the writer does not know goes through
`JSONEncoder.default` (encoder.py:19-21): an object is replaced by `o.tojson()`, whose result is
written in turn; anything else raises TypeError. The first argument is the recursion limit, `n`
that of `tojson`. -/
def encode (n : Nat) : Nat → Val → Py World Val
  | 0, _ => Py.raise .recursion
  | k + 1, v => match v with
    | .list xs => do
      let ys ← encodeList (encode n k) xs
      pure (.list ys)
    | .dict kvs => do
      let ys ← encodeDict (encode n k) kvs
      pure (.dict ys)
    | .obj i => do
      let r ← apiTojson env n i false false none
      encode n k r
    | .date _ => Py.raise .typeError
    | .dt _ => Py.raise .typeError
    | .enum _ _ => Py.raise .typeError
    | .other _ => Py.raise .typeError
    | v => pure v

end JC
