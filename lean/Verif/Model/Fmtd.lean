import Verif.Model.DateTime

/-
Formatted output of dates: fmtd_modifier.py. Python's `strftime` is a parameter.
-/
namespace JC

/-- the format resolved and applied: a format that is no text raises TypeError -/
def applyFormat (strftime : PyDateTime → String → Except Exc String) (p : Param) (h : Heap) (c : Ctx) (d : PyDateTime) : Except Exc Val := do
  let f ← p h c
  match f with
  | .str s => do
    let r ← strftime d s
    pure (.str r)
  | _ => .error .typeError

/-- `FormatDatetimeModifier.tojson`: fmtd_modifier.py:17-24. A date formats as its midnight. For a text
the moment is read before the format is resolved. -/
def fmtdMod (strftime : PyDateTime → String → Except Exc String) (p : Param) : Leaf where
  tojson := fun h c => match c.val with
    | .date d => applyFormat strftime p h c (d.midnight false)
    | .dt d => applyFormat strftime p h c d
    | .str s => do
      let d ← parseDateTime (s.toList.filter (· != 'Z'))
      applyFormat strftime p h c d
    | v => .ok v

end JC
