import Verif.Model.Value
import Verif.Model.Keypath
import Verif.Model.Strings

/-!
Installing the packages that modifiers need (`salt`, `checkpw`, `uploader`): pkgutils.py, called by
`Modifier.check_packages` (modifier.py:17-18) when a type is declared. Which modules can be
imported, what pip does and the file `requirements.txt` are outside; pip is a parameter.
-/

namespace JC

/-- A module and the package that has it: name and version specifier. -/
structure PyPackage where
  mod : List Char
  name : List Char
  version : List Char

/-- `f'{info[0]}{info[1]}'`: pkgutils.py:15 -/
def PyPackage.param (p : PyPackage) : List Char := p.name ++ p.version

/-- The modules that can be imported, the text of `requirements.txt` (`none`: no such file) and the
packages that pip was called for. -/
structure Machine where
  importable : List (List Char)
  requirements : Option (List Char)
  pips : List (List Char)

/-- `content.split('\n')`: pkgutils.py:19 -/
def fileLines (content : List Char) : List (List Char) := splitP (· == '\n') content

/-- The loop over the lines: pkgutils.py:20-23. -/
def mentioned (name content : List Char) : Bool := (fileLines content).any (isInfixB name)

/-- `install_package`: pkgutils.py:14-26. `pip s` is what can be imported in addition afterwards,
or none for a failed call (`CalledProcessError`, here `other 1`). `FileNotFoundError` is `other 2`. -/
def installPackage (pip : List Char → Option (List (List Char))) (p : PyPackage) (m : Machine) :
    Except Exc Unit × Machine :=
  match pip p.param with
  | none => (.error (.other 1), { m with pips := m.pips ++ [p.param] })
  | some new =>
    let m := { m with pips := m.pips ++ [p.param], importable := m.importable ++ new }
    match m.requirements with
    | none => (.error (.other 2), m)
    | some content =>
      if mentioned p.name content then (.ok (), m)
      else (.ok (), { m with requirements := some (content ++ (p.param ++ ['\n'])) })

/-- The loop of `check_and_install_packages` with `check_package`: pkgutils.py:7-11, 30-34. -/
def installLoop (pip : List Char → Option (List (List Char))) :
    List PyPackage → Machine → Except Exc Unit × Machine
  | [], m => (.ok (), m)
  | p :: ps, m =>
    if m.importable.contains p.mod then installLoop pip ps m
    else match installPackage pip p m with
      | (.error e, m') => (.error e, m')
      | (.ok (), m') => installLoop pip ps m'

/-- `check_and_install_packages`: pkgutils.py:29-34 (`None` has no `items`). -/
def checkAndInstall (pip : List Char → Option (List (List Char))) (ps : Option (List PyPackage))
    (m : Machine) : Except Exc Unit × Machine :=
  match ps with
  | none => (.error .attributeError, m)
  | some ps => installLoop pip ps m

end JC
