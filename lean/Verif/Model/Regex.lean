import Verif.Model.Strings
import Verif.Model.Annot

/-
Text formats: the regular expressions of email_modifier.py, url_modifier.py,
hexcolor_modifier.py, securepw_modifier.py and the `re` functions they use; match_modifier.py
and replacer_modifier.py for arbitrary patterns; the `str.is...` checks.

`re` itself is external. Its meaning is fixed here as a backtracking matcher that lists, in
the order Python tries them, the places where a match may end. Patterns are syntax trees; for
a pattern given by the user as text, the reading of the text is a parameter.
-/
namespace JC

/-- The Unicode character tables Python consults. Only their values on ASCII and the
inclusions between them are fixed. -/
structure Uni where
  /-- `str.isalpha` of one character -/
  alpha : Char → Bool
  /-- `str.isdecimal` of one character -/
  decimal : Char → Bool
  /-- `str.isdigit` of one character -/
  digit : Char → Bool
  /-- `str.isnumeric` of one character -/
  numeric : Char → Bool
  decimal_digit : ∀ c, decimal c = true → digit c = true
  digit_numeric : ∀ c, digit c = true → numeric c = true
  ascii_alpha : ∀ c : Char, c.toNat < 128 → alpha c = c.isAlpha
  ascii_decimal : ∀ c : Char, c.toNat < 128 → decimal c = c.isDigit
  ascii_numeric : ∀ c : Char, c.toNat < 128 → numeric c = c.isDigit

/-- `str.isalnum` of one character: any of the four -/
def Uni.alnum (U : Uni) (c : Char) : Bool := U.alpha c || U.decimal c || U.digit c || U.numeric c

/-- `\w` of `re`: `str.isalnum` or an underscore -/
def Uni.word (U : Uni) (c : Char) : Bool := U.alnum c || c == '_'

/-! ### Patterns -/

/-- one item of a character class `[...]` -/
inductive CItem where
  | ch (c : Char)
  /-- a character written with a backslash -/
  | esc (c : Char)
  | range (a b : Char)

/-- The patterns of `re` modelled here: no back references, no lazy or possessive
repetition, no negated classes, no look-behind. -/
inductive Rx where
  /-- one character -/
  | chr (c : Char)
  /-- `[...]` -/
  | cls (items : List CItem)
  /-- `.` -/
  | dot
  /-- `\d` -/
  | dec
  /-- `\S` -/
  | nonspace
  /-- `^` -/
  | bol
  /-- `$` -/
  | eol
  /-- `\b` -/
  | bnd
  /-- nothing -/
  | emp
  | seq (a b : Rx)
  | alt (a b : Rx)
  /-- `a{lo,hi}`, `none` for no upper limit -/
  | rep (a : Rx) (lo : Nat) (hi : Option Nat)
  /-- `(a)` or `(?:a)` -/
  | grp (capturing : Bool) (a : Rx)
  /-- `(?=a)` -/
  | look (a : Rx)

/-- parts in a row -/
def Rx.row : List Rx → Rx
  | [] => .emp
  | [a] => a
  | a :: r => .seq a (Rx.row r)

/-- the pattern as it is written -/
def CItem.text : CItem → List Char
  | .ch c => [c]
  | .esc c => ['\\', c]
  | .range a b => [a, '-', b]

/-- how a repetition is written -/
def repText : Nat → Option Nat → List Char
  | 0, none => ['*']
  | 1, none => ['+']
  | 0, some 1 => ['?']
  | lo, none => '{' :: Nat.toDigits 10 lo ++ [',', '}']
  | lo, some hi =>
    if lo = hi then '{' :: Nat.toDigits 10 lo ++ ['}']
    else '{' :: Nat.toDigits 10 lo ++ ',' :: Nat.toDigits 10 hi ++ ['}']

/-- the pattern as it is written -/
def Rx.text : Rx → List Char
  | .chr c => if c = '.' then ['\\', '.'] else [c]
  | .cls items => '[' :: (items.map CItem.text).flatten ++ [']']
  | .dot => ['.']
  | .dec => ['\\', 'd']
  | .nonspace => ['\\', 'S']
  | .bol => ['^']
  | .eol => ['$']
  | .bnd => ['\\', 'b']
  | .emp => []
  | .seq a b => a.text ++ b.text
  | .alt a b => a.text ++ '|' :: b.text
  | .rep a lo hi => a.text ++ repText lo hi
  | .grp true a => '(' :: a.text ++ [')']
  | .grp false a => '(' :: '?' :: ':' :: a.text ++ [')']
  | .look a => '(' :: '?' :: '=' :: a.text ++ [')']

/-! ### Matching -/

/-- The characters equal to `c` up to case under IGNORECASE: the other case of an ASCII letter
and the four further letters the `re` documentation names. Letters outside ASCII are otherwise
compared exactly. -/
def sameCase (c : Char) : List Char :=
  if c = 'i' || c = 'I' || c = 'ı' || c = 'İ' then ['i', 'I', 'ı', 'İ']
  else if c = 's' || c = 'S' || c = 'ſ' then ['s', 'S', 'ſ']
  else if c = 'k' || c = 'K' || c = '\u212A' then ['k', 'K', '\u212A']
  else if c.isUpper then [c, c.toLower]
  else if c.isLower then [c, c.toUpper]
  else [c]

/-- does a class item contain the character? -/
def CItem.has : CItem → Char → Bool
  | .ch d, c => c == d
  | .esc d, c => c == d
  | .range a b, c => decide (a.toNat ≤ c.toNat) && decide (c.toNat ≤ b.toNat)

/-- the characters compared with the pattern in place of `c` -/
def variants (ci : Bool) (c : Char) : List Char := if ci then sameCase c else [c]

/-- A place in a text: the characters before it, nearest first, and those after it. -/
structure Spot where
  before : List Char
  after : List Char

/-- step over one character that passes the test -/
def stepIf (p : Char → Bool) : Spot → List Spot
  | ⟨b, c :: a⟩ => if p c then [⟨c :: b, a⟩] else []
  | ⟨_, []⟩ => []

/-- is the character next to the place a word character? -/
def wordAt (U : Uni) : List Char → Bool
  | c :: _ => U.word c
  | [] => false

/-- `n` times -/
def timesR (f : Spot → List Spot) : Nat → Spot → List Spot
  | 0, s => [s]
  | n + 1, s => (f s).flatMap (timesR f n)

/-- as often as possible, at most `n` times; rounds that consume nothing are not repeated -/
def upToR (f : Spot → List Spot) : Nat → Spot → List Spot
  | 0, s => [s]
  | n + 1, s =>
    ((f s).filter (fun t => decide (t.after.length < s.after.length))).flatMap (upToR f n) ++ [s]

/-- The places where a match that starts at the place may end, in the order Python tries
them. `ci` is IGNORECASE. -/
def Rx.ends (U : Uni) (ci : Bool) : Rx → Spot → List Spot
  | .chr d, s => stepIf (fun c => (variants ci c).any (fun x => x == d)) s
  | .cls items, s => stepIf (fun c => (variants ci c).any (fun x => items.any (fun i => i.has x))) s
  | .dot, s => stepIf (fun c => c != '\n') s
  | .dec, s => stepIf U.decimal s
  | .nonspace, s => stepIf (fun c => !isSpace c) s
  | .bol, s => if s.before.isEmpty then [s] else []
  | .eol, s => if s.after.isEmpty || s.after == ['\n'] then [s] else []
  | .bnd, s => if wordAt U s.before != wordAt U s.after then [s] else []
  | .emp, s => [s]
  | .seq a b, s => (a.ends U ci s).flatMap (b.ends U ci)
  | .alt a b, s => a.ends U ci s ++ b.ends U ci s
  | .rep a lo none, s => (timesR (a.ends U ci) lo s).flatMap (fun t => upToR (a.ends U ci) t.after.length t)
  | .rep a lo (some hi), s => (timesR (a.ends U ci) lo s).flatMap (upToR (a.ends U ci) (hi - lo))
  | .grp _ a, s => a.ends U ci s
  | .look a, s => if (a.ends U ci s).isEmpty then [] else [s]

/-- `re.match(r, s) is not None` -/
def reMatch (U : Uni) (ci : Bool) (r : Rx) (s : List Char) : Bool := !(r.ends U ci ⟨[], s⟩).isEmpty

/-- `re.search` from a place on -/
def searchFrom (U : Uni) (ci : Bool) (r : Rx) : List Char → List Char → Bool
  | b, [] => !(r.ends U ci ⟨b, []⟩).isEmpty
  | b, c :: a => !(r.ends U ci ⟨b, c :: a⟩).isEmpty || searchFrom U ci r (c :: b) a

/-- `re.search(r, s) is not None` -/
def reSearch (U : Uni) (ci : Bool) (r : Rx) (s : List Char) : Bool := searchFrom U ci r [] s

/-- `re.sub(r, rep, s)` from a place on, for a replacement without backslashes: the leftmost
match is replaced, then the search continues behind it; after an empty match (`must`) only a
non-empty one may start at the same place. -/
def subGo (U : Uni) (r : Rx) (rep : List Char) : Nat → Bool → Spot → List Char
  | 0, _, s => s.after
  | n + 1, must, s =>
    match (r.ends U false s).filter (fun t => !must || decide (t.after.length < s.after.length)) with
    | t :: _ =>
      if t.after.length < s.after.length then rep ++ subGo U r rep n false t
      else rep ++ subGo U r rep n true s
    | [] => match s.after with
      | [] => []
      | c :: a => c :: subGo U r rep n false ⟨c :: s.before, a⟩

/-- `re.sub(r, rep, s)` -/
def reSub (U : Uni) (r : Rx) (rep s : List Char) : List Char :=
  subGo U r rep (2 * s.length + 2) false ⟨[], s⟩

/-! ### The patterns in the code -/

/-- `A-Z`, `a-z`, `0-9` -/
def upperR : CItem := .range 'A' 'Z'
def lowerR : CItem := .range 'a' 'z'
def digitR : CItem := .range '0' '9'

/-- email_modifier.py:10 -/
def emailRx : Rx := .row [
  .bnd,
  .rep (.cls [upperR, lowerR, digitR, .ch '.', .ch '_', .ch '%', .ch '+', .ch '-']) 1 none,
  .chr '@',
  .rep (.cls [upperR, lowerR, digitR, .ch '.', .ch '-']) 1 none,
  .chr '.',
  .rep (.cls [upperR, .ch '|', lowerR]) 2 none,
  .bnd]

/-- hexcolor_modifier.py:10 -/
def hexRx : Rx := .rep (.cls [digitR, .range 'a' 'f', .range 'A' 'F']) 6 (some 6)

/-- the symbols of securepw_modifier.py:11 -/
def pwSymbols : List CItem := [.ch '!', .ch '@', .ch '#', .ch '$', .ch '&', .ch '*', .ch '`', .ch '~', .ch '(', .ch ')',
  .esc '-', .ch '_', .ch '+', .ch '=', .esc '[', .esc ']', .ch '{', .ch '}', .ch ':', .ch ';', .ch '\'', .ch '"',
  .ch ',', .ch '<', .ch '>', .ch '.', .ch '?', .esc '\\', .ch '|', .ch '/']

/-- securepw_modifier.py:9-15; VERBOSE drops the blanks outside the classes. -/
def pwRx : Rx := .grp true (.row [
  .bol,
  .look (.seq (.rep .dot 0 none) (.cls [upperR])),
  .look (.seq (.rep .dot 0 none) (.cls pwSymbols)),
  .look (.seq (.rep .dot 0 none) (.cls [digitR])),
  .look (.seq (.rep .dot 0 none) (.cls [lowerR])),
  .rep .dot 0 none,
  .eol])

/-- the classes of url_modifier.py -/
def alnumC : Rx := .cls [upperR, digitR]
def alnumDashC : Rx := .cls [upperR, digitR, .ch '-']

/-- a word of literal characters -/
def Rx.word (w : List Char) : Rx := .row (w.map .chr)

/-- url_modifier.py:12: the scheme -/
def schemeRx : Rx := .row [.grp false (.alt (.word ['h', 't', 't', 'p']) (.word ['f', 't', 'p'])),
  .rep (.chr 's') 0 (some 1), .word [':', '/', '/']]

/-- url_modifier.py:13: a label and its dot -/
def labelRx : Rx := .grp false (.row [alnumC,
  .rep (.grp false (.seq (.rep alnumDashC 0 (some 61)) alnumC)) 0 (some 1), .chr '.'])

/-- url_modifier.py:13: the last label -/
def topRx : Rx := .grp false (.alt
  (.seq (.rep (.cls [upperR]) 2 (some 6)) (.rep (.chr '.') 0 (some 1)))
  (.seq (.rep alnumDashC 2 none) (.rep (.chr '.') 0 (some 1))))

/-- url_modifier.py:15: one to three digits -/
def octetRx : Rx := .rep .dec 1 (some 3)

/-- url_modifier.py:13-15: the host -/
def hostRx : Rx := .grp false (.alt (.seq (.rep labelRx 1 none) topRx) (.alt
  (.word ['l', 'o', 'c', 'a', 'l', 'h', 'o', 's', 't'])
  (.row [octetRx, .chr '.', octetRx, .chr '.', octetRx, .chr '.', octetRx])))

/-- url_modifier.py:16: the port -/
def portRx : Rx := .rep (.grp false (.seq (.chr ':') (.rep .dec 1 none))) 0 (some 1)

/-- url_modifier.py:17: the path or query -/
def tailRx : Rx := .grp false (.alt (.rep (.chr '/') 0 (some 1))
  (.seq (.cls [.ch '/', .ch '?']) (.rep .nonspace 1 none)))

/-- url_modifier.py:11-17 -/
def urlRx : Rx := .row [.bol, schemeRx, hostRx, portRx, tailRx, .eol]

/-! ### The modifiers -/

/-- a check of a string by a test; other values pass -/
def strCheck (msg : String) (ok : List Char → Bool) : Leaf where
  validate := fun _ c => match c.val with
    | .str s => rejectIf c msg (!ok s.toList)
    | _ => .ok ()

/-- `s.isX()`: not empty and every character in the table -/
def allOf (p : Char → Bool) (s : List Char) : Bool := !s.isEmpty && s.all p

/-- `AlphaModifier`: alpha_modifier.py:12-14. -/
def alphaMod (U : Uni) : Leaf := strCheck "value is not alpha str" (allOf U.alpha)
/-- `DigitModifier`: digit_modifier.py:13-15. -/
def digitMod (U : Uni) : Leaf := strCheck "value is not digit string" (allOf U.digit)
/-- `NumericModifier`: numeric_modifier.py:13-15. -/
def numericMod (U : Uni) : Leaf := strCheck "value is not numeric string" (allOf U.numeric)
/-- `AlnumModifier`: alnum_modifier.py:12-14. -/
def alnumMod (U : Uni) : Leaf := strCheck "value is not alnum str" (allOf U.alnum)

/-- `EmailModifier`: email_modifier.py:15-17. -/
def emailMod (U : Uni) : Leaf := strCheck "value is not email string" (reMatch U false emailRx)
/-- `UrlModifier`: url_modifier.py:22-24. -/
def urlMod (U : Uni) : Leaf := strCheck "value is not valid url string" (reMatch U true urlRx)
/-- `SecurepwModifier`: securepw_modifier.py:20-22. -/
def securepwMod (U : Uni) : Leaf := strCheck "value is not secure password" (reSearch U false pwRx)
/-- `HexColorModifier`: hexcolor_modifier.py:15-24. -/
def hexcolorMod (U : Uni) : Leaf where
  transform := fun _ c => match c.val with
    | .str s => match s.toList with
      | '#' :: r => .ok (.str (String.ofList r))
      | _ => .ok (.str s)
    | v => .ok v
  validate := (strCheck "value is not hex color string" (reMatch U false hexRx)).validate

/-- `MatchModifier`: match_modifier.py:18-21. `parse` reads a pattern text (`re.compile`).
The parameter is resolved for every value; a pattern that is not a string or cannot be read
raises only for strings. -/
def matchMod (U : Uni) (parse : String → Except Exc Rx) (p : Param) : Leaf where
  validate := fun h c => do
    let pat ← p h c
    match c.val with
    | .str s => match pat with
      | .str t => do
        let r ← parse t
        rejectIf c "value does not match" (!reSearch U false r s.toList)
      | _ => .error .typeError
    | _ => .ok ()

/-- `ReplacerModifier`: replacer_modifier.py:17-20, for a replacement text without
backslashes. -/
def replacerMod (U : Uni) (parse : String → Except Exc Rx) (preg prep : Param) : Leaf where
  transform := fun h c => do
    let reg ← preg h c
    let rep ← prep h c
    match c.val with
    | .str s => match reg, rep with
      | .str t, .str u => do
        let r ← parse t
        pure (.str (String.ofList (reSub U r u.toList s.toList)))
      | _, _ => .error .typeError
    | v => .ok v

end JC
