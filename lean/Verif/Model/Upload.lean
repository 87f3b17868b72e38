import Verif.Model.UConf
import Verif.Model.World

/-
File uploads: uploader_modifier.py and uploaders.py (`request_uploader` is in Model/UConf).

Texts are lists of characters here. The random numbers of `uuid4`, `str.lower`, the attributes of the
uploaded value, the refusals of the operating system and of the storage service are parameters.
Paths are sequences of components: links and `..` are not followed.
-/
namespace JC

/-- An absolute path, from the root. -/
abbrev FPath := List (List Char)

/-- `text.split('/')` -/
def splitSlash : List Char → List (List Char)
  | [] => [[]]
  | c :: r => if c = '/' then [] :: splitSlash r else match splitSlash r with
    | [] => [[c]]
    | p :: ps => (c :: p) :: ps

/-- the components of `Path(text)`, without the root: pathlib drops empty ones and `.` -/
def pathParts (cs : List Char) : List (List Char) := (splitSlash cs).filter (fun p => p != [] && p != ['.'])

/-- `Path(text).name` -/
def fileName (cs : List Char) : List Char := (pathParts cs).getLast?.getD []

/-- `suffix` of a name: from the last dot on, unless that is the first or the last character
(pathlib before Python 3.14) -/
def suffixOf (name : List Char) : List Char :=
  if (name.reverse.takeWhile (· != '.')).length + 1 < name.length ∧ name.reverse.takeWhile (· != '.') ≠ [] then
    '.' :: (name.reverse.takeWhile (· != '.')).reverse
  else []

/-- `base / text`: a text that starts with a slash replaces the base -/
def joinPath (base : FPath) (cs : List Char) : FPath :=
  if cs.head? = some '/' then pathParts cs else base ++ pathParts cs

/-- The uploaded value: uploaders.py:38-45, 67-73. Both kinds of values write their content. -/
structure UFile where
  filename : Option String
  content : String
  contentType : Val

/-- A call of `upload_fileobj`: uploaders.py:45-48. -/
structure S3Call where
  bucket : Got
  key : List Char
  acl : Got
  contentType : Val
  content : String

/-- `LocalFSClient`: uploaders.py:57-65. -/
structure LocalClient where
  dir : List Char
  url : Got
  dest : FPath

/-- What is outside of the library: `uuid` gives the texts of successive calls of `uuid4().hex`,
`fileOf` the attributes of a value (none: they are missing), `shown` the text of a value in an
f-string. -/
structure UploadEnv where
  uuid : Nat → List Char
  lower : List Char → List Char
  cwd : FPath
  fileOf : Val → Option UFile
  refuses : FPath → Option Exc
  s3refuses : S3Call → Option Exc
  shown : Got → List Char

/-- The state of the process and of the disk. -/
structure Disk where
  dirs : List FPath
  files : FPath → Option String
  s3 : List S3Call
  uuids : Nat
  cache : List (String × Uploader)
  clients : List (Nat × LocalClient)

variable (E : UploadEnv)

/-- `config[key]`: only a `UserConf` has entries -/
def Got.item (g : Got) (key : String) : Except Exc Got := match g with
  | .conf v => confGet v key
  | .plain _ => .error .typeError

/-- lift a pure result -/
def Py.ofExcept {σ α : Type} (r : Except Exc α) : Py σ α := fun s => (r, s)

/-- the path and the directories on the way to it -/
def onWay (p : FPath) : List FPath := (List.range (p.length + 1)).map p.take

/-- whether some file is at the path or at a directory on the way to it -/
def blocked (files : FPath → Option String) (p : FPath) : Bool := (onWay p).any (fun q => (files q).isSome)

/-- `if not dest.is_dir(): dest.mkdir(parents=True)`: uploaders.py:63-64. A file on the way raises
before any directory is made. -/
def makeDir (dest : FPath) : Py Disk Unit := fun s =>
  if dest ∈ s.dirs then (.ok (), s)
  else match E.refuses dest with
    | some e => (.error e, s)
    | none => if blocked s.files dest then (.error (.other 0), s) else (.ok (), { s with dirs := s.dirs ++ onWay dest })

/-- the texts of the directory setting: anything but a text raises in the `/` of paths -/
def dirText : Got → Except Exc (List Char)
  | .plain (.str d) => .ok d.toList
  | _ => .error .typeError

/-- `LocalFSUploader.client`: uploaders.py:59-65, 80-86. -/
def localClient (u : Uploader) : Py Disk LocalClient := fun s =>
  match s.clients.find? (fun p => p.1 = u.uid) with
  | some p => (.ok p.2, s)
  | none => (do
      let d ← Py.ofExcept (u.config.item "dir")
      let url ← Py.ofExcept (u.config.item "url")
      let dir ← Py.ofExcept (dirText d)
      let dest := joinPath (E.cwd ++ ["public".toList]) dir
      makeDir E dest
      let c : LocalClient := { dir := dir, url := url, dest := dest }
      Py.modify (fun s => { s with clients := (u.uid, c) :: s.clients })
      pure c : Py Disk LocalClient) s

/-- `f'{uuid4().hex}{Path(value.filename).suffix.lower()}'`: uploaders.py:37, 67. -/
def uniqueName (v : Val) : Py Disk (UFile × List Char) := fun s =>
  match E.fileOf v with
  | none => (.error .attributeError, { s with uuids := s.uuids + 1 })
  | some f => match f.filename with
    | none => (.error .typeError, { s with uuids := s.uuids + 1 })
    | some n => (.ok (f, E.uuid s.uuids ++ E.lower (suffixOf (fileName n.toList))), { s with uuids := s.uuids + 1 })

/-- open for writing and write: uploaders.py:69-73. -/
def writeFile (dest : FPath) (name : List Char) (content : String) : Py Disk Unit := fun s =>
  match E.refuses (dest ++ [name]) with
  | some e => (.error e, s)
  | none => if dest ∉ s.dirs ∨ dest ++ [name] ∈ s.dirs then (.error (.other 0), s)
    else (.ok (), { s with files := fun p => if p = dest ++ [name] then some content else s.files p })

/-- `self.url + '/public/' + self.dir + '/' + unique_filename`: uploaders.py:74. -/
def localUrl (url : Got) (dir name : List Char) : Except Exc Val := match url with
  | .plain (.str b) => .ok (.str (String.ofList (b.toList ++ "/public/".toList ++ dir ++ "/".toList ++ name)))
  | _ => .error .typeError

/-- `LocalFSUploader.upload`: uploaders.py:66-74, 88-89. -/
def localUpload (u : Uploader) (v : Val) : Py Disk Val := do
  let c ← localClient E u
  let r ← uniqueName E v
  writeFile E c.dest r.2 r.1.content
  Py.ofExcept (localUrl c.url c.dir r.2)

/-- `S3Uploader.upload`: uploaders.py:36-49. Making the client reads entries of the same
configuration and is part of what may be refused. -/
def s3Upload (u : Uploader) (v : Val) : Py Disk Val := do
  let r ← uniqueName E v
  let bucket ← Py.ofExcept (u.config.item "bucket")
  let acl ← Py.ofExcept (u.config.item "acl")
  let call : S3Call := { bucket := bucket, key := r.2, acl := acl, contentType := r.1.contentType, content := r.1.content }
  (fun s => match E.s3refuses call with
    | some e => (.error e, s)
    | none => (.ok (), { s with s3 := s.s3 ++ [call] }) : Py Disk Unit)
  let endpoint ← Py.ofExcept (u.config.item "endpoint_url")
  pure (.str (String.ofList (E.shown endpoint ++ "/".toList ++ E.shown bucket ++ "/".toList ++ r.2)))

/-- `upload` of the three kinds of uploaders; `AliOSSUploader.upload` has no body: uploaders.py:51-54. -/
def uploadBy (u : Uploader) (v : Val) : Py Disk Val := match u.engine with
  | .s3 => s3Upload E u v
  | .localfs => localUpload E u v
  | .alioss => pure .none

/-- The argument of `types.uploader`. -/
inductive UploadArg where
  | named (name : String)
  | call1 (f : Val → Except Exc Val)
  | call2 (f : Val → Ctx → Except Exc Val)

/-- `UploaderModifier.transform`: uploader_modifier.py:39-50. -/
def uploadTransform (conf : Val) (arg : UploadArg) (c : Ctx) : Py Disk Val :=
  if c.val.isNone then pure .none
  else match arg with
    | .call1 f => Py.ofExcept (f c.val)
    | .call2 f => Py.ofExcept (f c.val c)
    | .named n => fun s => match requestUploader conf n s.cache with
      | (.ok u, cache) => uploadBy E u c.val { s with cache := cache }
      | (.error e, cache) => (.error e, { s with cache := cache })

end JC
