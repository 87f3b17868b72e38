# Formal model of jsonclasses: design and trusted base

The code under study is `/repo` (fillmula/jsonclasses 3.4.0, Python). It was read as text
and never built or run. The model and the proofs are in Lean 4 (`/verif/lean`, built with
`lake build`). `properties.jsonl` has the properties, `MANIFEST.json` maps each to the exact
theorem names (generated from `tools/registry.py` by `tools/manifest.py`), and
`seeded/LOG.jsonl` has the wrong programs the theorems were tested against.

## 1. Trusted base

* Lean's kernel. No axioms are added; no `sorry`, `admit`, `native_decide`, `bv_decide`.
  `decide +kernel` (evaluation inside the kernel) is used for concrete witnesses only.
  Section 6 lists the axioms the theorems depend on.
* The reading of the Python source. Each model definition carries a comment with file and
  lines; simplifications are stated in the same comment or at the head of the file, and
  collected in section 2.
* The semantics of CPython built-ins used by the code, transcribed by hand: `list`, `dict`,
  `str`, slices, `int`, `float`, `datetime` (`isoformat`, `strftime`, `fromisoformat`,
  `strptime` as far as used), `enum`, set-like name collections, `==`.
* External code that is a parameter of the model, over which theorems quantify: key
  strategies (`inflection.camelize` and the like), user callbacks (validators,
  transformers, guards, getters, on-save callbacks), `str()` of primary keys, `str.upper`
  and `str.lower`, storage writes.

## 2. Modelling choices and what is left out

General:

* Exceptions are values: a Python call is a function from a state to a result (value or
  exception) and a new state; an exception keeps the mutations made before it, as in
  Python.
* Unbounded recursion uses fuel. Running out of fuel is a separate outcome
  (`RecursionError`). Termination is a theorem (a fuel suffices), divergence is a theorem (no
  fuel suffices). Other theorems hold for every fuel.
* Objects live in a heap indexed by natural numbers; a reference is an index. Containers
  are values owned by the field that holds them (the code copies containers on
  assignment). Aliases of a list or dict held elsewhere are outside the model.
* Object equality is identity, except in `Model/ObjEq`. The code's classes get dataclass
  equality (same class, equal fields, with Python's identity shortcut for items of containers);
  C86 says what that equality means, and C87 proves that assignments and list operations do the
  same under both as long as objects of one class differ in a leading plain field, e.g. the
  primary key. Elsewhere two distinct objects with all fields equal, and the RecursionError of
  comparing cyclic objects, are outside the model.
* Strings are Lean `String`s (sequences of code points, no lone surrogates). Floats are
  exact rationals plus nan and infinities; float rounding is not modelled. Sets, tuples,
  bytes and other values appear as one opaque kind.
* Dict keys are strings.

Per area:

* Validators, transformers given as leaf modifiers, and getters of calculated fields only
  read objects; they do not write to them. In C46 validators report through
  `raise_vexc`, as all modifiers of the library do.
* Setters of calculated fields are modelled in `Model/Calc` only (elsewhere assignment raises).
* `fromisoformat` and `strptime` are transcribed for the forms `YYYY-MM-DD` and
  `YYYY-MM-DDTHH:MM:SS[.f]Z`. Datetimes are naive or UTC.
* Enum aliases and enums that mix in another type are not modelled.
* Guards, callbacks and storage (`Model/Save`) are arbitrary functions that do not
  themselves call `save` or `delete`.
* A class is given by its resolved fields, except in `Model/Declare`, which takes class
  statements. That model follows the standard library's `dataclass` (read from CPython), which is
  trusted to be as modelled. The methods that the decorator adds are modelled as functions.
  Annotations (`rtypes.py`) are modelled up to the definition they give (C53), name
  resolution separately (C41). The regular expressions are transcribed by hand; type objects
  are given in the normal form of `typing` (flat unions). `X | Y` as an object is taken not to
  be a `typing.Union`, as before Python 3.14.
* Class identity in a class graph is opaque.
* The input code for relations: an eager validation of an existing object inside a
  transform registers it in the mark graph of the call; the input theorems assume chains
  do not put an eager mark after an object type (`EagerSafe`).
* Relations (`Relations`, `PlainPrimary`): field names are distinct, a reference id is
  neither a declared field nor a primary key, the opposite of the opposite of a relation
  field is the field itself, the primary key is a plain field.
* `linkedthru` (relations through a join class) has no foreign field in the code paths
  modelled; `referrer`/`referee` are only marks of a definition (`Model/Marks`).
* Not modelled at all: `retrieve`, the inside of the ORM (`orm.py`; `include` takes it as a parameter), the
  command line helpers, and `mypy.py`.

## 3. Modules

| module | code |
| --- | --- |
| `Model/Value` | Python values, equality, exceptions, the effect monad |
| `Model/Keypath` | `keypath.py` |
| `Model/Chain` | `ctx.py` (contexts), `chained_modifier.py`, `vmsgcollector.py` |
| `Model/Collection` | `type_modifier.py`, `collection_type_modifier.py`, `listof`, `dictof`, `union_modifier.py` |
| `Model/Numbers`, `Model/Strings` | leaf modifiers |
| `Model/DateTime` | `date`, `datetime`, `tobo*`, `tonext*`, `before`, `after` |
| `Model/Fmtd` | `fmtd`; `strftime` is a parameter |
| `Model/EnumMod` | `enum_modifier.py` and the input and output marks |
| `Model/OwnedList`, `Model/OwnedDict`, `Model/OwnedConv` | `olist.py`, `odict.py`, `outils.py` |
| `Model/Nested` | nested owned lists and dicts of one object: `jsonclassify.py` `__setattr__` 712-766, container callbacks 787-921, `reset` 324-335, `persisted_modified_fields` 294-305; `outils.py` |
| `Model/World` | heap, class definitions, tracking, unlinked objects, graphs: parts of `jsonclassify.py`, `fdef.py`, `cdef.py`, `ograph.py` |
| `Model/Link` | `jsonclassify.py`: `__setattr__`, linking, unlinking, local keys, container callbacks |
| `Model/ObjEq` | `jsonclass.py`: the `__eq__` of dataclasses; the functions of `Model/Link` and `Model/Methods` with objects compared by `==` |
| `Model/Methods` | the list and dict methods run on an object's field, with the owner's callbacks |
| `Model/Instance` | `instanceof_modifier.py`, field chains, `mgraph.py`; `__init__`, `set`, `update`, `validate`, `is_valid`, `tojson`, `reset` |
| `Model/Save` | guards, callbacks, `save`, `delete` |
| `Model/OGraph`, `Model/CGraph` | `ograph.py`; `cgraph.py`, decorators' registration, `rtypes.rnamedtypes` |
| `Model/Annot` | `rtypes.py` (annotations), `typing.py` |
| `Model/KeySet` | `set` with key paths: `_keypath_set`, `_set_to_container` (jsonclassify.py:59-69, 80-117); the key path of a nested container is its present position, `int(text)` takes a sign and ASCII digits |
| `Model/Relation` | `cdef.py` owner of a field definition and `rfield`, `jfield.py` lookup of the opposite field. One class graph; looked up on demand instead of cached (`resolve_later`) |
| `Model/SubPipe` | modifiers that take a pipeline or a callable: `validate`, `oneisvalid`, `compare`, `transform`, `fmt`, `canc`, `canu`, `cancu`, `canr`, and `this`, `getop`, `passin`, `fval`, `isobj`, `isobjof`, `isthis`. Nested pipelines consist of effect free modifiers; callables read objects and may raise |
| `Model/Operator` | `opby`, and validation by `asop` and `asopd`. The list of declared fields and the transformers (functions of the heap, the operator and the object, with their number of parameters) are parameters; so is the lookup of a field's reference id name in the check |
| `Model/UConf` | `UserConf.get`, loading of config.json (environment references, renaming), `request_uploader`. `underscore` and the environment are parameters; reading and parsing the file are not modelled; `int(text)` as in `Model/KeySet` |
| `Model/Upload` | `UploaderModifier`, `LocalFSUploader`, `S3Uploader`, `AliOSSUploader`, the parts of POSIX `pathlib` they use (`suffix` as before Python 3.14). Values are files by their attributes; `uuid4`, `lower`, refusals by the file system and S3 are parameters; an upload is one step (no concurrent uploads) |
| `Model/Marks` | `Types.__init__`, the `define` of every modifier, `FDef`, the tables of `CDef.__init__`, `FDef.inst_cls` for names. Callables, enums, item types and checkers are numbers; resolving unresolved annotations and item types is not modelled here |
| `Model/Regex` | `EmailModifier`, `UrlModifier`, `HexColorModifier`, `SecurepwModifier`, `MatchModifier`, `ReplacerModifier`, `AlphaModifier`, `DigitModifier`, `NumericModifier`, `AlnumModifier`. `re` is external: its meaning is given as a backtracking matcher on syntax trees (characters, classes, `.`, `\d`, `\S`, `^`, `$`, `\b`, sequence, choice, greedy repetition, groups, look-ahead). The trees of the built-in patterns print back to the pattern texts of the code (checked). Reading a user's pattern text is a parameter; replacement texts have no backslashes; Unicode tables are a parameter fixed on ASCII |
| `Model/SaveMods` | `SetOnSaveModifier`, `FSetOnSaveModifier`, `OnSaveModifier`, `OnUpdateModifier`, `OnWriteModifier` (setters and callbacks are arbitrary functions that read objects and may raise; they do not change objects) |
| `Model/Convert` | `ToIntModifier`, `ToStrModifier`, `ToFloatModifier`, `DivModifier`, `PowModifier` (integers), `SqrtModifier`, `ToUpperModifier`, `ToLowerModifier`, `ToCapModifier`, `ToTitleModifier`, `RandomDigitsModifier`, `RandomAlnumsModifier`, `RandomAlnumpuncsModifier`, `RandomIntModifier`, `MongoIdModifier.transform`, `SaltModifier`, `CheckpwModifier` (parameters: decimal digits and letter case beyond ASCII, text of floats, `math.sqrt`, one use of `random`, `ObjectId`, `bcrypt`) |
| `Model/Include` | `include` (jsonclassify.py:391-435), `fobj` modifier; the ORM (orm.py) is a parameter answering `id`, `ids`, `one`, `find` |
| `Model/PrevId` | `_previous_id` (jsonclassify.py:653-664) |
| `Model/CrossFetch` | `CrossFetchModifier`, `InvalidModifier`, `RandomFloatModifier`, pipelines as parameters (modifier.py:22-24); the ORM and `random.uniform` are parameters |
| `Model/Encoder` | `JSONEncoder.default` (encoder.py:19-21) inside the visit of lists and dicts by `json.dumps`; the text and the check for circular containers are left out |
| `Model/Conf` | `jconf.py` and the decorator's arguments |
| `Model/Declare` | `jsonclass.py:126`, `cdef.py:64-78`, and from the standard library the part of `dataclasses._process_class` that collects fields |
| `Model/Packages` | `pkgutils.py`; pip, the import system and the file system are parameters |

`Verif/Props/*` has the theorems, one file per area, each beginning with a small
specification that does not use the modelled functions, and an `example` beside each
theorem showing that a concrete, non-trivial case meets its hypotheses. Toolkits:
`Props/Sim`, `Props/ValidateSim`, `Props/JsonSim` (two related runs), `Props/Frame`,
`Props/InputFrame` (what a computation leaves alone), `Props/Demo` (a concrete program).

## 4. Per property: what is modelled and how it is proved

| id | method |
| --- | --- |
| C01 | key path text functions on character lists; induction on the component list |
| C02 | the two dictionary comprehensions as filters; partition lemma |
| C03-C05, C47 | the chain as folds over an arbitrary list of arbitrary effectful modifiers; marks characterised by list splitting; induction on the chain |
| C06-C07 | item loop as a fold with index over an arbitrary item modifier; induction on the collection |
| C08, C10, C48 | one function per modifier, decision stated as an iff with the inequality |
| C09, C11-C13, C49-C50 | list lemmas on characters and items; negations by witness for the list branches |
| C48, C50 equality and truth | `Same` (numbers by value whatever their type, lists and dicts item by item) and `Falsy` are specified apart from the model's comparison and proved equivalent to it by mutual induction |
| C14-C16, C51 | calendar with leap years; text encoding by digits; negation by witness for whole seconds |
| C17 | enum as a list of (name, value); negation by witness for combined forms |
| C18 | fold over alternatives |
| C19-C21 | fuel interpreter for instance validation over heap and marks; termination measure: unmarked objects, then depth; two-run simulation for C21; for C20 an independent specification of accepted values, least and greatest fixed points over reachable places |
| C22-C27 | interpreter for instance transform on heap objects; frame calculus `Kp` reduces "does not touch" to primitive steps; induction on input and on call histories |
| C28-C30, C52 | interpreter for tojson; measure: classes not yet on the class chain; two-heap non-interference |
| C31-C34 | attribute assignment and container methods as state transformers; invariants by induction on histories |
| C35-C37 | list/dict operations with an event log; replay of the log equals the change |
| C38 | the set of references without an opposite, tracked through the mutual recursion of linking and unlinking by a `SymBut` invariant with an explicit set of exempt references; induction on fuel, then on histories. For construction and `set`: an invariant of the state during input (`BInv`: suitable and symmetric relations, marks name distinct allocated objects), kept by every step of the input code; induction on the nesting depth of the input |
| C39 | invariant `KInv` (classes, primary keys, typing, mirror) with an exemption while a reference and its id are written; holds across exceptions. Construction and `set`: invariant `MInv` (mirror; every marked object has the key it is marked with) on top of the one of C38, induction on the depth of the input; a new object is referred to by nobody until its primary key is written |
| C40-C41 | association maps with merge; histories |
| C42-C44 | save/delete as effect traces over arbitrary callbacks |
| C71 | `RunsAll` says each callback ran once, in order; the log and the states of save and delete are followed step by step |
| C72 | `keyText` (printed primary key of a dict) and `merged` (what the dicts of one key give last) are the specification; one dict is `ReadOne`, followed along the item loop with the invariant `Merged` |
| C73 | two runs of `validate` with different settings in lock step (`Lock`): both succeed with the same state, or both fail and the error of the long run covers the error of the short one. The three loops (chain, items, fields) are instances of one description (`Runs`) |
| C74 | a relation `Tracks` between worlds (class and newness kept, names and flag kept, changes reported unless cleared from the other side), closed under composition, with an exception for the one attribute being written until it is marked; shown for each piece of the linking code by induction on the recursion of `runU`/`runL`, then for the operations and histories; then for input handling (constructors, `set`, `update`) by induction on the nesting of objects, where all writes go through assignments and new objects are outside the claim |
| C75 | inputs that say the same (`SameSense`, inductive over nesting) are read alike: induction on the visit depth, inside it over the derivation of `SameSense`, the loops over items and fields in step; classes of objects and the typing of the mark graph are kept on the way, so that the object found for a key has the class asked for |
| C76 | small model of `pick`, `omit`, `complete` on top of `setAttr`, with the ORM as a parameter; direct |
| C77 | model of setters (Model/Calc) as trees of operations that depend on what they read, and of `assign` pipelines, on top of `setAttr`; a predicate on computations (`OrdRun`) closed under sequencing shows that a run is a sequence of ordinary operations, to which C74 and C78 apply; pipelines by induction on the steps |
| C78 | an invariant over all operations (`NamesK`), kept by every function of Model/Link; for input the generic induction of Props/InputWalk (a property of computations closed under sequencing holds for set, update and constructors) |
| C79 | Hoare triples over the classes and attributes of all objects (`Holding`, `Does`: total correctness) for the functions of Model/Link; the effect is a chain of single attribute replacements (`put`), read off at the end |
| C80 | the same with a triple for completed runs (`Ends`), as merging graphs may raise; the specification lists the changed attributes (`OnlyThese`) |
| C81 | the two modifiers in sequence (`outputs`) on the text that the first makes; the parse of that text is `parse_iso23` of C16 |
| C82 | an invariant of the uploader cache and the clients made (`Disk.Good`), kept by every upload (`step_fits`); names end in a part without slash that starts with the next `uuid4`, so sequences of uploads cannot meet |
| C83 | `PlainV` says what plain data is, `ShownAs` which values a declaration turns into plain data; induction over the recursion depth, the fields and the declarations shows that the output is plain; for validated objects the kinds of the values follow from the soundness of `validate()` (C20). Proved for all graphs and options; fails for untyped fields The encoder: `Written` says what is to be written; induction over the recursion limit, and `tojson()` depends on no ghost state. |
| C84 | closed form of all attributes after some objects have left and some have joined (`midway`), one step lemma for leaving (`step_leave`, `runs_del_list`) and one for joining (`step_join`), induction over the lists; the specification (`Members`, `Joins`, `Regrouped`) speaks about attributes only |
| C85 | the same plan as C84 for many-to-many relations: closed form of all attributes after some objects have left and some have joined, for the side with ids (`midF`) and the side without (`midO`), one step lemma per direction (`stepF_leave`, `stepF_join`, `stepF_del`, `stepF_add`, `stepO_leave`, `stepO_join`, `stepO_del`), induction over the lists. The ids are tracked through removal by value (`without_map`) and insertion by position (`insertAll`, `pyInsert_min`) |
| C86 | `==` of dataclasses as fuelled recursion over the heap (`veq`, `oeq`); specification by the largest relation that is closed under looking at fields (`Bisim`, `Alike`); true answers form such a relation, false answers refute every one, by induction on the fuel; termination from a rank |
| C87 | the functions of Model/Link and Model/Methods once more, with `==` as a parameter that may raise; under an invariant for which `==` is identity the two models do the same (`Agree`), by the frame lemmas of Props/Frame; the invariant is kept |
| C88 | a frame argument: every linking, unlinking, list, dict, assignment and input operation keeps what object `b` holds, reports and records for `n` when `n` belongs to no relation, except the assignment of `n` itself, which records the old value once; induction over the program; the loop of `reset` sets `n` exactly once |
| C89 | the nested pipeline is evaluated with C57's flow lemma; the answer of the ORM is constrained by `FindsRight`; cases on the answer |
| C90 | pipelines of modifiers that look at the value only are shown to have no effect and one result in any context (a relation between two runs, by recursion over lists, dicts and unions); a `set` of plain values is then a list of steps on the object alone, one per field and one per list that is filled in; steps on different fields can be swapped, steps repeated find an equal value |
| C91 | the constructor with plain values is computed exactly (`new_run`): one step per field, with the value given or the blank's value, then the lists of relations; compared with the exact effect of `set` (C90) value by value, everything else by a relation kept by all steps |
| C92 | `apiTojson`, then `apiSet` with its result (`put_back`): by C30 every entry of the JSON is the converted value or the id of its field, so each step of the field loop finds an equal value and does nothing. `flat_comes_back` gives the values that come back, by induction on the value. |
| C93 | two runs of `tojson` with different options are related: from the entries of one object in both runs (C30) by induction on the recursion limit, through the one converting modifier of each pipeline (`options_only_add`); the relation `More` says what may be added |
| C94 | class statements as data: the part of the standard library's `dataclass` that collects fields, and the head of the loop of `CDef.__init__` (`jsonClass`, `jfields`); induction over the line of base classes (`most_derived_counts`) |
| C95 | `checkAndInstall` with pip as a parameter and the file as a list of characters; induction over the packages; the lines of the result by the relation `LinesAdded` (`missing_listed`, `listed_once`) |
| C45 | option resolution |
| C46 | every message is traced to a place of the object graph by a path relation; induction over the interpreter |
| C53 | annotations as a syntax tree with its source text and its meaning; reading the text gives the meaning: bracket depth lemmas for the splitter, induction on the tree |
| C54 | places inside a value as a relation (`At`), what a list of keys names (`NamesPlace`), walk by induction on the path, write effects from C32's lemmas |
| C55 | values of a declared type as an inductive relation (`FitsJson`), equal values in two heaps as another (`SameValue`); induction on the first gives a depth limit, a JSON form, and for every later state the objects built from it |
| C56 | class declarations as a program text, two ends of a relation as a predicate on the text (`EndOf`); lookup equals the predicate, which is mutual; gives the hypothesis `Relations` of C38 and C39 |
| C57 | a nested pipeline is satisfied when the value flows through its transforms and every validator accepts the result (`Flows`, `Satisfied`); with marks, the part before the last `eager` is checked modifier by modifier and what follows `preserialize` plays no part (`Arranged`, `CheckedFlows`, `SatisfiedM`); `validate` and `oneisvalid` decide exactly this, `compare` decides what the callable says about the recorded previous value |
| C58 | permission is an operator plus a satisfied checker pipeline (`MayOperate`); each guard decides it, and with C20 (validate is sound), C43 (writes are validated) and C30 (entries of the JSON) no write and no output happens without it; the usual owner checker decides equality of class and key (`Names`) |
| C59 | `OnlyKeys` says that two states differ only in the operator and the given reference ids of one object; the loop of `opby` is followed field by field, each assignment is a local key assignment to an empty relation; the check is decided (`asop_iff`) and combined with C20 and C43 |
| C60 | `Leads v p u` says that path `p` leads from `v` to `u`; lookups follow it in both directions, replacing and renaming preserve it in both directions (induction over the path; over the value for failures); the regular expression is decided by `EnvForm` |
| C61 | the chain of lookups succeeds exactly for `ConfiguredAs`; the cache invariant (entries made as configured, identities distinct) holds along every sequence of requests |
| C62 | a store of definitions written in place; invariant over all programs: declaration `i` owns definition `i`, which equals the fold of its own row up to class and cached lookup; each rule then by induction over the row from its end |
| C63 | matcher = language for patterns without anchors (induction over the pattern); the languages of the built-in patterns are then rewritten into plain descriptions of the string |
| C64 | a frame relation ("only these fields of this object changed") is kept by every step of the field loop, which is cut at the field in question; the pipeline is cut at the setter or callback; unmodified related objects by induction over the visit depth |
| C65 | the reader of digits accepts exactly groups joined by underscores, by induction over the text; stripping by cutting the text at its first and last digit; digits of a number by strong induction |
| C66 | sampled positions are distinct, so are the characters of an alphabet without repetition; passwords from the law of `bcrypt` as hypothesis (`Bcrypt.Lawful`), met by a concrete instance |
| C67 | an invariant over the linking and unlinking commands: objects outside the group are untouched, stored values are members with the opposite field; by induction over the recursion of the commands and over the history; the connected objects are a group |
| C68 | `include` is a query, an assignment and putting the flags back; the state after the query is consistent again (loaded objects refer to nothing), then C38, C39 and C67 about the assignment; the ORM is a parameter with laws (`Truthful`), met by a concrete one that makes new objects |
| C69 | the accepted texts as a grammar over decimal numerals (`DateText`, `TimeText`, `OffsetText`), the reader proved equivalent to it by cases on its patterns |
| C70 | owned lists and dicts as objects with an identity (`Box`), what is seen in them as a relation (`Shows`); invariant: children are older than their parent and carry the path of their field, each field is unchanged or its first value is recorded, and recorded values share no container with the fields |

Properties that are only partly provable are marked `partial` in the manifest; the note says
what is missing, and in most cases the missing part is proved false by a witness:

| id | what the code does instead | witness |
| --- | --- | --- |
| C13 | `hasprefix` on lists is equality; an empty suffix is rejected | `hasprefix_list_wrong`, `suffix_list_empty_wrong` |
| C16 | a UTC datetime at a whole second is output as malformed text | `datetime_whole_second_lost` |
| C17 | combined input forms lose names and swallow unknown input | `enum_input_decided_false`, `enum_inputall_loses_name` |
| C20 | unions of object types, class mismatch after a first visit, equal primary keys | `validate_union_unsound`, `validate_class_unsound`, `validate_duplicate_unsound` |
| C23 | a nested dict with the receiver's key, and nonnull list relations, change unnamed fields | `InputDemo.set_with_key_touches_unnamed`, `InputDemo.set_fills_unnamed_list` |
| C24-C26 | the reference id of a relation is not covered by its write rule | `InputDemo.readonly_relation_written`, `InputDemo.writeonce_relation_rewritten`, `InputDemo.writenonnull_relation_cleared` |
| C27 | a nested dict with the new object's key overwrites it | `ConstructDemo.new_with_key_overwritten` |
| C28 | a union shows whether a hidden value is valid; a writeonly local-key relation shows its id | `JsonDemo.union_shows_hidden_validity`, `JsonDemo.writeonly_relation_shows_id` |
| C31 | new objects get modified names and previous values in two cases | `NewObjDemo.new_object_gets_modified_field`, `NewObjDemo.new_list_change_records_previous` |
| C35-C36 | iterator arguments, `extend(self)`, negative insert, reversed slices, one-argument `setdefault` | `olist_*`, `odict_*` |
| C38 | duplicates in a list and exceptions midway break symmetry | `links_duplicates_break`, `links_exception_breaks` |
| C39 | replacing an item of a local-key list; changing a linked object's primary key; constructing an object whose class declares a relation before the primary key | `local_key_list_replace_stale`, `local_key_id_change_stale`, `new_late_key_stale` |
| C42 | errors raised by a guard's own transform pass through | `guard_types_transform_escapes`, `guard_eager_not_unauthorized` |
| C44 | every second unlinked object is not saved | `save_misses_unlinked` |
| C45 | `camelize_json_keys=False` overrides explicit strategies | `decorator_explicit_loses` |
| C46 | field names of objects inside a list or dict are cased by the outer class | `message_keys_foreign_casing` |
| C51 | a UTC datetime compared with a plain date raises TypeError | `before_date_point_raises` |
| C53 | nested dicts, `None` in `Union[...]`, commas inside members, optional alternatives, forward references, `X \| Y` objects | `annot_*`, `annotation_means_false` |
| C54 | a list or dict as value (never returns); write rules of the field are ignored | `keyset_container_diverges`, `keyset_ignores_readonly` |
| C55 | null fields with a default, nested objects with equal keys, nested write-once fields with a default | `null_becomes_default`, `equal_keys_merge`, `nested_writeonce_ignored` |
| C56 | a relation written with `types` in a class that has a subclass; two fields linked by the same field | `inherited_relation_lost`, `subclass_breaks_links`, `ambiguous_relation_one_sided` |
| C57 | callables given to `oneisvalid` are never called; an alternative of `oneisvalid` that refuses before an `eager` mark ends the search with its own error; `compare` on a field that holds an object, or on a field of an object in a list | `oneisvalid_ignores_callables`, `oneisvalid_callable_broken`, `SubPipeMarksDemo.oneisvalid_eager_broken`, `compare_instance_field_broken`, `compare_in_collection_broken` |
| C58 | checkers given as callables; guards on fields holding objects; the key of an unreadable relation; operators and owners without a key | `callable_checker_broken`, `object_field_guard_bypassed`, `object_field_guard_crashes`, `unreadable_relation_key_shown`, `keyless_operator_passes` |
| C59 | the check ignores the operator, so a forged reference id is valid; transformers with three parameters assign nothing; objects inside lists are checked against the object that owns the list | `asop_ignores_operator_broken`, `forged_author_valid`, `three_parameters_broken`, `post_in_list_unchecked`, `post_in_list_crashes` |
| C60, C61 | names are renamed on loading but not on lookup, so a name as spelled in the file, in particular of an uploader, is unknown; of two names with the same underscore form one value is lost | `original_name_unknown`, `camel_uploader_broken`, `colliding_names_broken` |
| C62 | one `Types` used in two classes: names in the first are looked up in the graph of the second; a `Types` derived after a lookup keeps the class found then; list relations are never made nonnull (dead code); `asopd` after `asop` keeps the transformer; `linkto` after `temp` loses `temp`; `linkto` after `linkedby` keeps the foreign key | `shared_declaration_broken`, `stale_class_broken`, `list_relation_nullable_broken`, `asopd_after_asop_broken`, `temp_lost_broken`, `stale_foreign_key_broken` |
| C63 | `hexcolor` and `email` do not look at what follows a match (`match` without `$`); `$` accepts a final line break in `url`, `securepw` and in any `match('^...$')`; `url` accepts `999.999.999.999`; the class `[A-Z\|a-z]` of `email` contains the bar; `securepw` does not count `%` and `^` as symbols |
| C64 | `serialize` of a nested instance keeps the outer object as `ctx.parent` and the outer field as `keypathp[0]`: save-time setters of a nested object assign to the outer object's field (which is left wrong if the save fails behind it and marked as modified otherwise), `onupdate`/`onwrite` of a nested object look at the outer object's previous values and modified fields, and in a list of objects they raise `AttributeError`; `onsave` is not called for unmodified objects; `onupdate` is called for a value set and set back; a forced setter makes the fields declared after it run, not those before |
| C65 | `toint` of a text that is no integer raises Python's `ValueError`, division by zero `ZeroDivisionError`: both escape as internal errors instead of validation errors; `toint` leaves floats alone although documented to "transform value into int" |
| C66 | `randomdigits(n)` and the like sample without replacement: `n > 10` (62, 94) raises `ValueError`, repeated characters never occur; `salt` accepts passwords of more than 72 bytes, of which bcrypt ignores the rest; `checkpw` on a stored text that is no hash raises `ValueError` |
| C68 | `include` does not restore the previous values: with `reset_all_fields`, `reset()` of the unmodified object sets the loaded field and its reference id to `None` (`include_reset_forgets`). Objects loaded into a two-way relation become marked as modified (`include_marks_loaded`). Including the same list again raises `JSONClassGraphMergeConflictException` when the ORM makes new objects, and the object stays marked as modified (`include_again_raises`). Not modelled: `complete` puts the modified fields back as a list, so the next assignment raises `AttributeError` on `add`; `persisted_modified_fields` raises `ValueError` for nested paths such as `tags.0` |
| C69 | the offset of a text is checked and then ignored: noon in any time zone is read as noon UTC (`datetime_offset_ignored`) |
| C70 | a list the program keeps while its field is assigned another value stays recorded uncopied, and changing it spoils `reset` (`nested_kept_spoils`); a list in a field not declared list or dict is not restored by `reset` (`nested_any_kept`); `persisted_modified_fields` raises ValueError after a change in a nested container (`persisted_nested`); a change in a container that moved within its list is recorded under its old path (`nested_stale_path`) |
| C73 | unions whose alternatives hold callables or objects: asking for all errors raises on a valid value, or accepts an invalid object | `union_callable_violated`, `union_objects_violated` |
| C74 | a single relation cleared from the other side: not reported, or reported with `is_modified` False; sorted reference ids are reported under a name that is no field (`persisted_modified_fields` raises); an append that raises leaves its value in the list unreported | `TrackDemo.unlinked_not_reported`, `TrackDemo.unlinked_not_modified`, `TrackDemo.ids_reversed_misreported`, `TrackDemo.failed_append_unreported` |
| C75 | the primary key is looked up under its field name only (instanceof_modifier.py:104-109): `[{'itemId': 1}, {'itemId': 1}]` makes two objects, `[{'item_id': 1}, {'item_id': 1}]` one | `SpellDemo.primary_spelling_broken` |
| C76 | `pick` and `omit` always raise AttributeError; `complete` turns `_modified_fields` into a list, after which every assignment to a persisted object raises AttributeError | `pick_raises`, `omit_raises`, `completed_assign_raises` |
| C77 | `obj.set(calc=v)` and constructors drop values given for calculated fields without calling the setter (instanceof_modifier.py:173-174); `obj.update(calc=v)` calls it | `CalcDemo.set_drops_update_sets` |
| C77 | `update` accepts the name of a calculated field without setter and raises after having assigned earlier names | `CalcDemo.update_readonly_midway` |
| C78 | `article.tag_ids.reverse()` (and `sort`) puts `tag_ids` into `modified_fields` | `TrackDemo.reversed_ids_reported` |
| C79 | `article.tag_ids.remove("t1")` when one further id has no loaded object: there are then as many ids as objects, the tag stays in `tags` and keeps the article (jsonclassify.py:889 compares lengths) | `TrackDemo.unloaded_id_removed` |
| C81 | `types.datetime.fmtd(f)` raises ValueError in `tojson` for every UTC datetime at a whole second; `types.fmtd(f).date` raises AttributeError for every date | `datetime_whole_second_raises`, `formatter_first_raises` |
| C82 | uploaders with client `alioss` upload nothing and turn the value into None; without `url` the file is stored, then TypeError; the URL of an earlier upload raises AttributeError as input; S3 without `endpoint_url` returns `None/bucket/name` | `alioss_loses`, `no_url_leaves_file`, `text_raises`, `UploadDemo.no_endpoint` |
| C82 | an uploader directory beginning with `/` is stored at that absolute path, outside `public`, while the URL still points below it (`absolute_dir`, `UploadDemo.outside_public`) |
| C83 | a field of any type holding a date, and a list without item type holding one: the object is valid, and `tojson()` hands the date out, which `dumps` with the library's `JSONEncoder` refuses with TypeError (`PlainDemo.any_not_plain`, `PlainDemo.list_not_plain`) |
| C86 | two unsaved users with the same name, each with one unsaved post of the same name: `user1 == user2` raises RecursionError (`twins_compare`) |
| C87 | an unsaved post is given the author of an unsaved post with the same contents: it is not entered in the author's posts (`twin_not_linked`); `posts.remove(post2)` removes the alike `post1` from the list and unlinks `post2` (`twin_removed`); assigning an author that looks the same raises RecursionError (`twins_assign`) |
| C89 | `crossfetch` queries with None when the object has no key, so a code stored without a key is accepted; inside lists and dicts `ctx.parent` is the collection and AttributeError is raised (cross_fetch_modifier.py:23-24) |
| C90 (outside its statement) | setting a field to NaN marks it as modified each time; a dict for a nested object replaces the object by a new one each time (`RepeatDemo.nan_again`, `RepeatDemo.nested_again`) |
| C91 (outside its statement) | `set(stars=True)` on an object with the default `1` keeps `1`, the constructor stores `True` (`equal_kept`); a write-once field with a default can be given to the constructor but not set afterwards (`once_with_default`); an object whose primary key is set after its creation is not registered in its graph (`key_later`) |
| C92 (outside its statement) | `set(**tojson())` applies `append` and similar transforms again, replaces nested objects by new ones, and turns a required relation list that is None into an empty one (each marks the object as modified; `appended_again`, `nested_replaced`, `list_emptied`) |
| C93 (outside its statement) | two fields with one JSON name: with nulls output, the null of the one replaces the value of the other (`null_replaces`) |
| C94 | `field(default_factory=f)`: a new object holds `dataclasses.MISSING` (`factory_not_called`); with two base classes an override is lost (`two_bases_lose_override`) |
| C95 | `requirements.txt`: a longer name hides a package (`longer_name_hides`), an unended last line is joined with the new one (`unended_line_joined`), no file: FileNotFoundError after the installation (`no_file_raises`) |

## 5. Further findings

Proved, in properties whose statement does not forbid them:

* Adding a list or dict to an owned list or dict never returns
  (`olist_add_container_diverges`, `odict_add_container_diverges`).
* nan passes every numeric bound (`numeric_accepts_nan`); booleans and other non-numbers pass
  every bound.
* `required` on a foreign-key field is never checked (`required_foreignKey_vacuous`).
* An eager mark after the preserialize mark disables validation
  (`chain_validate_eager_after_pre`).
* A list sort that raises midway changes the list and reports nothing
  (`AssignDemo.tracking_misses_failed_sort`); in-place changes of a list held by an untyped
  field are not recorded (`AssignDemo.reset_misses_untyped_list`); reset restores equal, not
  identical values (`AssignDemo.reset_equal_not_identical`).
* `OGraph(list)` stops silently at the first unlinkable object (`ograph_init_stops`); a
  taken key is skipped silently when linking (`linkGraph_taken_key_silent`).
* Redefining an enum raises AttributeError instead of the intended exception
  (`cgraph_enum_redefinition`).
* A strict failure inside a nested object comes after earlier fields were written
  (`InputDemo.nested_strict_not_atomic`).
* tojson on a cycle of embedded objects never returns
  (`JsonDemo.tojson_embedded_cycle_diverges`).
* An entry under an empty dict key shares its parent's key path (`empty_key_shares_path`).

Seen while reading, not part of a theorem:

* `pick`/`omit` assign a property that has no setter, so they always raise.
* `canc`/`canu`/`canr` with a callable use the attribute `op_callable`, which does not exist.
* `modified_fields` can hold nested key paths, on which `persisted_modified_fields` raises (C70, `persisted_nested`).
* `complete()` turns the set of modified fields into a list.

## 6. Axioms

`tools/manifest.py` writes a file with `#print axioms` for every theorem in
`MANIFEST.json`. Each depends on a subset of `propext`, `Classical.choice`, `Quot.sound`.
