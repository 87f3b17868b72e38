{"id": "C01", "title": "Key paths round-trip", "statement": "For key components that contain none of '.', '[' and ']' and are non-empty, joining them into a key path and splitting it again returns exactly the components; the first component, and the path without its last component, are recovered as well; bracket notation a[0].b splits like a.0.b.", "quantifier": "all lists of components, of any length", "why_tests_cant": "unbounded set of paths; tests try a handful of literals", "anchors": ["jsonclasses/keypath.py: concat_keypath, keypath_split, initial_keypath, keypath_drop_last"]}
{"id": "C02", "title": "set()/init split their keyword arguments losslessly", "statement": "Every keyword argument given to the constructor or set() is treated either as a plain field key or as a key path, never both and never dropped, and keeps its value and relative order; it is a key path exactly when the name contains '.', '[' or ']'.", "quantifier": "all keyword-argument dictionaries", "why_tests_cant": "any number of keys and any key text", "anchors": ["jsonclasses/keypath.py: single_key_args, compound_key_args", "jsonclasses/jsonclassify.py: __init__, jsonobject_set"]}
{"id": "C03", "title": "Input pipeline runs every modifier in declaration order and validates the eager prefix", "statement": "Writing an input value to a field feeds it through the transforms of all modifiers up to the first preserialize mark, in declaration order, each receiving the previous result; validators placed before the last eager mark run during that write, and if one of them rejects, the write raises and the field is not assigned.", "quantifier": "all modifier chains, all input values", "why_tests_cant": "chains are unbounded and user-composable", "anchors": ["jsonclasses/modifiers/chained_modifier.py: ChainedModifier.transform, _tvs, _nvs, _vt"]}
{"id": "C04", "title": "validate() runs exactly the non-eager validators", "statement": "Validating a field succeeds exactly when every modifier between the last eager mark and the first preserialize mark accepts the value; modifiers before the eager mark or after the preserialize mark never influence it.", "quantifier": "all modifier chains and values", "why_tests_cant": "needs quantification over the chain and over positions of marks", "anchors": ["jsonclasses/modifiers/chained_modifier.py: ChainedModifier.validate, _nvs"]}
{"id": "C05", "title": "Validation messages: first failure vs all failures", "statement": "Without all_fields a failing chain reports the messages of the first rejecting modifier only; with all_fields every key that some modifier complained about is reported, with the message of the last complaint for that key; no other key is reported.", "quantifier": "all chains, values and message maps", "why_tests_cant": "combinations of failing modifiers are unbounded", "anchors": ["jsonclasses/modifiers/chained_modifier.py: ChainedModifier.validate", "jsonclasses/vmsgcollector.py: VMsgCollector.receive"]}
{"id": "C06", "title": "List and dict validation is item-wise", "statement": "A list (dict) field validates exactly when each of its items validates at its own index (key), regardless of position and size; an item failure is reported under the key path of that item; None collections are accepted; non-collections are rejected.", "quantifier": "all item validators, all lists and dicts of any size", "why_tests_cant": "no bound on size or position of the offending item", "anchors": ["jsonclasses/modifiers/collection_type_modifier.py: CollectionTypeModifier.validate", "jsonclasses/modifiers/type_modifier.py: TypeModifier.validate"]}
{"id": "C07", "title": "Collection transform, tojson and serialize preserve shape", "statement": "Transforming or serialising a list keeps length and order and maps each element independently; for a dict the set of (re-cased) keys is kept; a None collection declared nonnull becomes an empty one and otherwise stays None.", "quantifier": "all item functions, all lists and dicts", "why_tests_cant": "unbounded sizes", "anchors": ["jsonclasses/modifiers/collection_type_modifier.py: transform, tojson, serialize", "jsonclasses/modifiers/dictof_modifier.py", "jsonclasses/modifiers/listof_modifier.py"]}
{"id": "C08", "title": "Numeric bound validators decide their documented interval", "statement": "min, max, gt, gte, lt, lte, range, positive, negative, nonpositive, nonnegative, odd, even accept a number exactly when the documented inequality (or parity) holds, including the boundary value, and never reject None.", "quantifier": "all integers and floats, infinities included, all bounds (constants, callables or pipelines yielding a number), all values of other types", "why_tests_cant": "the domain is infinite; boundaries are easy to get wrong", "anchors": ["jsonclasses/modifiers/min_modifier.py", "jsonclasses/modifiers/max_modifier.py", "jsonclasses/modifiers/gt_modifier.py", "jsonclasses/modifiers/lt_modifier.py", "jsonclasses/modifiers/range_modifier.py", "jsonclasses/modifiers/positive_modifier.py", "jsonclasses/modifiers/negative_modifier.py", "jsonclasses/modifiers/odd_modifier.py", "jsonclasses/modifiers/even_modifier.py"]}
{"id": "C09", "title": "Length validators decide the documented interval", "statement": "length(a,b), length(n), minlength and maxlength accept a string or list exactly when its length lies in the documented closed interval.", "quantifier": "all strings, lists and bounds", "why_tests_cant": "infinite domain and boundary conditions", "anchors": ["jsonclasses/modifiers/length_modifier.py", "jsonclasses/modifiers/minlength_modifier.py", "jsonclasses/modifiers/maxlength_modifier.py"]}
{"id": "C10", "title": "Clamping and arithmetic transforms", "statement": "lowerbond/upperbond clamp: the result respects the bound, equals the input when it already did, and is idempotent; add/sub are inverse; abs is non-negative and idempotent; inverse/reverse are involutions.", "quantifier": "all integers and bounds", "why_tests_cant": "infinite domain", "anchors": ["jsonclasses/modifiers/lowerbond_modifier.py", "jsonclasses/modifiers/upperbond_modifier.py", "jsonclasses/modifiers/add_modifier.py", "jsonclasses/modifiers/sub_modifier.py", "jsonclasses/modifiers/abs_modifier.py", "jsonclasses/modifiers/reverse_modifier.py"]}
{"id": "C11", "title": "String shaping transforms", "statement": "truncate(n) returns the longest prefix of length at most n and is idempotent; padstart/padend return a string of the requested length that keeps the original as suffix/prefix and leave long strings unchanged; trim removes exactly leading and trailing whitespace and is idempotent; reverse twice is identity.", "quantifier": "all strings, lengths and pad characters", "why_tests_cant": "infinite domain", "anchors": ["jsonclasses/modifiers/truncate_modifier.py", "jsonclasses/modifiers/padstart_modifier.py", "jsonclasses/modifiers/padend_modifier.py", "jsonclasses/modifiers/trim_modifier.py", "jsonclasses/modifiers/reverse_modifier.py"]}
{"id": "C12", "title": "split and join are inverse", "statement": "Splitting a string by any non-empty separator and joining with the same separator gives the string back. Joining a non-empty list of parts and splitting gives the parts back, when no part can be confused with a following separator (for a one-character separator: when no part contains it).", "quantifier": "all strings, all separators (non-empty)", "why_tests_cant": "infinite domain", "anchors": ["jsonclasses/modifiers/split_modifier.py", "jsonclasses/modifiers/join_modifier.py"]}
{"id": "C13", "title": "Prefix, suffix and containment validators", "statement": "hasprefix, hassuffix, isprefixof, issuffixof accept exactly when the prefix/suffix relation holds, for strings and for lists.", "quantifier": "all strings and lists", "why_tests_cant": "the list branch is independent of the string branch and has empty-list corner cases", "anchors": ["jsonclasses/modifiers/hasprefix_modifier.py", "jsonclasses/modifiers/hassuffix_modifier.py", "jsonclasses/modifiers/isprefixof_modifier.py", "jsonclasses/modifiers/issuffixof_modifier.py"]}
{"id": "C14", "title": "Beginning-of-period and next-period date transforms", "statement": "toboyear/mon/day/hour/min/sec return the greatest period start not after the value and are idempotent; tonextyear/mon/day/hour/min/sec return the least period start strictly after the value.", "quantifier": "all valid dates and date-times", "why_tests_cant": "leap years, month ends and carries across all periods", "anchors": ["jsonclasses/modifiers/toboyear_modifier.py", "jsonclasses/modifiers/tobomon_modifier.py", "jsonclasses/modifiers/toboday_modifier.py", "jsonclasses/modifiers/tonextmon_modifier.py", "jsonclasses/modifiers/tonextday_modifier.py", "jsonclasses/modifiers/tonextyear_modifier.py"]}
{"id": "C15", "title": "Dates survive a JSON round trip", "statement": "For every valid date, converting to JSON and reading the result back gives the same date.", "quantifier": "all valid dates (years 1 to 9999)", "why_tests_cant": "3.6 million dates; text formats with padding", "anchors": ["jsonclasses/modifiers/date_modifier.py: transform, tojson"]}
{"id": "C16", "title": "Date-times survive a JSON round trip", "statement": "For every UTC date-time, converting to JSON and reading the result back gives the same date-time truncated to milliseconds.", "quantifier": "all valid UTC date-times", "why_tests_cant": "unbounded practical domain; the failing subset is values with microsecond 0", "anchors": ["jsonclasses/modifiers/datetime_modifier.py: transform, tojson"]}
{"id": "C17", "title": "Enum values survive a JSON round trip", "statement": "With matching input and output forms (name, lowercase name, or value) converting an enum member to JSON and reading it back gives the same member; an accepted input always denotes the member of that name or value; an input in none of the accepted forms is rejected.", "quantifier": "all enums and members, all combinations of input forms", "why_tests_cant": "form combinations times arbitrary enums", "anchors": ["jsonclasses/modifiers/enum_modifier.py: transform, validate, tojson", "jsonclasses/modifiers/input_all_modifier.py"]}
{"id": "C18", "title": "Union fields", "statement": "A union field validates exactly when at least one of its alternatives validates; transform uses the first alternative that does not raise; tojson uses the first alternative that validates.", "quantifier": "all lists of alternatives and values", "why_tests_cant": "unbounded alternatives", "anchors": ["jsonclasses/modifiers/union_modifier.py"]}
{"id": "C19", "title": "validate() terminates on cyclic object graphs", "statement": "Validating any object terminates, however the objects are linked, including cycles, and each object is validated at most once.", "quantifier": "all finite object graphs and class definitions", "why_tests_cant": "termination and visit counts over all graph shapes", "anchors": ["jsonclasses/modifiers/instanceof_modifier.py: validate", "jsonclasses/mgraph.py: MGraph"]}
{"id": "C20", "title": "validate() is sound and complete", "statement": "If validate() succeeds then every object reachable through validated fields satisfies every field's validators (objects being identified by class and primary key); if it raises a validation error then some reachable field is rejected by its validators.", "quantifier": "all object graphs", "why_tests_cant": "global property of reachable states", "anchors": ["jsonclasses/modifiers/instanceof_modifier.py: validate", "jsonclasses/jsonclassify.py: validate, is_valid"]}
{"id": "C21", "title": "Only modified embedded fields of persisted objects are re-validated", "statement": "For a persisted object, the verdict of validate() does not depend on embedded fields that are not among the modified fields.", "quantifier": "all objects, field values and modification sets", "why_tests_cant": "non-interference property over all values", "anchors": ["jsonclasses/modifiers/instanceof_modifier.py: validate", "jsonclasses/keypath.py: initial_keypaths"]}
{"id": "C22", "title": "Strict input rejects unknown keys before writing anything", "statement": "With strict input, a set() whose key set contains an unknown key raises a validation error naming that key and leaves the object unchanged; without strictness unknown keys have no effect at all.", "quantifier": "all inputs and objects", "why_tests_cant": "all key sets", "anchors": ["jsonclasses/modifiers/instanceof_modifier.py: transform, _strictness_check"]}
{"id": "C23", "title": "set() only touches named fields", "statement": "A plain set() changes only fields whose name, JSON name or reference name occurs among the given keys.", "quantifier": "all inputs and objects", "why_tests_cant": "frame property: every other field, every input", "anchors": ["jsonclasses/modifiers/instanceof_modifier.py: transform", "jsonclasses/jsonclassify.py: jsonobject_set"]}
{"id": "C24", "title": "readonly and internal fields cannot be written from input", "statement": "No sequence of plain set() inputs changes the value of a field whose write rule is no-write; the constructor never stores an input value into it.", "quantifier": "all input sequences", "why_tests_cant": "all histories of untrusted inputs", "anchors": ["jsonclasses/modifiers/instanceof_modifier.py: transform", "jsonclasses/modifiers/readonly_modifier.py", "jsonclasses/modifiers/internal_modifier.py"]}
{"id": "C25", "title": "writeonce fields never change once set", "statement": "After a writeonce field holds a non-None value, no sequence of plain set() inputs changes it.", "quantifier": "all input sequences", "why_tests_cant": "all histories", "anchors": ["jsonclasses/modifiers/instanceof_modifier.py: transform", "jsonclasses/modifiers/writeonce_modifier.py"]}
{"id": "C26", "title": "writenonnull fields never become None by input", "statement": "A writenonnull field that holds a non-None value is never set to None by any sequence of plain set() inputs (given its transforms do not return None for non-None input).", "quantifier": "all input sequences", "why_tests_cant": "all histories", "anchors": ["jsonclasses/modifiers/instanceof_modifier.py: transform", "jsonclasses/modifiers/writenonnull_modifier.py"]}
{"id": "C27", "title": "Defaults fill exactly the blanks on construction", "statement": "On construction a non-reference field that is not given gets its default (or the value its modifier chain produces for a missing value), and a field that is given and writable gets its transformed input. A relation that is not given starts as None, or as an empty list when it is a list that must not be null, with no reference ids; no other object changes.", "quantifier": "all class definitions and inputs", "why_tests_cant": "all combinations of provided and missing fields", "anchors": ["jsonclasses/modifiers/instanceof_modifier.py: transform, _fill_default_value"]}
{"id": "C28", "title": "writeonly and temp fields never leak into JSON", "statement": "Unless ignore_writeonly is given, the JSON of an object does not depend on the values of its embedded writeonly or temp fields, and contains no entry for them.", "quantifier": "all objects and values", "why_tests_cant": "non-interference over all values", "anchors": ["jsonclasses/modifiers/instanceof_modifier.py: tojson"]}
{"id": "C29", "title": "tojson() terminates on cyclic references", "statement": "tojson() terminates for every object graph whose nested objects are held by reference fields (local or foreign keys), and in its result at most (number of classes plus one) objects are nested in one another.", "quantifier": "all object graphs, including cyclic ones", "why_tests_cant": "termination over all graph shapes", "anchors": ["jsonclasses/modifiers/instanceof_modifier.py: tojson", "jsonclasses/ctx.py: nextvc, nextoc"]}
{"id": "C30", "title": "JSON keys of the output", "statement": "The entries of an object's JSON are exactly, in declaration order, for each field: the reference id of a local key field, then the converted value of a readable non-temp field; entries that are None are left out unless nulls are output, and partial objects output picked fields only. Nested objects also leave out relations that lead back and relations of classes already met.", "quantifier": "all objects and configurations", "why_tests_cant": "all field sets and flags", "anchors": ["jsonclasses/modifiers/instanceof_modifier.py: tojson"]}
{"id": "C31", "title": "New objects are never marked modified by assignment", "statement": "While an object is new, no sequence of plain attribute assignments and container mutations marks it modified or records previous values.", "quantifier": "all operation sequences", "why_tests_cant": "all histories", "anchors": ["jsonclasses/jsonclassify.py: __setattr__, __olist_add__, __olist_del__, __odict_add__, __odict_del__"]}
{"id": "C32", "title": "Modification tracking is exact for scalar fields", "statement": "On a persisted object, after any sequence of assignments a plain field is reported modified if it was ever assigned a value different from its then-current value; a field whose current value differs from the value at the last unmodified mark is always reported; is_modified holds exactly when some field is reported. Assigning a value equal to the present one changes nothing.", "quantifier": "all sequences of assignments", "why_tests_cant": "all histories", "anchors": ["jsonclasses/jsonclassify.py: __setattr__, modified_fields, is_modified"]}
{"id": "C33", "title": "reset() restores the last clean state", "statement": "With reset enabled, after any sequence of assignments to plain fields of a persisted object, reset() restores every field to its value at the last unmodified mark and clears the modified state.", "quantifier": "all sequences of assignments", "why_tests_cant": "all histories", "anchors": ["jsonclasses/jsonclassify.py: reset, __setattr__, previous_values"]}
{"id": "C34", "title": "update() is all-or-nothing on unknown names", "statement": "update() with any unknown name raises before any field is written; otherwise each named field is assigned and no other field changes.", "quantifier": "all inputs", "why_tests_cant": "all key sets", "anchors": ["jsonclasses/jsonclassify.py: update", "jsonclasses/cdef.py: update_names"]}
{"id": "C35", "title": "Owned lists behave like Python lists and report every change", "statement": "For every sequence of list operations on an owned list the contents equal those of a plain list under the same operations, and the reported additions and removals account exactly for the difference in contents.", "quantifier": "all operation sequences and contents", "why_tests_cant": "all histories and index corner cases (negative, out of range, slices)", "anchors": ["jsonclasses/olist.py: OwnedList"]}
{"id": "C36", "title": "Owned dicts behave like Python dicts and report every change", "statement": "For every sequence of dict operations on an owned dict the contents equal those of a plain dict under the same operations, and every value added or removed is reported.", "quantifier": "all operation sequences and contents", "why_tests_cant": "all histories", "anchors": ["jsonclasses/odict.py: OwnedDict"]}
{"id": "C37", "title": "Owning and un-owning containers preserves the data", "statement": "Converting nested lists/dicts to owned form and back yields equal data, at any nesting depth; every nested container is owned by the same object and knows its own key path.", "quantifier": "all nested values", "why_tests_cant": "unbounded nesting", "anchors": ["jsonclasses/outils.py: to_owned_list, to_owned_dict, unowned_copy_list, unowned_copy_dict"]}
{"id": "C38", "title": "Linked relations stay symmetric", "statement": "For linked one-to-one, one-to-many and many-to-many relations, after any sequence of assignments, appends, removals, constructions and set calls through the API, object a refers to b through a relation field exactly when b refers to a through the opposite field. An object or dict given for a relation in a constructor or set call is stored there (for a dict, the object made of it) and exactly the objects stored refer back.", "quantifier": "all operation sequences over any number of objects, input nested to any depth", "why_tests_cant": "all histories of mutations over a graph", "anchors": ["jsonclasses/jsonclassify.py: __link_field__, __unlink_field__, __setattr__, __olist_add__, __olist_del__", "jsonclasses/modifiers/instanceof_modifier.py: transform"]}
{"id": "C39", "title": "Local keys mirror linked objects", "statement": "After any sequence of assignments to a local-key relation, constructions and set calls with objects or nested dicts for relations, the stored reference id is the primary key of the linked object when there is one, and unlinking the object from either side clears the id; assigning the id directly unlinks a different object. Existing objects keep their primary keys and a new one has the key given.", "quantifier": "all operation sequences", "why_tests_cant": "all histories", "anchors": ["jsonclasses/jsonclassify.py: __init__, set, __setattr__ local key branches", "jsonclasses/modifiers/instanceof_modifier.py: transform"]}
{"id": "C40", "title": "Object graph lookups", "statement": "An object graph returns exactly the objects put into it, by class and primary key; merging two graphs yields a graph containing both, shared by all members, and raises a conflict when they hold different objects under the same class and key. A newly constructed object with a primary key is in its own graph.", "quantifier": "all graphs and merge sequences", "why_tests_cant": "all histories of merges", "anchors": ["jsonclasses/ograph.py: OGraph", "jsonclasses/jsonclassify.py: __link_graph__"]}
{"id": "C41", "title": "Class graph registration", "statement": "Within one class graph a name denotes at most one class: registering two different classes under the same name raises and keeps the first; lookup returns the registered class; graphs with different names are independent.", "quantifier": "all registration sequences", "why_tests_cant": "all histories", "anchors": ["jsonclasses/cgraph.py: CGraph"]}
{"id": "C42", "title": "Permission guards fail closed", "statement": "save, delete and tojson with guards configured raise an unauthorized error unless an operator is present and every guard accepts; when they raise, no callback, validation, or storage action has run.", "quantifier": "all guard lists, operators and results", "why_tests_cant": "all combinations of guard results", "anchors": ["jsonclasses/jsonclassify.py: _can_cu_check_common, save, delete, tojson"]}
{"id": "C43", "title": "save() never writes an invalid object", "statement": "Unless validation is skipped, save() reaches the storage write only after validation succeeded, and steps happen in the order guard, callbacks, validation, set-on-save, write.", "quantifier": "all objects and callback lists", "why_tests_cant": "effect ordering over all executions including exceptional ones", "anchors": ["jsonclasses/jsonclassify.py: save"]}
{"id": "C44", "title": "save() saves every unlinked object", "statement": "After save(), every object that had been unlinked from the saved object has been saved as well.", "quantifier": "all unlinked object lists", "why_tests_cant": "lists of any length", "anchors": ["jsonclasses/jsonclassify.py: save"]}
{"id": "C45", "title": "Configuration defaults", "statement": "An explicitly configured class option always wins over the graph's default configuration, which wins over the built-in default; a falsy explicit value counts as explicit.", "quantifier": "all configuration records", "why_tests_cant": "all combinations", "anchors": ["jsonclasses/jconf.py: JConf"]}
{"id": "C46", "title": "Validation messages name the path of a rejected value", "statement": "Every entry of the messages raised by validate() is about a value reachable from the validated object which one of the validators guarding it rejects with exactly that message. The key of the entry is the dotted path from the validated object to that value: field names as output by the class declaring them, list indices, dict keys.", "quantifier": "all object graphs, class definitions, nesting depths of lists, dicts and objects, and both first-failure and all-failures validation", "why_tests_cant": "the nesting of objects, lists and dicts is unbounded and any modifier at any place may fail", "anchors": ["jsonclasses/ctx.py: raise_vexc, nexto, nextvo, colval", "jsonclasses/modifiers/instanceof_modifier.py: validate", "jsonclasses/modifiers/collection_type_modifier.py: validate", "jsonclasses/modifiers/chained_modifier.py: validate"]}
{"id": "C47", "title": "Save-time and output pipelines", "statement": "On save, the modifiers before the preserialize mark run first as converters in declared order, and those after it run as converter-then-validator steps, in order; an early validator's failure stops the pipeline with its messages. JSON output threads the value through every modifier of the field in declared order.", "quantifier": "all modifier chains, values and states", "why_tests_cant": "chains of any length with arbitrary modifiers", "anchors": ["jsonclasses/modifiers/chained_modifier.py: ChainedModifier.serialize, tojson"]}
{"id": "C48", "title": "Rounding, number types and truth values", "statement": "floor, ceil and round return the largest integer not above, the smallest integer not below and a nearest integer (the even one in a tie); int fields accept exactly None and integers, bool fields exactly None and booleans; a float field turns an int into the float of the same value and accepts the result. tobool gives False exactly for None, False, zero, the empty text, list and dict, and True otherwise; inverse swaps True and False and leaves other values.", "quantifier": "all numbers and all values of any type", "why_tests_cant": "infinite domain; ties and negative numbers are corner cases", "anchors": ["jsonclasses/modifiers/floor_modifier.py", "jsonclasses/modifiers/ceil_modifier.py", "jsonclasses/modifiers/round_modifier.py", "jsonclasses/modifiers/int_modifier.py", "jsonclasses/modifiers/float_modifier.py", "jsonclasses/modifiers/bool_modifier.py", "jsonclasses/modifiers/tobool_modifier.py", "jsonclasses/modifiers/inverse_modifier.py"]}
{"id": "C49", "title": "List and text transforms", "statement": "append and prepend add one item at the end or the front; insertat puts the item at the given (possibly negative) index and keeps the others in order; len is the length; tolist of a string joined again is the string; map applies the callback at every position; filter keeps, in order, exactly the accepted items; replace of a text by itself or of an absent text changes nothing, and a replaced character is gone.", "quantifier": "all lists, strings, indices and callbacks", "why_tests_cant": "infinite domain and index corner cases", "anchors": ["jsonclasses/modifiers/append_modifier.py", "jsonclasses/modifiers/prepend_modifier.py", "jsonclasses/modifiers/insertat_modifier.py", "jsonclasses/modifiers/len_modifier.py", "jsonclasses/modifiers/tolist_modifier.py", "jsonclasses/modifiers/map_modifier.py", "jsonclasses/modifiers/filter_modifier.py", "jsonclasses/modifiers/replace_modifier.py"]}
{"id": "C50", "title": "Presence, equality and choice validators", "statement": "present and required reject exactly None (required on a local key reference accepts a set key instead); presentwith rejects exactly when the value is None and the referred field is not; presentwithout exactly when the value and all referred fields are None; eq, neq and oneof follow equality (numbers by value across int, float and bool, lists item by item, dicts entry by entry in any order, objects by identity, NaN equal to nothing), with None passing eq and oneof; default replaces exactly None.", "quantifier": "all values, referred fields, choices and owners", "why_tests_cant": "the conditions combine the states of several fields", "anchors": ["jsonclasses/modifiers/present_modifier.py", "jsonclasses/modifiers/required_modifier.py", "jsonclasses/modifiers/presentwith_modifier.py", "jsonclasses/modifiers/presentwithout_modifier.py", "jsonclasses/modifiers/eq_modifier.py", "jsonclasses/modifiers/neq_modifier.py", "jsonclasses/modifiers/oneof_modifier.py", "jsonclasses/modifiers/default_modifier.py"]}
{"id": "C51", "title": "before and after", "statement": "before(p) accepts exactly None and the instants strictly earlier than p, after(p) exactly None and the instants strictly later, where a plain date stands for its midnight.", "quantifier": "all dates and datetimes and all points, fixed or computed by a callback", "why_tests_cant": "infinite domain; mixes of dates, naive and UTC datetimes are corner cases", "anchors": ["jsonclasses/modifiers/before_modifier.py", "jsonclasses/modifiers/after_modifier.py"]}
{"id": "C52", "title": "tojson() and validate() are read-only", "statement": "tojson() and validate() leave every object, attribute, modification record and object graph unchanged, whether they succeed or raise.", "quantifier": "all classes, object graphs, options and outcomes", "why_tests_cant": "absence of effects over all graphs, including failing runs", "anchors": ["jsonclasses/modifiers/instanceof_modifier.py: tojson, validate", "jsonclasses/modifiers/union_modifier.py: tojson", "jsonclasses/jsonclassify.py: tojson, validate"]}
{"id": "C53", "title": "Annotations mean what they spell", "statement": "The definition made from a field annotation has the element type the annotation gives for lists and dicts, the alternatives it gives for unions, the links it gives, and is required exactly when the annotation does not admit None; the annotation as text and as a type object give the same definition up to the names still to be resolved.", "quantifier": "all annotations built from built-in types, names, list, dict, Optional, Union, X | Y and Annotated, nested to any depth", "why_tests_cant": "annotations nest without bound; the text is read by regular expressions and by counting brackets", "anchors": ["jsonclasses/rtypes.py: str_to_types, to_types, union_split, merge_back_dicts, apply_link_specifier"]}
{"id": "C54", "title": "set() with key paths writes exactly the place named", "statement": "obj.set(**{'field.key.0': v}) writes v at exactly the place the path names, spelled with dots or brackets: afterwards that place holds v, every other place of every object holds what it held, and the object counts as modified. A path that names nothing raises and changes no field. A path that leads to a field of another object is set() on that object. Write rules of the field apply as in a plain set().", "quantifier": "all classes, object graphs, list and dict nestings, paths and values", "why_tests_cant": "paths and nestings have no bound; absence of other effects over all places", "anchors": ["jsonclasses/jsonclassify.py: jsonobject_set, _keypath_set, _set_to_container", "jsonclasses/keypath.py: keypath_split, single_key_args, compound_key_args", "jsonclasses/olist.py: __setitem__", "jsonclasses/odict.py: __setitem__"]}
{"id": "C55", "title": "An object built from the JSON of another has the same values", "statement": "Cls(**obj.tojson()) makes a new object with the same values as obj: equal scalars, lists with the same items in order, dicts with the same keys, nested objects of the same class compared in the same way. tojson() changes nothing, and the constructor changes no object that was there before.", "quantifier": "all classes without relations, all values of their declared types nested to any depth, all tojson options, all states in which the copy is made", "why_tests_cant": "values nest without bound; the claim relates two traversals with different modifiers and ranges over every state", "anchors": ["jsonclasses/modifiers/instanceof_modifier.py: transform, tojson", "jsonclasses/modifiers/collection_type_modifier.py: transform, tojson", "jsonclasses/modifiers/chained_modifier.py: transform, tojson", "jsonclasses/jsonclassify.py: __init__, tojson"]}
{"id": "C56", "title": "The two ends of a declared relation find each other", "statement": "When one class declares a field holding objects of a second class with linkto, and the second class declares a field holding objects of the first one with linkedby (or linkedthru) naming that field, or both name each other with linkedthru, then each of the two fields is the opposite of the other one: changing one end updates the other end. This holds whichever other classes are defined, in whichever order they are defined, and whenever the relation is first used.", "quantifier": "all sets of class declarations with any number of classes and fields, all orders of definition, all moments of first use", "why_tests_cant": "A test fixes a few class bodies. Whether an opposite field is found depends on every field of the other class, on all classes defined later (subclasses share field definitions with their base class), and on when the relation is first used.", "anchors": ["jsonclasses/cdef.py: CDef.__init__, CDef.rfield", "jsonclasses/jfield.py: JField.foreign_class, JField.foreign_field, JField._do_resolve_foreign", "jsonclasses/fdef.py: FDef.cdef, FDef.inst_cls, FDef.foreign_key", "jsonclasses/modifiers/linkedby_modifier.py", "jsonclasses/modifiers/linkedthru_modifier.py", "jsonclasses/modifiers/linkto_modifier.py"]}
{"id": "C57", "title": "Validators built from pipelines and callables decide what they say", "statement": "validate(types...) accepts a value exactly when the value, passed through the given pipeline, is accepted by all its validators, and otherwise reports the given message under the field's key path. validate(callable) accepts exactly when there is no value or the callable answers neither False nor a text; the text becomes the message unless one is given. oneisvalid(...) accepts exactly when at least one alternative, pipeline or callable, accepts. transform and fmt with a pipeline yield what flows out of the pipeline. compare(callable) calls the callable with the previous and the present value whenever the field has a recorded previous value, and accepts exactly when the answer is True or None.", "quantifier": "all pipelines of any length with any modifiers, all callables, values, contexts and object states", "why_tests_cant": "pipelines and alternatives have any length and nest; callables are arbitrary; the claim includes that nothing else is accepted", "anchors": ["jsonclasses/modifiers/validate_modifier.py", "jsonclasses/modifiers/oneisvalid_modifier.py", "jsonclasses/modifiers/compare_modifier.py", "jsonclasses/modifiers/transform_modifier.py", "jsonclasses/modifiers/fmt_modifier.py", "jsonclasses/modifiers/chained_modifier.py"]}
{"id": "C58", "title": "Guarded fields are written and shown only with permission", "statement": "A field guarded with canc (create), canu (update) or cancu (both) is accepted by validate(), and hence written by save(), only if the object has an operator and the operator satisfies the checker, whenever the field is subject to validation and the object is new resp. persisted. A field guarded with canr appears with its value in tojson() only if the operator satisfies the checker. With the checker 'the operator is the object in field f of this object', the operator passes exactly when it is of the class and has the key that field f names, loaded or by its reference id.", "quantifier": "all classes, object graphs, operators, checkers (pipelines or callables), values and save runs", "why_tests_cant": "an access rule is a statement about all operators and all states, in particular about absence of any way around it", "anchors": ["jsonclasses/modifiers/cancu_modifier.py", "jsonclasses/modifiers/canc_modifier.py", "jsonclasses/modifiers/canu_modifier.py", "jsonclasses/modifiers/canr_modifier.py", "jsonclasses/modifiers/isobj_modifier.py", "jsonclasses/modifiers/isobjof_modifier.py", "jsonclasses/modifiers/isthis_modifier.py", "jsonclasses/modifiers/this_modifier.py", "jsonclasses/modifiers/getop_modifier.py", "jsonclasses/modifiers/fval_modifier.py", "jsonclasses/modifiers/instanceof_modifier.py: validate, tojson"]}
{"id": "C59", "title": "Operator assignment fills in the operator's key and nothing else", "statement": "opby(operator) on a new object records the operator and gives every field declared with asopd the operator's primary key as reference id, and every field declared with asop(f) the key of the object f yields for the operator; no other object, field value or modification mark changes. On a persisted object, and with None, only the operator is recorded. validate() and save() accept a new object, and an object on which such a field was changed, only if the field was assigned from an operator.", "quantifier": "all classes with any number of such fields, transformers, operators, object graphs and save runs", "why_tests_cant": "the claim covers any number of fields and arbitrary transformers, says that nothing else changes, and that there is no way to write a forged author", "anchors": ["jsonclasses/jsonclassify.py: opby", "jsonclasses/modifiers/asop_modifier.py", "jsonclasses/modifiers/asopd_modifier.py", "jsonclasses/cdef.py: CDef.assign_operator_fields", "jsonclasses/modifiers/instanceof_modifier.py: validate"]}
{"id": "C60", "title": "What is in config.json can be looked up, with names in underscore form and environment references replaced", "statement": "If no two names in one object of config.json have the same underscore form, then every value in the file is found by uconf() under its path with the names in underscore form (written with dots or brackets, positions of lists from either end), and a lookup finds nothing else: anything absent is None. A text environ['NAME'] anywhere in the file is replaced by the value of that environment variable, all other values are unchanged; loading fails, with KeyError, exactly if such a variable is undefined. A lookup raises only if the key path is empty or meets a list with something that is no position in it. Looking up in steps, conf.get(a).get(b), is the same as looking up a.b.", "quantifier": "all JSON documents of any depth and width, all environments, all key paths", "why_tests_cant": "documents nest without bound and any text may occur anywhere; the claim includes that nothing else is found and nothing else is replaced", "anchors": ["jsonclasses/uconf.py: UserConf.get, UserConf._get, UserConfRoot._load, _normalize_keys, _replace_envs", "jsonclasses/keypath.py: keypath_split"]}
{"id": "C61", "title": "Uploaders are made as configured, one per name", "statement": "request_uploader(name) yields an uploader exactly if config.json has an entry of that name under uploaders with a known client and a config, and then it is of the class for that client and has that config. In any sequence of requests two requests get the same uploader exactly if they name the same one; a failed request changes nothing.", "quantifier": "all configurations, names and sequences of requests", "why_tests_cant": "the cache depends on the whole history of requests; the claim covers all histories and all shapes of the configuration", "anchors": ["jsonclasses/uploaders.py: request_uploader", "jsonclasses/uconf.py: UserConf.get"]}
{"id": "C62", "title": "A declaration means what its own row of marks says", "statement": "Every field declaration types.a.b.c has exactly the modifiers of its own row of calls, and its rules (who may write, whether it is output, how it is stored, delete rule, type, indexes, required, primary, operator, authentication, ...) are those said last, or at all, by that row, whatever other declarations are made from the same types before or after, whichever classes use it and whatever is looked up. A class lists as primary, calculated, unique, deny/nullify/cascade, operator and authentication fields exactly those whose own declarations say so, in order. A class given by name is the one with that name in the class graph of the class declaring the field.", "quantifier": "all programs: sequences of derivations from any earlier declaration, class definitions and lookups, in any order and number", "why_tests_cant": "the claim ranges over all interleavings of declarations that share parts; a test sees one row at a time, and an aliased definition shows only when another declaration is made from it", "anchors": ["jsonclasses/types.py: Types", "jsonclasses/fdef.py: FDef", "jsonclasses/cdef.py: CDef.__init__", "jsonclasses/modifiers/: define"]}
{"id": "C63", "title": "Text formats and patterns accept exactly the texts they describe", "statement": "match(pattern) passes exactly the strings that contain a text of the pattern, and with ^ and $ exactly the texts of the pattern. replacer(pattern, text) replaces texts of the pattern from the left and copies everything else; without a match nothing changes. email, url, hexcolor and securepw pass exactly the strings that as a whole have the format; alpha, digit, numeric and alnum exactly the non-empty strings of such characters. Values that are not strings pass.", "quantifier": "all strings, all patterns of the modelled syntax, all Unicode tables that agree with ASCII", "why_tests_cant": "the set of strings is infinite and the matcher backtracks; a test shows single strings, the claim is about every string on both sides of the line", "anchors": ["jsonclasses/modifiers/email_modifier.py: EmailModifier.validate", "jsonclasses/modifiers/url_modifier.py: UrlModifier.validate", "jsonclasses/modifiers/hexcolor_modifier.py: HexColorModifier", "jsonclasses/modifiers/securepw_modifier.py: SecurepwModifier.validate", "jsonclasses/modifiers/match_modifier.py: MatchModifier.validate", "jsonclasses/modifiers/replacer_modifier.py: ReplacerModifier.transform", "jsonclasses/modifiers/alpha_modifier.py: AlphaModifier.validate", "jsonclasses/modifiers/digit_modifier.py: DigitModifier.validate", "jsonclasses/modifiers/numeric_modifier.py: NumericModifier.validate", "jsonclasses/modifiers/alnum_modifier.py: AlnumModifier.validate"]}
{"id": "C64", "title": "Saving runs the save-time setters and callbacks of every changed object, and of no other", "statement": "When a new or modified object is saved, every field with a save-time setter gets the value the setter returns for the field's value, fields in declaration order, later setters seeing the results of earlier ones, and the modifiers behind a setter check its result; the on-save callback of a field is called with its value, the on-write callback exactly for new objects and modified fields, the on-update callback exactly for fields whose value changed, with the old and the new value. Saving an unmodified object changes nothing except fields with forced setters. All other objects stay as they are. This holds for every object reachable from the saved one.", "quantifier": "all object graphs, classes, setters and callbacks, and all states of modification", "why_tests_cant": "which setters and callbacks run depends on the state of every object in the graph and on the order of declarations; a test fixes one graph and one declaration", "anchors": ["jsonclasses/modifiers/setonsave_modifier.py: SetOnSaveModifier.serialize", "jsonclasses/modifiers/fsetonsave_modifier.py: FSetOnSaveModifier", "jsonclasses/modifiers/onsave_modifier.py: OnSaveModifier.serialize", "jsonclasses/modifiers/onupdate_modifier.py: OnUpdateModifier.serialize", "jsonclasses/modifiers/onwrite_modifier.py: OnWriteModifier.serialize", "jsonclasses/modifiers/instanceof_modifier.py: InstanceOfModifier.serialize", "jsonclasses/modifiers/chained_modifier.py: ChainedModifier.serialize", "jsonclasses/jsonclassify.py: _set_on_save"]}
{"id": "C65", "title": "Conversions, arithmetic and letter case compute what they are named after, and refuse bad input with a validation error", "statement": "Converting text to an integer succeeds exactly for the texts of integers (white space, a sign, groups of digits joined by single underscores) and gives that integer; any other text is refused with a validation error. An integer written as text and converted back is the same integer, and its text has no leading zeros. Division gives the quotient, power the parameter to the power of the value, the square root is refused with a validation error exactly for negative numbers, negative infinity and NaN. Upper, lower, capitalised and title case change exactly the letters they should, keep the length and are idempotent on ASCII text. Values of other types are left alone.", "quantifier": "all texts, integers, parameters, values and contexts", "why_tests_cant": "the accepted texts and the texts of integers are infinite sets; the round trip is over all integers", "anchors": ["jsonclasses/modifiers/toint_modifier.py: ToIntModifier.transform", "jsonclasses/modifiers/tostr_modifier.py: ToStrModifier.transform", "jsonclasses/modifiers/tofloat_modifier.py: ToFloatModifier.transform", "jsonclasses/modifiers/div_modifier.py: DivModifier.transform", "jsonclasses/modifiers/pow_modifier.py: PowModifier.transform", "jsonclasses/modifiers/sqrt_modifier.py: SqrtModifier.transform", "jsonclasses/modifiers/toupper_modifier.py: ToUpperModifier.transform", "jsonclasses/modifiers/tolower_modifier.py: ToLowerModifier.transform", "jsonclasses/modifiers/tocap_modifier.py: ToCapModifier.transform", "jsonclasses/modifiers/totitle_modifier.py: ToTitleModifier.transform"]}
{"id": "C66", "title": "Generated values have the requested shape, and a salted password accepts exactly that password", "statement": "A generated text has the requested length and consists of characters of its kind; every such text is possible. A generated integer lies between its bounds. An object id is generated only where there is no value. The text stored for a password is accepted by the password check against exactly this password and refused with a validation error for every other; without a stored text or a given password the check fails. randomfloat gives a number between its bounds.", "quantifier": "all requested lengths and bounds, all outcomes of the random choice, all passwords, salts and contexts", "why_tests_cant": "random outcomes, passwords and salts cannot be enumerated; tests look at one outcome", "anchors": ["jsonclasses/modifiers/random_digits_modifier.py: RandomDigitsModifier.transform", "jsonclasses/modifiers/random_alnums_modifier.py: RandomAlnumsModifier.transform", "jsonclasses/modifiers/random_alnumpuncs_modifier.py: RandomAlnumpuncsModifier.transform", "jsonclasses/modifiers/random_int_modifier.py: RandomIntModifier.transform", "jsonclasses/modifiers/mongoid_modifier.py: MongoIdModifier.transform", "jsonclasses/modifiers/salt_modifier.py: SaltModifier.transform", "jsonclasses/modifiers/checkpw_modifier.py: CheckpwModifier.validate"]}
{"id": "C67", "title": "Changing a relation reaches only connected objects, and of those only relations", "statement": "Assigning fields, relations or reference ids and changing lists and dicts in place, on objects of a group that no two-way relation leaves and storing only objects of this group in relations, leaves every object outside the group as it is (fields, modified state, previous values; the internal table of known objects aside), even when an operation raises midway. On objects of the group, only relation fields, reference ids and the fields the operations are about change their values, are newly reported as modified or get a previous value recorded; no object changes whether it is new or deleted. Assigning a plain field touches no other object.", "quantifier": "all class definitions with properly declared relations, all object graphs of any shape and size, all sets of objects closed under relations, all histories of operations of any length, completing or raising", "why_tests_cant": "linking cascades through objects of arbitrary graphs; a test sees the effect on the few objects it looks at and in one graph", "anchors": ["jsonclasses/jsonclassify.py: __setattr__", "jsonclasses/jsonclassify.py: __link_field__", "jsonclasses/jsonclassify.py: __unlink_field__", "jsonclasses/jsonclassify.py: __olist_add__", "jsonclasses/jsonclassify.py: __olist_del__", "jsonclasses/jsonclassify.py: __link_graph__"]}
{"id": "C68", "title": "Loading a relation stores what the reference id names and is no modification", "statement": "`include` of a reference stores the object whose primary key is the reference id, and the reference id stays; `include` of a list kept by the other side stores the objects whose reference id is this object's id, and exactly these refer back; relations stay symmetric and reference ids equal to the primary keys of linked objects. The object's modified state, the values of all other fields and the newness of all objects are as before, the latter two also when `include` raises. `fobj` answers the loaded object and loads it only when the field is None. Loading is undone by no reset and marks no object as modified.", "quantifier": "all class definitions with properly declared relations, all consistent object graphs of any size, all ORMs that answer truthfully, all relation fields", "why_tests_cant": "ORMs, databases and object graphs are unbounded; the project has no tests of include as it has no ORM", "anchors": ["jsonclasses/jsonclassify.py: include", "jsonclasses/modifiers/fobj_modifier.py: FObjModifier.transform", "jsonclasses/orm.py: ORMObject"]}
{"id": "C69", "title": "Date and date-time texts mean the moment they name, others are refused", "statement": "A date-time field reads a text exactly when, with every `Z` taken out, it is a date `YYYY-MM-DD`, alone or followed by one separating character, a time `HH`, `HH:MM`, `HH:MM:SS`, `HH:MM:SS.fff` or `HH:MM:SS.ffffff` and possibly an offset `+HH:MM` or `-HH:MM` below 24 hours, and date and time exist in the calendar. The value read is the moment the text names, in UTC, parts not written being zero. A date field reads the first ten characters of a text as `YYYY-MM-DD`, whatever follows. Every other text is a validation error at the path of the field. A plain date given to a date-time field becomes its first moment in UTC; a date-time given to a date field becomes its day.", "quantifier": "all texts of any length, all dates and times", "why_tests_cant": "there are infinitely many texts and millions of dates; tests read three or four", "anchors": ["jsonclasses/modifiers/datetime_modifier.py: DatetimeModifier.transform", "jsonclasses/modifiers/date_modifier.py: DateModifier.transform"]}
{"id": "C70", "title": "Changes inside nested lists and dicts are noticed and undone by reset", "statement": "A list or dict in a field, at any depth, is watched by its object: a method call on it that returns and changes what a field shows makes the object count as modified, with the path of the changed list or dict among its modified fields, and changes what no other field shows. With reset enabled, `reset` after any history of assignments and of such calls (also calls that raise) gives every field the value it had when the object was loaded or saved, at every depth, and the object counts as unmodified. The lists and dicts a program reaches through the fields are never part of a value kept for `reset`. `persisted_modified_fields` are the modified fields that are stored.", "quantifier": "all classes with reset enabled, all values nested to any depth, all histories of assignments and list and dict methods on any of the containers", "why_tests_cant": "nesting depth and histories are unbounded, and aliasing between the program's lists and the object's records shows only in particular orders; the tests change a list at depth two once", "anchors": ["jsonclasses/jsonclassify.py: __setattr__, __olist_will_change__, __olist_add__, __olist_del__, __olist_sor__, __odict_will_change__, __odict_add__, __odict_del__, reset, persisted_modified_fields", "jsonclasses/outils.py: to_owned_list, to_owned_dict, unowned_copy_list, unowned_copy_dict", "jsonclasses/olist.py: OwnedList", "jsonclasses/odict.py: OwnedDict"]}
{"id": "C71", "title": "Callbacks of save and delete run once each, in order, before the storage", "statement": "When save() reaches the storage, the guards permitted it and then every on_create callback (for a new object) or every on_update callback (for another one) was called exactly once, in the declared order, with the object and its operator; validation, unless it is skipped, and the setters for saving come afterwards and see what the callbacks did. When delete() reaches the storage, the same holds for the on_delete callbacks. If a callback raises, nothing is stored or deleted.", "quantifier": "all classes with any lists of guards and callbacks, all objects and states, all behaviours of callbacks and storage", "why_tests_cant": "callbacks are arbitrary code that may change objects or raise; all combinations of raising and accepting", "anchors": ["jsonclasses/jsonclassify.py: save, delete, _run_on_create_callbacks, _run_on_update_callbacks, _run_on_delete_callbacks"]}
{"id": "C72", "title": "Dicts with one primary key in one input are one object", "statement": "When a list of dicts is given for a list of objects, in a constructor call or in set, the list holds one object for every dict, in the order of the dicts. Two dicts stand for the same object exactly when both give the same primary key; a dict without a primary key always has an object of its own. The objects are new ones of the item class, and no object that existed before changes except the one written to. Each object holds, for every field that takes what it is given, the value given by the last of its dicts that gives the field, or else the default of the field: a later dict with the same key neither clears nor resets what an earlier one gave.", "quantifier": "all classes, all lists of dicts of any length and any keys, for constructor calls and for set, in every state", "why_tests_cant": "Which dicts share a key, in which order, and which fields each of them gives are combinations a test picks a handful of; a mistake such as filling in defaults again for an object met before shows only for some of them.", "anchors": ["jsonclasses/modifiers/instanceof_modifier.py: InstanceOfModifier.transform", "jsonclasses/mgraph.py: MGraph.putp, MGraph.getp", "jsonclasses/modifiers/collection_type_modifier.py: CollectionTypeModifier.transform", "jsonclasses/jsonclassify.py: __init__, set"]}
{"id": "C73", "title": "Validity does not depend on how many errors are asked for", "statement": "Whether obj.validate() succeeds is the same with all_fields=True, all_fields=False and the class setting. obj.is_valid is True exactly when validate() succeeds, and False exactly when validate(all_fields=False) raises a validation exception. The fields reported with all_fields=False are reported with every setting that ends in a validation exception, and are never none. An exception that is no validation exception comes out of validate() with every setting, and out of is_valid, once it comes out with all_fields=False.", "quantifier": "all class definitions whose checks do not look at the setting, all object graphs (shared and cyclic ones included), all nesting of lists, dicts and objects, all values of all_fields", "why_tests_cant": "The settings run different numbers of checks, each of which marks objects as visited and can raise: agreement for all graphs is a property of pairs of executions; tests compare a few objects.", "anchors": ["jsonclasses/jsonclassify.py: validate, is_valid", "jsonclasses/modifiers/chained_modifier.py: validate", "jsonclasses/modifiers/collection_type_modifier.py: validate", "jsonclasses/modifiers/instanceof_modifier.py: validate", "jsonclasses/modifiers/union_modifier.py: validate"]}
{"id": "C74", "title": "Changes of relations are reported on both sides", "statement": "After assignments, mutations of lists and dicts, obj.set, obj.update and constructors that complete, every field of every persisted object whose value differs from before, or whose reference ids differ, is named by modified_fields - also on the objects at the other side of a relation, which were changed by linking and unlinking only. is_modified never turns False, modified_fields loses no name, and is_modified is True exactly when modified_fields is not empty.", "quantifier": "all class graphs in which no attribute belongs to two fields and no field has the name of reference ids, all object graphs, all histories of completed operations on any of the objects (no sorting of lists of reference ids), all fields of all persisted objects", "why_tests_cant": "One operation changes fields and ids of an unbounded number of other objects through nested linking and unlinking; a test looks at the objects it expects to change.", "anchors": ["jsonclasses/jsonclassify.py: __setattr__, __olist_add__, __olist_del__, __odict_add__, __odict_del__, __unlink_field__, __link_field__, modified_fields, is_modified, persisted_modified_fields"]}
{"id": "C75", "title": "How an input is spelled does not matter", "statement": "Two inputs that say the same have exactly the same effect - the same exception or the same resulting state - in obj.set and in the constructor: the order of the entries does not matter, and neither does whether a field, or the id of a relation, is given under its own name or under its name in JSON. The same holds for dicts nested in relations, lists and dicts, at any depth.", "quantifier": "all class graphs (no eager mark before an object), all pairs of inputs that say the same about every field, every reference id and the primary key at every depth, all states", "why_tests_cant": "The number of spellings of one input is exponential in its number of entries, at every depth; a test fixes a few.", "anchors": ["jsonclasses/modifiers/instanceof_modifier.py: transform, _has_field_value, _get_field_value, _strictness_check", "jsonclasses/modifiers/collection_type_modifier.py: transform", "jsonclasses/jsonclassify.py: __init__, set"]}
{"id": "C76", "title": "Partial objects", "statement": "obj.pick(names) makes tojson output the named fields only, obj.omit(names) all but the named ones. obj.complete() has the ORM fetch the missing fields of a partial object without changing what is_modified and modified_fields report, leaves complete objects alone, and afterwards the object can be used like any other.", "quantifier": "all class definitions, all objects, all lists of names, all ORM implementations, all later assignments of fields that are no relations", "why_tests_cant": "pick, omit and complete have no test that calls them; complete depends on an ORM that the package does not have.", "anchors": ["jsonclasses/jsonclassify.py: pick, omit, complete, __setattr__, is_partial"]}
{"id": "C77", "title": "Assigning to calculated fields", "statement": "Assigning to a calculated field calls its setter with the assigned value and has no other effect: what happens to objects is what the setter's operations on ordinary attributes do, including setters that assign to further calculated fields, and these changes are reported like all others. types.this.assign(a, x).assign(b, y) assigns a and b of the object in this order; reading the field afterwards gives what the getter makes of the assigned value. A calculated field without a setter refuses assignment and nothing changes. It does not matter whether the value comes by assignment, update, set or the constructor.", "quantifier": "all class definitions, all setters made of assignments and methods of lists and dicts that depend on what they read, all setter pipelines, all nestings of setters, all objects and values", "why_tests_cant": "Setters are arbitrary code that may set off further setters; tests try three setters on one class and never through set.", "anchors": ["jsonclasses/jsonclassify.py: __setattr__, __getattribute__, update, set", "jsonclasses/modifiers/setter_modifier.py", "jsonclasses/modifiers/getter_modifier.py", "jsonclasses/modifiers/assign_modifier.py", "jsonclasses/modifiers/instanceof_modifier.py: transform", "jsonclasses/ctx.py: rootctxp"]}
{"id": "C78", "title": "modified_fields names fields", "statement": "Everything that modified_fields of an object contains is the name of a field: a stored field of the object's class, or a relation. Never an attribute that is no field, a calculated field, or the name under which reference ids are kept.", "quantifier": "all class definitions, all objects, all sequences of assignments, methods of lists and dicts, set, update and constructors, completed or not", "why_tests_cant": "Modified fields are recorded in a dozen places, many of them on objects the caller does not hold; validation and saving of persisted objects look fields up by these names.", "anchors": ["jsonclasses/jsonclassify.py: modified_fields, __setattr__, __olist_add__, __olist_del__, __olist_sor__, __odict_add__, __odict_del__, __unlink_field__, __link_field__"]}
{"id": "C79", "title": "Ending a link has exactly its effect, whichever way it is done", "statement": "When two objects are linked in a many-to-many relation, the one keeping the ids of the other, then removing the object from the list, removing its id from the list of ids, and removing from the other side all complete and have the same effect: the object is gone from the list, its id is gone from the ids, the other object's list has lost the first object, and no other attribute of any object has changed.", "quantifier": "all programs with properly declared relations, all states in which the two objects are linked and there are as many ids as objects, all lists, at any position", "why_tests_cant": "The three ways run through different mutually recursive callbacks; that none of them removes too much, too little or touches a third object can only be settled for all list contents and all other objects at once.", "anchors": ["jsonclasses/jsonclassify.py: __olist_del__, __unlink_field__", "jsonclasses/olist.py: OwnedList.remove"]}
{"id": "C80", "title": "Making, moving and ending a link has exactly its effect", "statement": "Linking two objects changes these attributes and no others, from whichever side it is done. Many-to-many (append): each object is appended to the other's list and the id to the ids. One-to-many (assignment, append): the object refers to its new owner and keeps its id, the former owner's list has lost it, the new owner's list has it at the end. One-to-one (assignment from either side): the two refer to each other, the id is kept, the former partners of both refer to nothing. Ending a link by None, by removal, or by assigning another id, completes and clears both sides only (an assigned id is kept).", "quantifier": "all programs with properly declared relations, all states, all objects, any former partners or owners", "why_tests_cant": "One assignment cascades through the callbacks of up to four objects; unit tests look at the attributes they expect to change, not at all others of all objects.", "anchors": ["jsonclasses/jsonclassify.py: __setattr__, __link_field__, __unlink_field__, __olist_add__, __olist_del__", "jsonclasses/olist.py: OwnedList.append, OwnedList.remove"]}
{"id": "C81", "title": "Formatted output shows the stored day and moment", "statement": "tojson of a field types.date.fmtd(f) gives strftime with f of midnight UTC of the stored date; of types.datetime.fmtd(f) gives strftime of the stored moment to the millisecond, as UTC; without a date type before it, fmtd formats the stored value itself and leaves everything but dates and texts alone.", "quantifier": "all valid dates and datetimes, all formats, any implementation of strftime", "why_tests_cant": "fmtd does not see the date but the text made by the modifier before it and parses that text again, so it holds only if the two text formats fit for every date; tests use a few dates", "anchors": ["jsonclasses/modifiers/fmtd_modifier.py: FormatDatetimeModifier.tojson", "jsonclasses/modifiers/date_modifier.py: DateModifier.tojson", "jsonclasses/modifiers/datetime_modifier.py: DatetimeModifier.tojson"]}
{"id": "C82", "title": "Uploaded files stay in the configured directory and never replace each other", "statement": "Whatever file name the client sends and whatever was uploaded before, an upload changes no file but one directly in public/<dir> of the named uploader; it stores the content under a new name that keeps the lowered extension and returns the URL of that file; no sequence of uploads overwrites any file; no two uploads return the same URL. Uploads to S3 hand over the content under such a name and return endpoint/bucket/name. None is not uploaded.", "quantifier": "all file names, contents, configurations, sequences of uploads with any uploaders and any failures in between; for clashes: as long as uuid4 does not repeat", "why_tests_cant": "an attacker chooses the file name; tests try a few names and never sequences of uploads with failures", "anchors": ["jsonclasses/uploaders.py: LocalFSClient, LocalFSUploader, S3Uploader, AliOSSUploader, request_uploader", "jsonclasses/modifiers/uploader_modifier.py: UploaderModifier.transform"]}
{"id": "C83", "title": "The output of tojson() is plain JSON data", "statement": "If the values an object and the objects it leads to hold are of the declared kinds (texts, numbers, dates of date fields, enum members of enum fields, lists and dicts of such, objects), whatever tojson() returns, with whatever options, consists of None, truth values, numbers, texts, lists and dicts only, so that it can be encoded as JSON. In particular this holds of every object that passed validate(), if each declaration names a type. It fails for declarations that do not: a field of any type, or a list without item type, hands a date out as it is. Data made of lists, dicts, plain values and such objects is written by `json.dumps` with the library's encoder as the data with every object replaced by its tojson(), and it is always written, given a sufficient recursion limit.", "quantifier": "all class definitions, all object graphs of any size and shape including cycles, all nestings of lists, dicts and unions, all options of tojson()", "why_tests_cant": "A test encodes a few objects; that no date, enum member or object survives anywhere in the output is a statement about all nestings of declared types and all graphs.", "anchors": ["jsonclasses/encoder.py:JSONEncoder.default", "jsonclasses/modifiers/instanceof_modifier.py:InstanceOfModifier.tojson", "jsonclasses/modifiers/collection_type_modifier.py:CollectionTypeModifier.tojson", "jsonclasses/modifiers/union_modifier.py:UnionModifier.tojson", "jsonclasses/modifiers/date_modifier.py:DateModifier.tojson", "jsonclasses/modifiers/enum_modifier.py:EnumModifier.tojson", "jsonclasses/encoder.py: JSONEncoder.default"]}
{"id": "C84", "title": "Changing a list of related objects regroups exactly the objects concerned", "statement": "In a one-to-many relation whose list holds each of its objects once and whose objects refer back: assigning a new list, clear, pop, del by index, insert, extend, += and assigning an item leave the list with exactly the items Python's list would have; every object that left and did not come back refers to nothing and keeps no id; every object that joined refers to the owner and keeps its id; every other owner's list is its old list without the newcomers, in the same order; no other attribute of any object changes; and the list again holds each object once with all objects referring back. Operations that only remove always complete; for the others this is what holds when they complete.", "quantifier": "all programs with properly declared one-to-many relations, all states, lists of any length, all indices, newcomers that are free or belong to any other owners", "why_tests_cant": "Each object that joins cascades through the callbacks of its former owner while the new list is being walked; tests use lists of one or two items and look only at the attributes they expect to change.", "anchors": ["jsonclasses/jsonclassify.py: __setattr__, __link_field__, __unlink_field__, __olist_add__, __olist_del__, __olist_will_change__", "jsonclasses/olist.py: OwnedList.clear, pop, insert, extend, __iadd__, __setitem__, __delitem__"]}
{"id": "C85", "title": "Changing a list of a many-to-many relation has exactly its effect on both sides", "statement": "In a many-to-many relation where one side keeps the ids of its objects beside its list, and where lists hold each object once, the ids are those of the objects and can be told apart, and the other side lists back: assigning a new list, clear, pop, del by index, insert, extend and += from either side, and assigning an item from the side without ids, leave the list with exactly the items Python's list would have and, on the side with ids, the ids of these items in the same order; every object that left no longer lists the changed object (nor keeps its id); every object that joined lists it once, at the end (with its id); an object that is in the old and the new list of an assignment lists it at the end instead of where it was; no other attribute of any object changes; and both sides agree again. Operations that only remove always complete; for the others this is what holds when they complete.", "quantifier": "all programs with properly declared many-to-many relations, all states, lists of any length on both sides, all indices", "why_tests_cant": "Each object that leaves or joins is reported to the object on the other side, which reports back while the list is being walked, and ids are removed and inserted by position and by value; tests use lists of one or two items and look only at the attributes they expect to change.", "anchors": ["jsonclasses/jsonclassify.py: __setattr__, __link_field__, __unlink_field__, __olist_add__, __olist_del__, __olist_will_change__", "jsonclasses/olist.py: OwnedList.clear, pop, insert, extend, __iadd__, __setitem__, __delitem__"]}
{"id": "C86", "title": "`==` between objects tells whether a difference can be found", "statement": "Comparing two values with `==`, objects of JSON classes included, answers True exactly if they are alike: plain values that are equal, lists with alike items in the same places, dicts with alike values under the same keys, and objects that are the same object or two objects of one class with alike values in every field (calculated fields included), however far one follows the fields. Objects of different classes are never equal, an object is equal to itself, and the answer does not depend on how deep Python may recurse. The comparison returns whenever getters return and no chain of fields leads back to its start.", "quantifier": "all class definitions, all states of the heap, all values of any nesting, all recursion limits", "why_tests_cant": "Whether two objects are equal depends on everything reachable from both of them; tests compare flat objects, and objects whose relations lead back to them make the comparison recurse without end.", "anchors": ["jsonclasses/jsonclass.py: jsonclass (dataclass)", "jsonclasses/jsonclassify.py: __getattribute__", "jsonclasses/jobject.py: JObject"]}
{"id": "C87", "title": "Linking tells different objects apart", "statement": "Assigning to fields and changing lists in fields never confuses two objects: although the code looks objects up with `==`, what an operation does is what it would do if objects were compared by identity. It holds as long as any two objects of one class differ in one of the leading plain fields of the class (such as the primary key), which operations on other fields keep true.", "quantifier": "all class definitions, all states in which objects are told apart by leading fields, all sequences of assignments, list and dict methods on any objects, all updates and resets, all recursion limits", "why_tests_cant": "The lookups happen deep inside linking and unlinking; tests give their objects different ids, and the confusion appears only for particular contents of two objects.", "anchors": ["jsonclasses/jsonclassify.py: __setattr__", "jsonclasses/jsonclassify.py: __link_field__", "jsonclasses/jsonclassify.py: __unlink_field__", "jsonclasses/jsonclassify.py: _add_unlinked_object", "jsonclasses/jsonclassify.py: _del_unlinked_object", "jsonclasses/olist.py: remove", "jsonclasses/jsonclassify.py: update", "jsonclasses/jsonclassify.py: reset"]}
{"id": "C88", "title": "The primary key an object is stored under is remembered", "statement": "For an object that was loaded or saved, `_previous_id` is the primary key it had then, whatever program runs afterwards: assignments to any objects (also of the key itself, several times), changes of lists and dicts, `set`, `update` and constructors, completing or raising. More generally, for a field that belongs to no relation and is declared to have its previous value recorded: when the field is reported as modified, the recorded previous value is the value it had, and otherwise it still has this value and nothing is recorded. A `reset()` that completes afterwards gives the field its value back, or an equal one. Declaring a field `primary` makes its previous value be recorded. A new object's `_previous_id` is its own key.", "quantifier": "all class definitions with plain unions, all object graphs, all programs of any length on any objects, whose steps complete or raise", "why_tests_cant": "an ORM updates the row found by `_previous_id`; whether it is still right depends on the whole history of the object and of every object linked to it", "anchors": ["jsonclasses/jsonclassify.py: _previous_id", "jsonclasses/jsonclassify.py: _id", "jsonclasses/jsonclassify.py: __setattr__", "jsonclasses/jsonclassify.py: reset", "jsonclasses/types.py: primary"]}
{"id": "C89", "title": "A value checked against a looked-up record is accepted exactly if the record says so", "statement": "A field declared `eq(types.crossfetch(cls, this_key, that_key).fval(value))`, as used for verification codes, accepts None, and otherwise exactly the value that the stored record of class `cls` with `that_key` equal to this object's `this_key` holds in `value`. Without such a record, and for another value, it refuses with a validation error at the field's path.", "quantifier": "all classes, objects, keys and values, all ORMs that answer truthfully, all sets of stored records with unique keys", "why_tests_cant": "acceptance depends on the contents of the database and of the object; a test covers a few records", "anchors": ["jsonclasses/modifiers/cross_fetch_modifier.py: CrossFetchModifier", "jsonclasses/modifiers/fval_modifier.py: FValModifier", "jsonclasses/modifiers/eq_modifier.py: EqModifier", "jsonclasses/modifiers/modifier.py: resolve_param"]}
{"id": "C90", "title": "Inputs of plain values can be repeated and split", "statement": "Repeating obj.set(**values) does nothing: after a completed call the same call, at once or after a save or anything else that kept the object's values, completes and changes no value, flag, modified field or previous value, also when a pipeline is not idempotent. Splitting it does not matter: obj.set(**a, **b) completes exactly if obj.set(**a) followed by obj.set(**b) completes, and both give the same values, modified fields and previous values. The values are those of stored fields that are not relations and whose pipelines look at the given value only (scalars, lists, dicts, unions); for repeating, the stored results must equal themselves (no NaN).", "quantifier": "all classes and pipelines of modifiers that look at the value only (nested to any depth in lists, dicts and unions, eager marks anywhere), all write rules, strict or not, all objects (new or persisted) in all states, all inputs and all pairs of inputs about different fields, all later states with the same values of the object", "why_tests_cant": "repetition after an arbitrary program in between, and the interplay of every order of fields with write rules, recorded previous values and lists that are filled in, is an unbounded family; tests check a few orders", "anchors": ["jsonclasses/modifiers/instanceof_modifier.py: InstanceOfModifier.transform", "jsonclasses/jsonclassify.py: set, __setattr__", "jsonclasses/modifiers/chained_modifier.py: ChainedModifier.transform", "jsonclasses/modifiers/collection_type_modifier.py: CollectionTypeModifier.transform"]}
{"id": "C91", "title": "An object can be created at once or step by step", "statement": "If `o = C(**a)` completes, then `o.set(**b)` with values for other fields completes exactly if `C(**a, **b)` completes, and the object is the same: the same values (a value that equals the one present by `==` is not assigned again), flags, records and registration, and nothing else differs. The values in `a` and `b` are those of stored fields that are not relations and whose pipelines look at the given value only; blanks are filled by a static default, by such a pipeline, or stay missing (objects). Write-once fields set in the second step were blank, and the primary key is not set in the second step.", "quantifier": "all classes, all such fields and pipelines at any nesting of lists, dicts and unions, all inputs a and b about different fields, all states", "why_tests_cant": "a test compares the two ways for a few fields and values; the claim covers any split of any input, any defaults and the failure cases", "anchors": ["jsonclasses/jsonclassify.py: __init__", "jsonclasses/jsonclassify.py: set", "jsonclasses/modifiers/instanceof_modifier.py: transform", "jsonclasses/modifiers/instanceof_modifier.py: _fill_default_value"]}
{"id": "C92", "title": "Writing the JSON of an object back to it changes nothing", "statement": "If obj.tojson() gives a dict, then obj.set(**that dict), called later while the objects are as they were, completes and changes nothing: no value, no is_modified flag, no modified field, no previous value and no relation of any object. This holds for every option of tojson, for strict input too, with readonly, writeonce and writeonly fields, and with relations whose object is not loaded (the id is sent along). It is required that names and JSON names of different fields do not collide, that each value that is output and accepted as input is equal to what its pipeline makes of its JSON form (as None, scalars that survive, and lists and dicts of them do), that ids are equal to themselves, and that a relation list declared as required is not None.", "quantifier": "every class, every object and state, every option of tojson and every recursion limit", "why_tests_cant": "A test writes back a few objects; the statement covers all field types, write rules, options, name conventions, and relations by id at once.", "anchors": ["jsonclasses/modifiers/instanceof_modifier.py: InstanceOfModifier.transform, InstanceOfModifier.tojson", "jsonclasses/jsonclassify.py: set, tojson, __setattr__"]}
{"id": "C93", "title": "The options of tojson() only add entries", "statement": "Take two calls of tojson() on the same object in the same state that both succeed, where the second one has every option set that the first one has (nulls output, writeonly marks ignored, reverse relations output). Then the second result is the first one with further entries, at every depth: all dicts keep their entries in their order and all lists their items. An added entry is a null if the two differ in the output of nulls, a writeonly field if they differ in ignoring writeonly marks, or a relation field that has an opposite field if they differ in reverse relations; nothing else is added. In particular with and without nulls the results differ in nulls only, and calls with equal options give equal results. Classes must give distinct JSON names to their fields and ids, and each field has one type modifier that converts (a scalar, an object, or lists and dicts of such; no union) and does not look at the options.", "quantifier": "all classes, object graphs (cyclic ones too), states, options and recursion limits", "why_tests_cant": "A test compares two outputs of one graph; the statement is about every graph and every combination of the options, at every depth.", "anchors": ["jsonclasses/modifiers/instanceof_modifier.py: InstanceOfModifier.tojson", "jsonclasses/jsonclassify.py: tojson", "jsonclasses/ctx.py: Ctx.nextvc, Ctx.nextoc"]}
{"id": "C94", "title": "A JSON class has the fields that it and its JSON base classes declare", "statement": "The fields of a class under @jsonclass are exactly the names annotated in its body or in the body of a JSON class that it inherits from, each once, those of the base class first and in its order. For a name that several of them annotate, the most derived one counts: its annotation, and what its body assigns (or else what is inherited there). A types declaration is used as it is; otherwise the types come from the annotation, and a value behind = is what the field of a new object starts with; field(default_factory=f) starts it with what f makes. No two objects share a mutable default: a list or a dict as default is refused when the class is defined.", "quantifier": "all class statements, decorated or not, with any bodies and any depth of inheritance", "why_tests_cant": "A test defines a few classes; the statement is about every hierarchy of class statements.", "anchors": ["jsonclasses/jsonclass.py: jsonclass", "jsonclasses/cdef.py: CDef.__init__", "jsonclasses/jfield.py: JField.default", "jsonclasses/modifiers/instanceof_modifier.py: InstanceOfModifier._fill_default_value"]}
{"id": "C95", "title": "A missing package is installed and listed once in requirements.txt", "statement": "Declaring a type that needs packages (salt, checkpw, uploader) does nothing when their modules can be imported. Otherwise pip is called for the missing ones, in order and for no others, and each installed package that requirements.txt does not list gets a line with its name and version specifier at the end of the file; the lines that are there stay as they are, whatever happens. Declaring the types again leaves the file as it is.", "quantifier": "all lists of packages, contents of requirements.txt, sets of importable modules and outcomes of pip", "why_tests_cant": "A test would have to run pip; the statement is about every content of the file and every outcome.", "anchors": ["jsonclasses/pkgutils.py: check_package, install_package, check_and_install_packages", "jsonclasses/modifiers/modifier.py: Modifier.check_packages"]}
